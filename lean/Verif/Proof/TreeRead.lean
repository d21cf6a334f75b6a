import Verif.Proof.PropRead
/-! # Reading a block tree -/

namespace YamlPeg
open M

theorem SepOK.nl {sp E : Bytes} (h1 : ∀ x ∈ sp, isBlank x = true) (h2 : sp = [] ∨ ∃ r, sp = 0x20 :: r) (hE : nlLen E ≠ 0) :
    SepOK sp E := by
  obtain ⟨c, r, rfl, hc⟩ := nl_head hE
  refine ⟨h1, ⟨c, r, rfl, by rcases hc with rfl | rfl <;> decide⟩, ?_⟩
  rcases h2 with rfl | h2
  · exact .inr ⟨rfl, hE⟩
  · exact .inl h2

theorem Blk.sepOf.fits {sp : Bytes} {b : Blk} (h : b.sepOf sp) {E : Bytes} (hf : Fits b.kind E) : SepOK sp (b.text ++ E) := by
  rcases h with h | ⟨h1, h2, h3, h4⟩
  · exact h.append E
  · rw [h2] at hf
    rw [h1]; exact .nl h3 h4 hf

theorem Items.sepOK {its : Items} {τ : Nat} (h : its.wf τ) {E : Bytes} (hf : Fits its.kind E) :
    SepOK its.sp (its.body τ ++ E) := by
  cases its with
  | one sp b => exact h.1.fits hf
  | cons sp b G rest =>
    have := h.1.fits (h.2.2.2.1 (rest.sp ++ rest.body τ))
    have := this.append E
    simpa only [Items.sp, Items.body, List.append_assoc] using this

theorem Ents.sepOK {es : Ents} {τ : Nat} (h : es.wf τ) {E : Bytes} (hf : Fits es.kind E) :
    SepOK es.sp (es.body τ ++ E) := by
  cases es with
  | one T y sp b => exact h.2.1.fits hf
  | cons T y sp b G rest =>
    have := h.2.1.fits (h.2.2.2.2.1 (0x3A :: (rest.sp ++ rest.body τ)))
    have := this.append E
    simpa only [Ents.sp, Ents.body, List.append_assoc] using this

theorem Ents.keyOK {es : Ents} {τ : Nat} (h : es.wf τ) : KeyOK es.T es.y := by
  cases es with
  | one T y sp b => exact h.1
  | cons T y sp b G rest => exact h.1

theorem GapText.stops {G : Bytes} (hG : GapText G) {τ σ : Nat} (h : τ < σ) {c : UInt8} (hc : tokHead c = true)
    (r : Bytes) : Stops σ false (G ++ (spaces τ ++ c :: r)) := by
  obtain ⟨t, ht⟩ := hG _ ⟨τ, c, r, rfl, hc⟩
  exact .inr ⟨t, G, _, ht, .inr (.inr ⟨τ, c, r, rfl, (tokHead_ne hc).2.2.2.1, .inl h⟩)⟩

/-- A line at the column of a map that is a key, not an item. -/
theorem GapText.stops_key {G : Bytes} (hG : GapText G) {τ : Nat} {T : Bytes} (hT : KeyHead T) (r : Bytes) :
    Stops τ true (G ++ (spaces τ ++ (T ++ r))) := by
  obtain ⟨c, s, rfl, h1, h3⟩ := hT
  obtain ⟨t, ht⟩ := hG (spaces τ ++ (c :: s ++ r)) ⟨τ, c, s ++ r, rfl, h1⟩
  refine .inr ⟨t, G, _, ht, .inr (.inr ⟨τ, c, s ++ r, rfl, (tokHead_ne h1).2.2.2.1, .inr ⟨rfl, rfl, ?_⟩⟩)⟩
  intro hc
  obtain ⟨x, u, rfl, hx⟩ := h3 hc
  simp only [List.cons_append, headIn]
  simpa using hx

theorem docMark_spaces {τ : Nat} {post : Bytes} (h : docMark post = false) : docMark (spaces τ ++ post) = false := by
  cases τ with
  | zero => simpa [spaces] using h
  | succ n => simp [spaces, List.replicate_succ, docMark, List.isPrefixOf]

theorem docMark_dash {sp text : Bytes} (h : SepOK sp text) : docMark (0x2D :: (sp ++ text)) = false := by
  obtain ⟨h1, ⟨c, r, rfl, hc⟩, h3⟩ := h
  rcases h3 with ⟨s, rfl⟩ | ⟨rfl, hn⟩
  · simp [docMark, List.isPrefixOf]
  · have : c ≠ 0x2D := by
      rintro rfl; apply hn; rw [nlLen_zero_iff]; rintro _ _ ⟨⟩; decide
    simp [docMark, List.isPrefixOf, Ne.symm this]

theorem docMark_key {T : Bytes} (h : docMark T = false) (r : Bytes) : docMark (T ++ 0x3A :: r) = false := by
  match T, h with
  | [], _ => simp [docMark, List.isPrefixOf]
  | [a], _ => simp [docMark, List.isPrefixOf]
  | [a, b], _ => simp [docMark, List.isPrefixOf]
  | a :: b :: c :: s, h => simpa [docMark, List.isPrefixOf] using h

/-- Rejecting a line that is no item, inside the loop of `seq`. -/
theorem seqLoop_noitem (k : Ctx) (L : Loader) (pre m r : Bytes)
    (h : ∃ c r', r = c :: r' ∧ c ≠ 0x20 ∧ (c = 0x2D → headIn b!":{}[] ,\n\r" r' = false)) :
    (do if ← isOk (lift (sym 0x2D)) then
          if ← isOk (lift bound) then do
            lift forward
            pure false
          else pure true
        else pure true : LM Bool) (ld L (st k pre m r)) = (.ok true, ld L (st k pre [] (m ++ r))) := by
  obtain ⟨c, r', h1, h2, h3⟩ := h
  rcases dash_no k pre m ⟨c, r', h1, h3⟩ with ⟨s, hs, rfl⟩ | ⟨r'', hr, hs, hb⟩
  · rw [bind_ok (isOk_err (lift_of hs))]; rfl
  · rw [bind_ok (isOk_ok (lift_of hs))]
    simp only [if_true]
    rw [bind_ok (isOk_err (lift_of hb))]
    rfl

theorem Blk.node_def (b : Blk) (p : Nat) (e : Env) : Node.mk (p + b.off) b.tag (b.data p e) = b.node p e := rfl

theorem isEmpty_snoc (v : List α) (x : α) : (v ++ [x]).isEmpty = false := by simp

theorem orErr_ok {x : LM α} {name : String} (h : x s = (.ok a, s')) : orErr x name s = (.ok a, s') :=
  orElse_ok h

/-- What the loop of `seq` does with one more item. -/
def seqGo (n level : Nat) (map : Bool) (c : Nat) (v : List Node) : LM (List Node) := do
  lift forward
  let x ← orErr (scalar n (level + 1) false false) "sequence item"
  seqLoop (scalar n) level map c (v ++ [x])

/-- What the loop of `map` does behind a key. -/
def mapGo (n level : Nat) (map : Bool) (i c : Nat) (m : List (Node × Node)) (kn : Node) : LM Yaml := do
  lift forward
  let v ← orErr (scalar n (level + 1) true false) "map value"
  mapLoop (scalar n) (scalarFlow (scalar n) i (level + 1) false) level map false c (m ++ [(kn, v)])

/-- The key at the front of an entry. -/
theorem key_read {es : Ents} {τ : Nat} (hwf : es.wf τ) (k : Ctx) (level : Nat) {E : Bytes} (hf : Fits es.kind E)
    (hw : 0 < k.want (level + 1)) :
    ∃ k', k'.at (level + 1) = k.at (level + 1) ∧ ∃ N, ∀ a n, N ≤ a → N ≤ n → ∀ L pre, L.Ready →
      scalarFlow (scalar a) n (level + 1) false
        (ld L (st k pre [] (es.T ++ 0x3A :: (es.sp ++ es.body τ) ++ E))) =
        (.ok (.mk (k.consumed + pre.length) [] es.y),
          ld L (st k' (pre ++ es.T) [] (0x3A :: (es.sp ++ (es.body τ ++ E))))) := by
  have hsep := Ents.sepOK hwf hf
  obtain ⟨k', hk', N, hN⟩ := leafNode_read k (Ents.keyOK hwf).1.toE (level := level + 1)
    (E := 0x3A :: (es.sp ++ (es.body τ ++ E))) hw (by simp) (.inl ⟨by simp, _, rfl, hsep.colonStop⟩)
  refine ⟨k', hk', N, fun a n ha hn L pre hL => ?_⟩
  have := hN a n ha hn L pre hL trivial
  rw [show Known.none.eff (k.consumed + pre.length) (envOf L k) = L.cur from rfl, Loader.put_cur hL] at this
  simpa only [List.append_assoc, List.cons_append] using this

/-! ## Keys that are nodes -/

theorem CEnts.K_def (es : CEnts) (τ : Nat) : es.K τ = ktext τ es.c es.b.text := by cases es <;> rfl

/-- The node of the first key, whose text begins at position `p`. -/
def CEnts.keyNode (es : CEnts) (p : Nat) (e : Env) : Node := es.b.node (p + koff es.c) e
/-- The anchors known behind the first key. -/
def CEnts.keyEff (es : CEnts) (p : Nat) (e : Env) : Anchors := es.b.eff (p + koff es.c) e
/-- The first key is well-formed. -/
def CEnts.keyWf (es : CEnts) (τ : Nat) : Prop :=
  (es.c = none ∧ es.b.flatKey) ∨
  (∃ s G, es.c = some (s, G) ∧ SepOK s es.b.text ∧ es.b.wfV τ ∧ es.b.deep τ ∧ GapText G ∧
      ∀ r, Fits es.b.kind (G ++ (spaces τ ++ 0x3A :: r)))

theorem CEnts.wf.key {es : CEnts} {τ : Nat} (h : es.wf τ) : es.keyWf τ := by
  cases es with
  | one c b sp v =>
    rcases c with _ | ⟨s, G⟩
    · exact .inl ⟨rfl, h.1⟩
    · exact .inr ⟨s, G, rfl, h.1⟩
  | cons c b sp v G' rest =>
    rcases c with _ | ⟨s, G⟩
    · exact .inl ⟨rfl, h.1⟩
    · exact .inr ⟨s, G, rfl, h.1⟩

theorem CEnts.wf.one {τ : Nat} {c : Option (Bytes × Bytes)} {b v : Blk} {sp : Bytes} (h : (CEnts.one c b sp v).wf τ) :
    v.sepOf sp ∧ v.wfV τ := by rcases c with _ | ⟨s, G⟩ <;> exact h.2

theorem CEnts.wf.cons {τ : Nat} {c : Option (Bytes × Bytes)} {b v : Blk} {sp G' : Bytes} {rest : CEnts}
    (h : (CEnts.cons c b sp v G' rest).wf τ) :
    v.sepOf sp ∧ (v.wfV τ ∧ v.deep τ) ∧ GapText G' ∧
      (∀ r, Fits v.kind (G' ++ (spaces τ ++ (rest.K τ ++ r)))) ∧ rest.wf τ := by
  rcases c with _ | ⟨s, G⟩ <;> exact h.2

theorem CEnts.sepOK {es : CEnts} {τ : Nat} (h : es.wf τ) {E : Bytes} (hf : Fits es.kind E) :
    SepOK es.sp (es.body τ ++ E) := by
  cases es with
  | one c b sp v => exact h.one.1.fits hf
  | cons c b sp v G rest =>
    have := h.cons.1.fits (h.cons.2.2.2.1 (0x3A :: (rest.sp ++ rest.body τ)))
    have := this.append E
    simpa only [CEnts.sp, CEnts.body, List.append_assoc] using this

theorem Form.wf.append {f : Form} {X : Bytes} (h : f.wf X) (E : Bytes) : f.wf (X ++ E) := by
  cases f with
  | anchor a sp => exact ⟨h.1, h.2.append E⟩
  | tag tg t sp => exact ⟨h.1, h.2.append E⟩
  | anchorTag a sp tg t sp' => exact ⟨h.1, h.2.1, h.2.2.1, h.2.2.2.append E⟩
  | tagAnchor tg t sp a sp' => exact ⟨h.1, h.2.1, h.2.2.1, h.2.2.2.append E⟩

theorem Form.text_head {f : Form} {X : Bytes} (h : f.wf X) : ∃ c r, f.text = c :: r ∧ (c = 0x26 ∨ c = 0x21) := by
  cases f with
  | anchor a sp => exact ⟨_, _, rfl, .inl rfl⟩
  | tag tg t sp => obtain ⟨⟨r, rfl⟩, _⟩ := h; exact ⟨_, _, rfl, .inr rfl⟩
  | anchorTag a sp tg t sp' => exact ⟨_, _, rfl, .inl rfl⟩
  | tagAnchor tg t sp a sp' => obtain ⟨⟨r, rfl⟩, _⟩ := h; exact ⟨_, _, rfl, .inr rfl⟩

theorem Blk.flatKey.cases {b : Blk} (h : b.flatKey) :
    ∃ T κ y pc, LeafOKE κ T y pc ∧ docMark T = false ∧ KeyKind κ ∧
      (b = .leaf [] T κ y pc ∨ ∃ f, f.wf T ∧ b = .prop f (.leaf [] T κ y pc)) := by
  cases b with
  | leaf lead T κ y pc =>
    obtain ⟨rfl, h1, h2, h3⟩ := h
    exact ⟨T, κ, y, pc, h1, h2, h3, .inl rfl⟩
  | prop f b =>
    cases b with
    | leaf lead T κ y pc =>
      obtain ⟨h0, rfl, h1, h2, h3⟩ := h
      exact ⟨T, κ, y, pc, h1, h2, h3, .inr ⟨f, h0, rfl⟩⟩
    | _ => exact h.elim
  | _ => exact h.elim

/-- The first byte of a key. -/
theorem CEnts.keyWf.head {es : CEnts} {τ : Nat} (h : es.keyWf τ) : KeyHead (es.K τ) := by
  rw [CEnts.K_def]
  rcases h with ⟨hc, hb⟩ | ⟨s, G, hc, _⟩
  · rw [hc]
    obtain ⟨T, κ, y, pc, h1, h2, h3, hb | ⟨f, hf, hb⟩⟩ := hb.cases
    · rw [hb]; simpa [ktext, Blk.text] using h1.2.keyHead
    · rw [hb]
      obtain ⟨c, r, hc, hor⟩ := Form.text_head hf
      refine ⟨c, r ++ T, by simp [ktext, Blk.text, hc], ?_, ?_⟩
      · rcases hor with rfl | rfl <;> decide
      · rintro rfl; exact absurd hor (by decide)
  · rw [hc]
    exact ⟨_, _, rfl, by decide, fun h => absurd h (by decide)⟩

theorem CEnts.keyWf.plain {es : CEnts} {τ : Nat} (h : es.keyWf τ) (hp : es.c ≠ none ∨ es.b.bare = true) :
    ∃ c r, es.K τ = c :: r ∧ tokHead c = true ∧ plainHead c := by
  rw [CEnts.K_def]
  rcases h with ⟨hc, hb⟩ | ⟨s, G, hc, _⟩
  · rw [hc]
    obtain ⟨T, κ, y, pc, h1, h2, h3, hb | ⟨f, hf, hb⟩⟩ := hb.cases
    · rw [hb]; simpa [ktext, Blk.text] using h1.2.head
    · rw [hb, hc] at hp; simp [Blk.bare] at hp
  · rw [hc]
    exact ⟨_, _, rfl, by decide, by simp [plainHead]⟩

theorem CEnts.keyWf.mark {es : CEnts} {τ : Nat} (h : es.keyWf τ) (r : Bytes) : docMark (es.K τ ++ 0x3A :: r) = false := by
  rw [CEnts.K_def]
  rcases h with ⟨hc, hb⟩ | ⟨s, G, hc, _⟩
  · rw [hc]
    obtain ⟨T, κ, y, pc, h1, h2, h3, hb | ⟨f, hf, hb⟩⟩ := hb.cases
    · rw [hb]; simpa [ktext, Blk.text] using docMark_key h2 r
    · rw [hb]
      obtain ⟨c, u, hc, hor⟩ := Form.text_head hf
      simp only [ktext, Blk.text, hc, List.cons_append]
      rcases hor with rfl | rfl <;> simp [docMark, List.isPrefixOf]
  · rw [hc]
    simp [ktext, docMark, List.isPrefixOf]

/-- The indicator `?`. -/
theorem complexMapping_yes (k : Ctx) (pre : Bytes) {s text : Bytes} (h : SepOK s text) :
    complexMapping (st k pre [] (0x3F :: (s ++ text))) = (.ok (), st k pre (0x3F :: s) text) := by
  rw [complexMapping, bind_ok (sym_hit ..), bound_sep _ _ _ h]; rfl

/-- A key on the line of its `:`. -/
theorem flatKey_read {b : Blk} (hb : b.flatKey) (k : Ctx) (level : Nat) {E : Bytes} (hE : colonStop E = true)
    (hw : 0 < k.want (level + 1)) :
    ∃ k', k'.at (level + 1) = k.at (level + 1) ∧ ∃ N, ∀ a n, N ≤ a → N ≤ n → ∀ L pre, L.Ready →
      b.fine (k.consumed + pre.length) (envOf L k) →
      scalarFlow (scalar a) n (level + 1) false (ld L (st k pre [] (b.text ++ 0x3A :: E))) =
        (.ok (b.node (k.consumed + pre.length) (envOf L k)),
          ld (L.put (b.eff (k.consumed + pre.length) (envOf L k))) (st k' (pre ++ b.text) [] (0x3A :: E))) := by
  obtain ⟨T, κ, y, pc, h1, h2, h3, hb⟩ := hb.cases
  obtain ⟨k', hk', N, hN⟩ := leafNode_read k h1 (level := level + 1) (E := 0x3A :: E) hw
    (fun w h => absurd h (h3.2 w)) (.inl ⟨h3.1, _, rfl, hE⟩)
  refine ⟨k', hk', N, fun a n ha hn L pre hL hfine => ?_⟩
  rcases hb with rfl | ⟨f, hf, rfl⟩
  · simp only [Blk.fine] at hfine
    have := hN a n ha hn L pre hL hfine
    simpa [Blk.text, Blk.node, Blk.off, Blk.tag, Blk.data, Blk.eff, envOf, Loader.put_cur hL] using this
  · simp only [Blk.fine] at hfine
    have hpos : k.consumed + (pre ++ f.text).length = k.consumed + pre.length + f.text.length := by simp; omega
    have := hN a n ha hn L (pre ++ f.text) hL (by rw [hpos]; exact hfine.2.1)
    have hX : noProps (T ++ 0x3A :: E) = true := by
      obtain ⟨c, r, hT, _, hc⟩ := h1.2.head
      rw [hT]; exact noProps_of hc
    rw [hpos, scalarFlow] at this
    rw [scalarFlow]
    simp only [Blk.text, List.nil_append, List.append_assoc] at this ⊢
    rw [scalarNode_prop (Form.wf.append hf _) hfine.1 hX hL hfine.2.2 this]
    simp [Blk.node, Blk.off, Blk.tag, Blk.data, Blk.eff]

theorem CEnts.fine.key {es : CEnts} {τ p : Nat} {e : Env} (h : es.fine τ p e) : es.b.fine (p + koff es.c) e := by
  cases es with
  | one c b sp v => simp only [CEnts.fine] at h; exact h.1
  | cons c b sp v G rest => simp only [CEnts.fine] at h; exact h.1

theorem Ents.head_text {es : Ents} {τ : Nat} (hwf : es.wf τ) :
    ∃ c r, es.T = c :: r ∧ tokHead c = true ∧ plainHead c := (Ents.keyOK hwf).1.2.head

theorem Blk.inner_bare {b : Blk} (h : b.bare = true) : b.inner = b.lead := by
  cases b <;> simp_all [Blk.bare, Blk.inner]
theorem Blk.off_bare {b : Blk} (h : b.bare = true) : b.off = 0 := by cases b <;> simp_all [Blk.bare, Blk.off]
theorem Blk.tag_bare {b : Blk} (h : b.bare = true) : b.tag = [] := by cases b <;> simp_all [Blk.bare, Blk.tag]

theorem noProps_nl {E : Bytes} (h : nlLen E ≠ 0) : noProps E = true := by
  obtain ⟨c, r, rfl, hc⟩ := nl_head h
  rcases hc with rfl | rfl <;> rfl

theorem Blk.noPropsN {σ : Nat} {b : Blk} (h : b.wfN σ) (hb : b.bare = true) {E : Bytes} (hf : Fits b.kind E) :
    noProps (b.text ++ E) = true := by
  cases b with
  | leaf lead T κ y pc =>
    rw [Blk.wfN] at h
    rcases h with h | ⟨⟨rfl, rfl, rfl, _⟩, _⟩
    rotate_left
    · exact noProps_nl hf
    obtain ⟨c, r, hT, _, h2⟩ := h.2.1.2.head
    obtain ⟨c', r', hc, hp⟩ := h.1.head (c := c) (r := r ++ E) h2
    have : lead ++ T ++ E = c' :: r' := by rw [hT]; simpa using hc
    rw [Blk.text, this]; exact noProps_of hp
  | lit T τ s =>
    rw [Blk.wfN] at h
    obtain ⟨r, hr⟩ := h.2.1
    rw [Blk.text]; rcases hr with rfl | rfl <;> rfl
  | seq lead τ its =>
    rw [Blk.wfN] at h
    obtain ⟨c', r', hc, hp⟩ := h.1.head (c := 0x2D) (r := its.sp ++ its.body τ ++ E) (by simp [plainHead])
    have : lead ++ 0x2D :: (its.sp ++ its.body τ) ++ E = c' :: r' := by rw [← hc]; simp
    rw [Blk.text, this]; exact noProps_of hp
  | map lead τ es =>
    rw [Blk.wfN] at h
    obtain ⟨c, r, hT, _, h2⟩ := Ents.head_text h.2.2.1
    obtain ⟨c', r', hc, hp⟩ := h.1.head (c := c) (r := r ++ 0x3A :: (es.sp ++ es.body τ) ++ E) h2
    have : lead ++ (es.T ++ 0x3A :: (es.sp ++ es.body τ)) ++ E = c' :: r' := by rw [← hc, hT]; simp
    rw [Blk.text, this]; exact noProps_of hp
  | cmap lead τ es =>
    rw [Blk.wfN] at h
    obtain ⟨hl, _, hi, hp⟩ := h
    rcases hl with rfl | ⟨G, hG, rfl⟩
    · obtain ⟨c, r, hT, _, h2⟩ := hi.key.plain (hp rfl)
      rw [Blk.text, hT]; exact noProps_of h2
    · obtain ⟨x, s, rfl, hx⟩ := hG.head
      rw [Blk.text]; exact noProps_of (plainHead_of_not_tok hx)
  | prop f b => simp [Blk.bare] at hb

theorem Blk.noPropsV {σ : Nat} {b : Blk} (h : b.wfV σ) (hb : b.bare = true) {E : Bytes} (hf : Fits b.kind E) :
    noProps (b.text ++ E) = true := by
  cases b with
  | leaf lead T κ y pc =>
    rw [Blk.wfV] at h
    rcases h with h | ⟨⟨rfl, rfl, rfl, _⟩, _⟩
    rotate_left
    · exact noProps_nl hf
    obtain ⟨rfl, h, _⟩ := h
    obtain ⟨c, r, hT, _, h2⟩ := h.2.head
    rw [Blk.text, hT]; exact noProps_of h2
  | lit T τ s =>
    rw [Blk.wfV] at h
    obtain ⟨r, hr⟩ := h.2.1
    rw [Blk.text]; rcases hr with rfl | rfl <;> rfl
  | seq lead τ its =>
    rw [Blk.wfV] at h
    obtain ⟨⟨G, hG, rfl⟩, _⟩ := h
    obtain ⟨x, s, rfl, hx⟩ := hG.head
    rw [Blk.text]; exact noProps_of (plainHead_of_not_tok hx)
  | map lead τ es =>
    rw [Blk.wfV] at h
    obtain ⟨⟨G, hG, rfl⟩, _⟩ := h
    obtain ⟨x, s, rfl, hx⟩ := hG.head
    rw [Blk.text]; exact noProps_of (plainHead_of_not_tok hx)
  | cmap lead τ es =>
    rw [Blk.wfV] at h
    obtain ⟨⟨G, hG, rfl⟩, _⟩ := h
    obtain ⟨x, s, rfl, hx⟩ := hG.head
    rw [Blk.text]; exact noProps_of (plainHead_of_not_tok hx)
  | prop f b => simp [Blk.bare] at hb

/-- What the reading of a key comes to. -/
def KeyRead (es : CEnts) (τ level : Nat) (k : Ctx) (R : Bytes) : Prop :=
    ∃ k', k'.at level = k.at level ∧ k'.want (level + 1) = τ + 2 ∧ ∃ N, ∀ a n, N ≤ a → N ≤ n → ∀ L pre sf,
      (sf = scalarFlow (scalar a) n (level + 1) false ∨
        sf = orErr (scalarFlow (scalar a) n (level + 1) false) "map key") → L.Ready →
      es.b.fine (k.consumed + pre.length + koff es.c) (envOf L k) →
      ∃ p' m', p' ++ m' = pre ++ es.K τ ∧
        (do if ← isOk (lift complexMapping) then complexKey (scalar a) level true false "map key"
            else sf : LM Node) (ld L (st k pre [] (es.K τ ++ 0x3A :: R))) =
          (.ok (es.keyNode (k.consumed + pre.length) (envOf L k)),
            ld (L.put (es.keyEff (k.consumed + pre.length) (envOf L k))) (st k' p' m' (0x3A :: R)))

theorem complexMapping_no' (k : Ctx) (pre : Bytes) {T : Bytes} (h : ∀ r, T ≠ 0x3F :: r) :
    complexMapping (st k pre [] T) = (.err .mismatch, st k pre [] T) := by
  cases T with
  | nil => rw [complexMapping, bind_err (sym_no _ _ _ _ (by simp))]
  | cons c r => rw [complexMapping, bind_err (sym_miss _ _ _ _ _ _ (fun hc => h r (by rw [hc])))]; simp

theorem key_flat {es : CEnts} {τ level : Nat} {k : Ctx} {R : Bytes} (hc : es.c = none) (hb : es.b.flatKey)
    (hw2 : k.want (level + 1) = τ + 2) (hR : colonStop R = true) : KeyRead es τ level k R := by
  obtain ⟨k', hk', N, hN⟩ := flatKey_read hb k level hR (by omega)
  refine ⟨k', Ctx.at_of_at hk' (Nat.le_succ level), by rw [Ctx.want_of_at hk', hw2], N,
    fun a n ha hn L pre sf hsf hL hfine => ⟨pre ++ es.b.text, [], ?_, ?_⟩⟩
  · rw [CEnts.K_def, hc]; simp [ktext]
  have hK : es.K τ = es.b.text := by rw [CEnts.K_def, hc]; rfl
  have hko : koff es.c = 0 := by rw [hc]; rfl
  rw [hko, Nat.add_zero] at hfine
  have hgo := hN a n ha hn L pre hL hfine
  rw [CEnts.keyNode, CEnts.keyEff, hko, Nat.add_zero, hK]
  have hcm : complexMapping (st k pre [] (es.b.text ++ 0x3A :: R)) =
      (.err .mismatch, st k pre [] (es.b.text ++ 0x3A :: R)) := by
    obtain ⟨T, κ, y, pc, h1, h2, h3, hb | ⟨f, hf, hb⟩⟩ := hb.cases
    · rw [hb]; exact complexMapping_no _ _ h1.2
    · rw [hb]
      obtain ⟨c, u, hc, hor⟩ := Form.text_head hf
      apply complexMapping_no'
      simp only [Blk.text, hc, List.cons_append]
      rintro r ⟨⟩
      revert hor; decide
  rw [bind_ok (isOk_err (lift_of hcm))]
  simp only [Bool.false_eq_true, if_false]
  rcases hsf with rfl | rfl
  · exact hgo
  · exact orErr_ok hgo

theorem key_complex {es : CEnts} {τ level : Nat} {k : Ctx} {R : Bytes} {s G : Bytes} (hc : es.c = some (s, G))
    (hb : SepOK s es.b.text ∧ es.b.wfV τ ∧ es.b.deep τ ∧ GapText G ∧
      ∀ r, Fits es.b.kind (G ++ (spaces τ ++ 0x3A :: r)))
    (hw : k.want level = τ)
    (hread : ∀ E, Fits es.b.kind E → Stops τ true E → (es.b.deep τ ∨ Stops τ false E) →
      ∃ k', k'.at level = k.at level ∧ ∃ N, ∀ n, N ≤ n → ∀ L pre, L.Ready → es.b.fine (k.consumed + pre.length) (envOf L k) →
      scalar n (level + 1) true false (ld L (st k pre [] (es.b.text ++ E))) =
        (.ok (es.b.node (k.consumed + pre.length) (envOf L k)),
          ld (L.put (es.b.eff (k.consumed + pre.length) (envOf L k))) (st k' (pre ++ es.b.text) [] E))) :
    KeyRead es τ level k R := by
  obtain ⟨hs, _, hd, hG, hfit⟩ := hb
  have hst : Stops τ true (G ++ (spaces τ ++ 0x3A :: R)) :=
    hG.stops_key (T := [0x3A]) ⟨_, _, rfl, by decide, fun h => absurd h (by decide)⟩ R
  obtain ⟨k1, hk1, N, hN⟩ := hread _ (hfit R) hst (.inl hd)
  have hw1 : k1.want level = τ := (Ctx.want_of_at hk1).trans hw
  refine ⟨k1.at level, by rw [Ctx.at_idem, hk1], by rw [Ctx.want_succ _ _ (by simp), Ctx.want_at, hw1], N,
    fun a n ha hn L pre sf hsf hL hfine => ⟨pre ++ 0x3F :: s ++ es.b.text, G ++ spaces τ, ?_, ?_⟩⟩
  · rw [CEnts.K_def, hc]; simp [ktext]
  have hK : es.K τ ++ 0x3A :: R = 0x3F :: (s ++ (es.b.text ++ (G ++ (spaces τ ++ 0x3A :: R)))) := by
    rw [CEnts.K_def, hc]; simp [ktext]
  have hpos : k.consumed + (pre ++ 0x3F :: s).length = k.consumed + pre.length + koff es.c := by
    rw [hc]; simp [koff]; omega
  have hgo := hN a ha L (pre ++ 0x3F :: s) hL (by rw [hpos]; exact hfine)
  rw [hpos] at hgo
  rw [hK, bind_ok (isOk_ok (lift_of (complexMapping_yes _ _ (hs.append _))))]
  simp only [if_true]
  rw [complexKey, bind_ok (lift_of (forward_st ..)), bind_ok (orErr_ok hgo)]
  have hgt := firstItem_gap k1 (L.put (es.b.eff (k.consumed + pre.length + koff es.c) (envOf L k)))
    (pre ++ 0x3F :: s ++ es.b.text) [] hG hw1 (c := 0x3A) (r := R) (by decide)
  simp only [firstItem, Bool.false_eq_true, if_false, List.nil_append] at hgt
  rw [bind_ok hgt]
  rfl

mutual
/-- A tree as the root or an item. -/
theorem Blk.readN : ∀ (b : Blk) (q σ : Nat) (k : Ctx) (E : Bytes), b.wfN σ → k.want q = σ →
    (b.inner ≠ [] ∨ k.indent.length ≤ q + 1 ∨ (b.short ∧ σ < k.want (q + 1))) → Fits b.kind E → Stops σ false E →
    ∃ k', k'.at q = k.at q ∧ Kept b.calm σ (k'.want (q + 1)) ∧ ∃ N, ∀ n, N ≤ n → ∀ L pre, L.Ready → b.fine (k.consumed + pre.length) (envOf L k) →
      scalar n q false false (ld L (st k pre [] (b.text ++ E))) =
        (.ok (b.node (k.consumed + pre.length) (envOf L k)),
          ld (L.put (b.eff (k.consumed + pre.length) (envOf L k))) (st k' (pre ++ b.text) [] E))
  | .leaf lead T κ y pc, q, σ, k, E, hwf, hw, hlen, hf, hs => by
    rw [Blk.wfN] at hwf
    rw [Blk.kind] at hf
    rcases hwf with hwf | ⟨⟨rfl, rfl, rfl, rfl, rfl⟩, hσ⟩
    rotate_left
    · obtain ⟨k', hk', hcw, N, hN⟩ := empty_node k hσ hw hf hs
      refine ⟨k', hk', .yes hcw (by simp only [Blk.calm]), N, fun n hn L pre hL hpc => ?_⟩
      simp only [Blk.text, Blk.node, Blk.data, Blk.eff, Blk.off, Blk.tag, envOf, Loader.put_cur hL, Nat.add_zero,
        List.append_nil, List.nil_append]
      rw [show ∀ p e, Known.none.eff p e = e.anchors from fun _ _ => rfl, Loader.put_cur hL]
      exact hN n hn L pre
    obtain ⟨k', hk', hcw, N, hN⟩ := leaf_node k hwf.2.1 hwf.2.2 hwf.1 hw
      (by simpa only [Blk.inner, Blk.lead, Blk.short, and_comm] using hlen) hf hs
    refine ⟨k', hk', .yes hcw (by simp only [Blk.calm]), N, fun n hn L pre hL hpc => ?_⟩
    simp only [Blk.fine] at hpc
    simp only [Blk.text, Blk.node, Blk.data, Blk.eff, Blk.off, Blk.tag, envOf, Loader.put_cur hL, Nat.add_zero]
    exact hN n hn L pre hL hpc
  | .lit T τ s, q, σ, k, E, hwf, hw, hlen, hf, hs => by
    rw [Blk.wfN] at hwf
    obtain ⟨rfl, ⟨r, hr⟩, hT⟩ := hwf
    rw [Blk.kind] at hf
    refine ⟨k.at q, by simp, .yes (by rw [Ctx.want_succ _ _ (by simp), Ctx.want_at]; omega) (by simp only [Blk.calm]), 1, fun n hn L pre hL _ => ?_⟩
    obtain ⟨n, rfl⟩ : ∃ m, n = m + 1 := ⟨n - 1, by omega⟩
    obtain ⟨p', m', hpm, he⟩ := hT k q E (scalar n) n false L pre hw hf
    have hp : noProps (T ++ E) = true := by rcases hr with rfl | rfl <;> rfl
    simp only [Blk.text, Blk.node, Blk.data, Blk.eff, Blk.off, Blk.tag, envOf, Loader.put_cur hL, Nat.add_zero]
    rw [scalar, scalarNode_ok _ _ _ _ hp he, hpm]
  | .seq lead τ its, q, σ, k, E, hwf, hw, hlen, hf, hs => by
    rw [Blk.wfN] at hwf
    obtain ⟨hl, rfl, hi⟩ := hwf
    rw [Blk.kind] at hf
    simp only [Blk.inner, Blk.lead] at hlen
    generalize hk1 : (if lead = [] then k else k.at q) = k1
    have hk1at : k1.at q = k.at q := by subst hk1; split <;> simp
    have hlen1 : k1.indent.length ≤ q + 1 := by
      subst hk1; split
      · rcases hlen with h | h | h
        · rename_i h'; exact absurd h' h
        · exact h
        · exact absurd h.1 (by simp [Blk.short])
      · simp
    have hw1 : k1.want q = τ := by rw [Ctx.want_of_at hk1at, hw]
    have hcon : k1.consumed = k.consumed := Ctx.consumed_of_at hk1at
    obtain ⟨k', m, r, hk', hcw, hmr, N, hN⟩ := Items.read its τ q k1 E false hi hw1 hlen1 hf hs
    have hsep := Items.sepOK hi hf
    refine ⟨k', hk'.trans hk1at, .yes hcw (by simp only [Blk.calm]), N + 3, fun n hn L pre hL hfine => ?_⟩
    obtain ⟨a, rfl⟩ : ∃ a, n = a + 2 := ⟨n - 2, by omega⟩
    have htxt : (Blk.seq lead τ its).text ++ E = lead ++ 0x2D :: (its.sp ++ (its.body τ ++ E)) := by
      simp [Blk.text]
    obtain ⟨c', r', hce, hc'⟩ := hl.head (r := its.sp ++ (its.body τ ++ E)) (c := 0x2D) (by simp [plainHead])
    have hfi : firstItem q false (ld L (st k pre [] (lead ++ 0x2D :: (its.sp ++ (its.body τ ++ E))))) =
        (.ok (), ld L (st k1 pre lead (0x2D :: (its.sp ++ (its.body τ ++ E))))) := by
      rcases hl with rfl | ⟨G, hG, rfl⟩
      · simp only [if_true] at hk1
        subst hk1
        exact firstItem_inline _ _ _ _ (by decide) q
      · obtain ⟨x, s, rfl, hx⟩ := hG.head
        have := firstItem_gap k L pre [] hG hw (c := 0x2D) (r := its.sp ++ (its.body τ ++ E)) (by decide)
        simp only [List.cons_append, List.cons_ne_nil, if_false] at hk1
        rw [hk1] at this
        simpa using this
    have hpos : k1.consumed + (pre ++ (lead ++ [0x2D] ++ its.sp)).length =
        k.consumed + pre.length + lead.length + 1 + its.sp.length := by
      rw [hcon]; simp; omega
    have hgo := hN (a + 1) a (by omega) (by omega) L pre (lead ++ [0x2D] ++ its.sp) [] false hL
    rw [hpos, envOf_ctx L (Ctx.tag_of_at hk1at)] at hgo
    simp only [Blk.fine] at hfine
    replace hgo := hgo hfine
    generalize hP : k.consumed + pre.length + lead.length + 1 + its.sp.length = P at *
    have hseq : seq (scalar (a + 1)) (a + 1) q false
        (ld L (st k pre [] (lead ++ 0x2D :: (its.sp ++ (its.body τ ++ E))))) =
        (.ok (.seq (its.nodes τ P (envOf L k))),
          ld (L.put (its.eff τ P (envOf L k))) (st k' (pre ++ (Blk.seq lead τ its).text) [] E)) := by
      rw [seq, bind_ok (a := its.nodes τ P (envOf L k))
        (s' := ld (L.put (its.eff τ P (envOf L k))) (st k' (pre ++ (lead ++ [0x2D] ++ its.sp ++ its.body τ)) m r))]
      · rw [bind_ok (lift_of (backward_st ..))]
        simp [Blk.text, hmr]
      · rw [seqLoop, bind_ok (lift_of (forward_st ..)), bind_ok (a := false)
          (s' := ld L (st k1 pre (lead ++ [0x2D] ++ its.sp) (its.body τ ++ E)))]
        · simp only [Bool.false_eq_true, if_false]
          rw [seqGo] at hgo
          rw [hgo]
          simp only [List.nil_append]
        · simp only [List.isEmpty_nil, if_true, List.append_nil]
          rw [bind_ok hfi, bind_ok (lift_of (sym_hit ..)), bind_ok (lift_of (bound_sep _ _ _ hsep))]
          rfl
    rw [scalar, htxt]
    rw [scalarNode_ok (y := .seq (its.nodes τ P (envOf L k)))
      (k' := k') (L' := L.put (its.eff τ P (envOf L k))) (p' := pre ++ (Blk.seq lead τ its).text) (m' := []) (post' := E)]
    · simp only [Blk.node, Blk.data, Blk.eff, Blk.off, Blk.tag, hP, Nat.add_zero, List.append_nil]
    · rw [hce]; exact noProps_of hc'
    · rw [hce, scalarBody_skip _ _ _ hc', ← hce, orElse_ok]
      rw [orElse_ok hseq]
  | .map lead τ es, q, σ, k, E, hwf, hw, hlen, hf, hs => by
    rw [Blk.wfN] at hwf
    obtain ⟨hl, rfl, hi, hgood⟩ := hwf
    rw [Blk.kind] at hf
    simp only [Blk.inner, Blk.lead] at hlen
    generalize hk1 : (if lead = [] then k else k.at q) = k1
    have hk1at : k1.at q = k.at q := by subst hk1; split <;> simp
    have hlen1 : k1.indent.length ≤ q + 1 := by
      subst hk1; split
      · rcases hlen with h | h | h
        · rename_i h'; exact absurd h' h
        · exact h
        · exact absurd h.1 (by simp [Blk.short])
      · simp
    have hw1 : k1.want q = τ := by rw [Ctx.want_of_at hk1at, hw]
    have hcon : k1.consumed = k.consumed := Ctx.consumed_of_at hk1at
    have hsep := Ents.sepOK hi hf
    have hkt := (Ents.keyOK hi).1
    obtain ⟨k2, hk2, N1, hN1⟩ := key_read hi k1 q hf (by rw [Ctx.want_succ _ _ hlen1]; omega)
    have hk2at : k2.at q = k1.at q := Ctx.at_of_at hk2 (Nat.le_succ _)
    have hk2w : k2.want (q + 1) = τ + 2 := by
      rw [Ctx.want_of_at hk2, Ctx.want_succ _ _ hlen1, hw1]
    have hcon2 : k2.consumed = k.consumed := (Ctx.consumed_of_at hk2at).trans hcon
    obtain ⟨k', m, r, hk', hcw, hmr, N, hN⟩ := Ents.read es τ q k2 E hi
      ((Ctx.want_of_at hk2at).trans hw1) hk2w hf hs
    refine ⟨k', hk'.trans (hk2at.trans hk1at), by simpa only [Blk.calm] using hcw, N + N1 + 3, fun n hn L pre hL hfine => ?_⟩
    obtain ⟨a, rfl⟩ : ∃ a, n = a + 2 := ⟨n - 2, by omega⟩
    have htxt : (Blk.map lead τ es).text ++ E = lead ++ (es.T ++ 0x3A :: (es.sp ++ es.body τ) ++ E) := by
      simp [Blk.text]
    obtain ⟨c, u, hTe, h1, h2⟩ := hkt.2.head
    obtain ⟨c', r', hce, hc'⟩ := hl.head (r := u ++ 0x3A :: (es.sp ++ es.body τ) ++ E) h2
    have hce' : lead ++ (es.T ++ 0x3A :: (es.sp ++ es.body τ) ++ E) = c' :: r' := by
      rw [hTe]; simpa using hce
    have hfi : ∀ pre, firstItem q false (ld L (st k1 pre [] (lead ++ (es.T ++ 0x3A :: (es.sp ++ es.body τ) ++ E)))) =
        (.ok (), ld L (st k1 pre lead (es.T ++ 0x3A :: (es.sp ++ es.body τ) ++ E))) := by
      intro pre
      rcases hl with rfl | ⟨G, hG, rfl⟩
      · rw [hTe]
        exact firstItem_inline _ _ _ _ h1 q
      · obtain ⟨x, s, rfl, hx⟩ := hG.head
        have := firstItem_gap k1 L pre [] hG hw1 (r := u ++ 0x3A :: (es.sp ++ es.body τ) ++ E) h1
        have e : k1.at q = k1 := by subst hk1; simp
        rw [e] at this
        rw [hTe]
        simpa using this
    generalize hkn : (Node.mk (k.consumed + pre.length + lead.length) [] es.y) = kn
    have hgo := hN (a + 1) (a + 1) a (by omega) (by omega) (by omega) L (pre ++ lead ++ es.T)
      (0x3A :: es.sp) [] kn false hL
    have hpos : k2.consumed + (pre ++ lead ++ es.T ++ 0x3A :: es.sp).length =
        k.consumed + pre.length + lead.length + es.T.length + 1 + es.sp.length := by
      rw [hcon2]; simp; omega
    simp only [Blk.fine] at hfine
    rw [hpos, envOf_ctx L (Ctx.tag_of_at (hk2at.trans hk1at))] at hgo
    replace hgo := hgo hfine (by
        simp only [List.nil_append]
        rw [← hkn]; exact hgood _ _ _)
    generalize hP : k.consumed + pre.length + lead.length + es.T.length + 1 + es.sp.length = P at *
    have hmap : YamlPeg.map (scalar (a + 1)) (a + 1) q false false
        (ld L (st k1 pre [] (lead ++ (es.T ++ 0x3A :: (es.sp ++ es.body τ) ++ E)))) =
        (.ok (.map (mapOf (es.pairs τ kn P (envOf L k)))),
          ld (L.put (es.eff τ P (envOf L k))) (st k' (pre ++ (Blk.map lead τ es).text) [] E)) := by
      rw [YamlPeg.map, mapLoop, bind_ok (a := MapStep.key kn)
        (s' := ld L (st k2 (pre ++ lead ++ es.T) (0x3A :: es.sp) (es.body τ ++ E)))]
      · simp only
        rw [mapGo] at hgo
        rw [hgo]
        simp [Blk.text]
      · rw [mapStep, bind_ok (lift_of (forward_st ..))]
        simp only [List.isEmpty_nil, if_true, List.append_nil]
        have hkey : (do
            if ← isOk (lift complexMapping) then complexKey (scalar (a + 1)) q true false "map key"
            else scalarFlow (scalar (a + 1)) (a + 1) (q + 1) false : LM Node)
            (ld L (st k1 (pre ++ lead) [] (es.T ++ 0x3A :: (es.sp ++ es.body τ) ++ E))) =
            (.ok kn, ld L (st k2 (pre ++ lead ++ es.T) [] (0x3A :: (es.sp ++ (es.body τ ++ E))))) := by
          rw [bind_ok (isOk_err (lift_of (by
            rw [List.append_assoc]; exact complexMapping_no _ _ hkt.2)))]
          simp only [Bool.false_eq_true, if_false]
          rw [← List.append_assoc, hN1 (a + 1) (a + 1) (by omega) (by omega) L (pre ++ lead) hL, ← hkn, hcon]
          simp [Nat.add_assoc]
        rw [bind_ok (hfi _), bind_ok (lift_of (forward_st ..)), bind_ok hkey]
        rw [bind_ok (colonBound_yes _ _ _ hsep)]
        rfl
    rw [scalar, htxt]
    rw [scalarNode_ok (y := .map (mapOf (es.pairs τ kn P (envOf L k))))
      (k' := k') (L' := L.put (es.eff τ P (envOf L k))) (p' := pre ++ (Blk.map lead τ es).text) (m' := []) (post' := E)]
    · simp only [Blk.node, Blk.data, Blk.eff, Blk.off, Blk.tag, hkn, hP, Nat.add_zero, List.append_nil]
    · rw [hce']; exact noProps_of hc'
    · rw [hce', scalarBody_skip _ _ _ hc', ← hce', orElse_ok]
      have hsn : seq (scalar (a + 1)) (a + 1) q false
          (ld L (st k pre [] (lead ++ (es.T ++ 0x3A :: (es.sp ++ es.body τ) ++ E)))) =
          (.err .mismatch, ld L (st k1 pre [] (lead ++ (es.T ++ 0x3A :: (es.sp ++ es.body τ) ++ E)))) := by
        rw [List.append_assoc es.T, ← hk1]; exact seq_no _ _ _ hkt.2.keyHead hl hw _ _
      rw [orElse_mismatch hsn, hmap]
  | .cmap lead τ es, q, σ, k, E, hwf, hw, hlen, hf, hs => by
    rw [Blk.wfN] at hwf
    obtain ⟨hl, rfl, hi, hpl⟩ := hwf
    rw [Blk.kind] at hf
    simp only [Blk.inner, Blk.lead] at hlen
    generalize hk1 : (if lead = [] then k else k.at q) = k1
    have hk1at : k1.at q = k.at q := by subst hk1; split <;> simp
    have hlen1 : k1.indent.length ≤ q + 1 := by
      subst hk1; split
      · rcases hlen with h | h | h
        · rename_i h'; exact absurd h' h
        · exact h
        · exact absurd h.1 (by simp [Blk.short])
      · simp
    have hw1 : k1.want q = τ := by rw [Ctx.want_of_at hk1at, hw]
    have hcon : k1.consumed = k.consumed := Ctx.consumed_of_at hk1at
    have hsep := CEnts.sepOK hi hf
    have hkt := hi.key.head
    obtain ⟨k2, hk2at, hk2w, N1, hN1⟩ := CEnts.readKey es τ q k1 (es.sp ++ (es.body τ ++ E)) hi.key hw1
      (by rw [Ctx.want_succ _ _ hlen1]; omega) hsep.colonStop
    have hcon2 : k2.consumed = k.consumed := (Ctx.consumed_of_at hk2at).trans hcon
    obtain ⟨k', m, r, hk', hcw, hmr, N, hN⟩ := CEnts.read es τ q k2 E hi
      ((Ctx.want_of_at hk2at).trans hw1) hk2w hf hs
    refine ⟨k', hk'.trans (hk2at.trans hk1at), by simpa only [Blk.calm] using hcw, N + N1 + 3, fun n hn L pre hL hfine => ?_⟩
    obtain ⟨a, rfl⟩ : ∃ a, n = a + 2 := ⟨n - 2, by omega⟩
    simp only [Blk.fine] at hfine
    generalize hP : k.consumed + pre.length + lead.length = P at hfine
    generalize htl : es.K τ ++ 0x3A :: (es.sp ++ (es.body τ ++ E)) = tl at *
    have htxt : (Blk.cmap lead τ es).text ++ E = lead ++ tl := by
      simp [Blk.text, ← htl]
    obtain ⟨c, u, hTe, h1, h3⟩ := id hkt
    have htle : tl = c :: (u ++ 0x3A :: (es.sp ++ (es.body τ ++ E))) := by rw [← htl, hTe]; rfl
    have hce : ∃ c' r', lead ++ tl = c' :: r' ∧ plainHead c' := by
      rcases hl with rfl | ⟨G, hG, rfl⟩
      · obtain ⟨c, r, hT, _, h2⟩ := hi.key.plain (hpl rfl)
        exact ⟨c, r ++ 0x3A :: (es.sp ++ (es.body τ ++ E)), by rw [← htl, hT]; rfl, h2⟩
      · obtain ⟨x, s, rfl, hx⟩ := hG.head
        exact ⟨x, _, rfl, plainHead_of_not_tok hx⟩
    obtain ⟨c', r', hce', hc'⟩ := hce
    have hfi : ∀ pre, firstItem q false (ld L (st k1 pre [] (lead ++ tl))) =
        (.ok (), ld L (st k1 pre lead tl)) := by
      intro pre
      rw [htle]
      rcases hl with rfl | ⟨G, hG, rfl⟩
      · exact firstItem_inline _ _ _ _ h1 q
      · obtain ⟨x, s, rfl, hx⟩ := hG.head
        have := firstItem_gap k1 L pre [] hG hw1 (r := u ++ 0x3A :: (es.sp ++ (es.body τ ++ E))) h1
        have e : k1.at q = k1 := by subst hk1; simp
        rw [e] at this
        simpa using this
    have henv : envOf L k1 = envOf L k := envOf_ctx L (Ctx.tag_of_at hk1at)
    have hpk : k1.consumed + (pre ++ lead).length = P := by rw [hcon, ← hP]; simp; omega
    obtain ⟨p', m', hpm, hkey⟩ := hN1 (a + 1) (a + 1) (by omega) (by omega) L (pre ++ lead) _ (.inl rfl) hL (by
      rw [hpk, henv]; exact hfine.1.key)
    rw [hpk, henv] at hkey
    have hgo := hN (a + 1) (a + 1) a (by omega) (by omega) (by omega) (L.put (es.keyEff P (envOf L k))) p'
      (m' ++ 0x3A :: es.sp) [] false P (envOf L k) (hL.put _)
      (by rw [envOf_put hL (Ctx.tag_of_at (hk2at.trans hk1at))])
      (by rw [hcon2, ← List.append_assoc, hpm, ← hP]; simp; omega) hfine.1 (by simpa using hfine.2)
    have hmap : YamlPeg.map (scalar (a + 1)) (a + 1) q false false
        (ld L (st k1 pre [] (lead ++ tl))) =
        (.ok (.map (mapOf (es.pairs τ P (envOf L k)))),
          ld (L.put (es.eff τ P (envOf L k))) (st k' (pre ++ (Blk.cmap lead τ es).text) [] E)) := by
      rw [YamlPeg.map, mapLoop, bind_ok (a := MapStep.key (es.keyNode P (envOf L k)))
        (s' := ld (L.put (es.keyEff P (envOf L k))) (st k2 p' (m' ++ 0x3A :: es.sp) (es.body τ ++ E)))]
      · simp only
        rw [mapGo] at hgo
        rw [hgo, Loader.put_put, ← List.append_assoc, ← List.append_assoc, hpm]
        simp [Blk.text]
      · rw [mapStep, bind_ok (lift_of (forward_st ..))]
        simp only [List.isEmpty_nil, if_true, List.append_nil]
        rw [bind_ok (hfi _), bind_ok (lift_of (forward_st ..)), bind_ok hkey]
        rw [bind_ok (colonBound_yes' _ _ _ _ hsep)]
        rfl
    rw [scalar, htxt]
    rw [scalarNode_ok (y := .map (mapOf (es.pairs τ P (envOf L k))))
      (k' := k') (L' := L.put (es.eff τ P (envOf L k))) (p' := pre ++ (Blk.cmap lead τ es).text) (m' := []) (post' := E)]
    · simp only [Blk.node, Blk.data, Blk.eff, Blk.off, Blk.tag, hP, Nat.add_zero, List.append_nil]
    · rw [hce']; exact noProps_of hc'
    · rw [hce', scalarBody_skip _ _ _ hc', ← hce', orElse_ok]
      have hsn : seq (scalar (a + 1)) (a + 1) q false (ld L (st k pre [] (lead ++ tl))) =
          (.err .mismatch, ld L (st k1 pre [] (lead ++ tl))) := by
        rw [← htl, ← hk1]; exact seq_no _ _ _ hkt hl hw _ _
      rw [orElse_mismatch hsn, hmap]
  | .prop f b, q, σ, k, E, hwf, hw, hlen, hf, hs => by
    rw [Blk.wfN] at hwf
    obtain ⟨hform, hbare, hb⟩ := hwf
    rw [Blk.kind] at hf
    simp only [Blk.inner] at hlen
    obtain ⟨k', hk', hcw, N, hN⟩ := Blk.readN b q σ k E hb hw (by
      rw [Blk.inner_bare hbare]; simpa only [Blk.short] using hlen) hf hs
    refine ⟨k', hk', by simpa only [Blk.calm] using hcw, N + 1, fun n hn L pre hL hfine => ?_⟩
    obtain ⟨n, rfl⟩ : ∃ a, n = a + 1 := ⟨n - 1, by omega⟩
    simp only [Blk.fine] at hfine
    have hpos : k.consumed + (pre ++ f.text).length = k.consumed + pre.length + f.text.length := by simp; omega
    have := hN (n + 1) (by omega) L (pre ++ f.text) hL (by rw [hpos]; exact hfine.2.1)
    rw [hpos, scalar, Blk.node, Blk.off_bare hbare, Blk.tag_bare hbare] at this
    simp only [Nat.add_zero] at this
    have hX : noProps (b.text ++ E) = true := Blk.noPropsN hb hbare hf
    rw [scalar]
    simp only [Blk.text, List.append_assoc] at this ⊢
    rw [scalarNode_prop (hform.append E) hfine.1 hX hL hfine.2.2 this]
    simp only [Blk.node, Blk.off, Blk.tag, Blk.data, Blk.eff]

/-- A tree as a value. -/
theorem Blk.readV : ∀ (b : Blk) (p σ : Nat) (k : Ctx) (E : Bytes), b.wfV σ → k.want p = σ →
    k.want (p + 1) = σ + 2 → Fits b.kind E → Stops σ true E → (b.deep σ ∨ Stops σ false E) →
    ∃ k', k'.at p = k.at p ∧ Kept (b.calmV σ) σ (k'.want (p + 1)) ∧ ∃ N, ∀ n, N ≤ n → ∀ L pre, L.Ready → b.fine (k.consumed + pre.length) (envOf L k) →
      scalar n (p + 1) true false (ld L (st k pre [] (b.text ++ E))) =
        (.ok (b.node (k.consumed + pre.length) (envOf L k)),
          ld (L.put (b.eff (k.consumed + pre.length) (envOf L k))) (st k' (pre ++ b.text) [] E))
  | .leaf lead T κ y pc, p, σ, k, E, hwf, hw, hw2, hf, hs, hd => by
    rw [Blk.wfV] at hwf
    rw [Blk.kind] at hf
    rcases hwf with hwf | ⟨⟨rfl, rfl, rfl, rfl, rfl⟩, hσ⟩
    rotate_left
    · simp only [Blk.deep, ne_eq, not_true_eq_false, false_or] at hd
      obtain ⟨k', hk', hcw, N, hN⟩ := empty_value k hσ hw hw2 hf hd
      refine ⟨k', hk', .yes hcw (by simp only [Blk.calmV]), N, fun n hn L pre hL hpc => ?_⟩
      simp only [Blk.text, Blk.node, Blk.data, Blk.eff, Blk.off, Blk.tag, envOf, Loader.put_cur hL, Nat.add_zero,
        List.append_nil, List.nil_append]
      rw [show ∀ p e, Known.none.eff p e = e.anchors from fun _ _ => rfl, Loader.put_cur hL]
      exact hN n hn L pre
    obtain ⟨rfl, hT, hκ⟩ := hwf
    obtain ⟨k', hk', hcw, N, hN⟩ := leaf_value k hT (p := p) (σ := σ) hκ hw2 hf hs
    refine ⟨k', hk', .yes hcw (by simp only [Blk.calmV]), N, fun n hn L pre hL hpc => ?_⟩
    simp only [Blk.fine] at hpc
    simp only [Blk.text, Blk.node, Blk.data, Blk.eff, Blk.off, Blk.tag, envOf, Loader.put_cur hL, Nat.add_zero,
      List.nil_append, List.length_nil]
    exact hN n hn L pre hL hpc
  | .lit T τ s, p, σ, k, E, hwf, hw, hw2, hf, hs, hd => by
    rw [Blk.wfV] at hwf
    obtain ⟨rfl, ⟨r, hr⟩, hT⟩ := hwf
    rw [Blk.kind] at hf
    refine ⟨k.at (p + 1), Ctx.at_at (Nat.le_succ p) k, .yes (by rw [Ctx.want_at]; omega) (by simp only [Blk.calmV]), 1, fun n hn L pre hL _ => ?_⟩
    obtain ⟨n, rfl⟩ : ∃ m, n = m + 1 := ⟨n - 1, by omega⟩
    obtain ⟨p', m', hpm, he⟩ := hT k (p + 1) E (scalar n) n true L pre hw2 hf
    have hp : noProps (T ++ E) = true := by rcases hr with rfl | rfl <;> rfl
    simp only [Blk.text, Blk.node, Blk.data, Blk.eff, Blk.off, Blk.tag, envOf, Loader.put_cur hL, Nat.add_zero]
    rw [scalar, scalarNode_ok _ _ _ _ hp he, hpm]
  | .seq lead τ its, p, σ, k, E, hwf, hw, hw2, hf, hs, hd => by
    rw [Blk.wfV] at hwf
    obtain ⟨⟨G, hG, rfl⟩, hle, hi⟩ := hwf
    obtain ⟨w, rfl⟩ : ∃ w, τ = σ + w := ⟨τ - σ, by omega⟩
    rw [Blk.kind] at hf
    generalize hk1 : k.push p w = k1
    have hk1at : k1.at p = k.at p := by subst hk1; exact Ctx.push_at ..
    have hlen1 : k1.indent.length ≤ (p + 1) + 1 := by subst hk1; simp
    have hw1 : k1.want (p + 1) = σ + w := by subst hk1; rw [Ctx.push_want, hw]
    have hcon : k1.consumed = k.consumed := Ctx.consumed_of_at hk1at
    have hs' : Stops (σ + w) true E := by
      by_cases h : w = 0
      · subst h; exact hs
      · exact (Stops.mono hs (by omega)).to_dash true
    obtain ⟨k', m, r, hk', _, hmr, N, hN⟩ := Items.read its (σ + w) (p + 1) k1 E true hi hw1 hlen1 hf hs'
    have hsep := Items.sepOK hi hf
    refine ⟨k', (Ctx.at_of_at hk' (Nat.le_succ p)).trans hk1at, by
      rw [Ctx.want_of_at hk', hw1]; simp only [Blk.calmV, Kept]; omega, N + 3, fun n hn L pre hL hfine => ?_⟩
    obtain ⟨a, rfl⟩ : ∃ a, n = a + 2 := ⟨n - 2, by omega⟩
    have htxt : (Blk.seq (G ++ spaces (σ + w)) (σ + w) its).text ++ E =
        G ++ (spaces (σ + w) ++ 0x2D :: (its.sp ++ (its.body (σ + w) ++ E))) := by
      simp [Blk.text]
    obtain ⟨c', g', hGe, hc'⟩ := hG.head
    have hc' := plainHead_of_not_tok hc'
    have hfi : firstItem (p + 1) true (ld L (st k pre []
        (G ++ (spaces (σ + w) ++ 0x2D :: (its.sp ++ (its.body (σ + w) ++ E)))))) =
        (.ok (), ld L (st k1 pre (G ++ spaces (σ + w)) (0x2D :: (its.sp ++ (its.body (σ + w) ++ E))))) := by
      have := firstItem_value k L pre [] hG (p := p) (w := w) (c := 0x2D)
        (r := its.sp ++ (its.body (σ + w) ++ E)) (by decide)
      rw [hw, hk1] at this
      simpa using this
    have hpos : k1.consumed + (pre ++ (G ++ spaces (σ + w) ++ [0x2D] ++ its.sp)).length =
        k.consumed + pre.length + (G ++ spaces (σ + w)).length + 1 + its.sp.length := by
      rw [hcon]; simp; omega
    have hgo := hN (a + 1) a (by omega) (by omega) L pre (G ++ spaces (σ + w) ++ [0x2D] ++ its.sp) [] true hL
    rw [hpos, envOf_ctx L (Ctx.tag_of_at hk1at)] at hgo
    simp only [Blk.fine] at hfine
    replace hgo := hgo hfine
    generalize hP : k.consumed + pre.length + (G ++ spaces (σ + w)).length + 1 + its.sp.length = P at *
    have hseq : seq (scalar (a + 1)) (a + 1) (p + 1) true
        (ld L (st k pre [] (G ++ (spaces (σ + w) ++ 0x2D :: (its.sp ++ (its.body (σ + w) ++ E)))))) =
        (.ok (.seq (its.nodes (σ + w) P (envOf L k))),
          ld (L.put (its.eff (σ + w) P (envOf L k))) (st k' (pre ++ (Blk.seq (G ++ spaces (σ + w)) (σ + w) its).text) [] E)) := by
      rw [seq, bind_ok (a := its.nodes (σ + w) P (envOf L k))
        (s' := ld (L.put (its.eff (σ + w) P (envOf L k))) (st k' (pre ++ (G ++ spaces (σ + w) ++ [0x2D] ++ its.sp ++ its.body (σ + w))) m r))]
      · rw [bind_ok (lift_of (backward_st ..))]
        simp [Blk.text, hmr]
      · rw [seqLoop, bind_ok (lift_of (forward_st ..)), bind_ok (a := false)
          (s' := ld L (st k1 pre (G ++ spaces (σ + w) ++ [0x2D] ++ its.sp) (its.body (σ + w) ++ E)))]
        · simp only [Bool.false_eq_true, if_false]
          rw [seqGo] at hgo
          rw [hgo]
          simp only [List.nil_append]
        · simp only [List.isEmpty_nil, if_true, List.append_nil]
          rw [bind_ok hfi, bind_ok (lift_of (sym_hit ..)), bind_ok (lift_of (bound_sep _ _ _ hsep))]
          rfl
    have hce : G ++ (spaces (σ + w) ++ 0x2D :: (its.sp ++ (its.body (σ + w) ++ E))) =
        c' :: (g' ++ (spaces (σ + w) ++ 0x2D :: (its.sp ++ (its.body (σ + w) ++ E)))) := by
      rw [hGe]; rfl
    rw [scalar, htxt]
    rw [scalarNode_ok (y := .seq (its.nodes (σ + w) P (envOf L k)))
      (k' := k') (L' := L.put (its.eff (σ + w) P (envOf L k))) (p' := pre ++ (Blk.seq (G ++ spaces (σ + w)) (σ + w) its).text) (m' := []) (post' := E)]
    · simp only [Blk.node, Blk.data, Blk.eff, Blk.off, Blk.tag, hP, Nat.add_zero, List.append_nil]
    · rw [hce]; exact noProps_of hc'
    · rw [hce, scalarBody_skip _ _ _ hc', ← hce, orElse_ok]
      rw [orElse_ok hseq]
  | .map lead τ es, p, σ, k, E, hwf, hw, hw2, hf, hs, hd => by
    rw [Blk.wfV] at hwf
    obtain ⟨⟨G, hG, rfl⟩, hle, hi, hgood⟩ := hwf
    obtain ⟨w, rfl⟩ : ∃ w, τ = σ + w := ⟨τ - σ, by omega⟩
    rw [Blk.kind] at hf
    generalize hk1 : k.push p w = k1
    have hk1at : k1.at p = k.at p := by subst hk1; exact Ctx.push_at ..
    have hlen1 : k1.indent.length ≤ (p + 1) + 1 := by subst hk1; simp
    have hw1 : k1.want (p + 1) = σ + w := by subst hk1; rw [Ctx.push_want, hw]
    have hk1w : k1.want p = σ := by rw [Ctx.want_of_at hk1at, hw]
    have hcon : k1.consumed = k.consumed := Ctx.consumed_of_at hk1at
    have hs' : Stops (σ + w) false E := by
      by_cases h : w = 0
      · subst h
        simp only [Blk.deep] at hd
        exact hd.resolve_left (by omega)
      · exact Stops.mono hs (by omega)
    have hsep := Ents.sepOK hi hf
    have hkt := (Ents.keyOK hi).1
    obtain ⟨k2, hk2, N1, hN1⟩ := key_read hi k1 (p + 1) hf (by rw [Ctx.want_succ _ _ hlen1]; omega)
    have hk2at : k2.at (p + 1) = k1.at (p + 1) := Ctx.at_of_at hk2 (Nat.le_succ _)
    have hk2w : k2.want (p + 1 + 1) = σ + w + 2 := by
      rw [Ctx.want_of_at hk2, Ctx.want_succ _ _ hlen1, hw1]
    have hcon2 : k2.consumed = k.consumed := (Ctx.consumed_of_at hk2at).trans hcon
    obtain ⟨k', m, r, hk', _, hmr, N, hN⟩ := Ents.read es (σ + w) (p + 1) k2 E hi
      ((Ctx.want_of_at hk2at).trans hw1) hk2w hf hs'
    refine ⟨k', (Ctx.at_of_at (hk'.trans hk2at) (Nat.le_succ p)).trans hk1at, by
      rw [Ctx.want_of_at (hk'.trans hk2at), hw1]; simp only [Blk.calmV, Kept]; omega, N + N1 + 3, fun n hn L pre hL hfine => ?_⟩
    obtain ⟨a, rfl⟩ : ∃ a, n = a + 2 := ⟨n - 2, by omega⟩
    generalize hτ : σ + w = τ at *
    generalize htl : es.T ++ 0x3A :: (es.sp ++ es.body τ) ++ E = tl at *
    have htxt : (Blk.map (G ++ spaces τ) τ es).text ++ E = G ++ (spaces τ ++ tl) := by
      simp [Blk.text, ← htl]
    obtain ⟨c, u, hTe, h1, h2⟩ := hkt.2.head
    obtain ⟨c', g', hGe, hc'⟩ := hG.head
    have hc' := plainHead_of_not_tok hc'
    have hce : G ++ (spaces τ ++ tl) = c' :: (g' ++ (spaces τ ++ tl)) := by rw [hGe]; rfl
    have htle : tl = c :: (u ++ 0x3A :: (es.sp ++ es.body τ) ++ E) := by
      rw [← htl, hTe]; rfl
    have hfi : ∀ k0 : Ctx, k0.want p = σ → k0.push p w = k1 → ∀ pre,
        firstItem (p + 1) true (ld L (st k0 pre [] (G ++ (spaces τ ++ tl)))) =
        (.ok (), ld L (st k1 pre (G ++ spaces τ) tl)) := by
      intro k0 h0 h0' pre
      have := firstItem_value k0 L pre [] hG (p := p) (w := w) (c := c)
        (r := u ++ 0x3A :: (es.sp ++ es.body τ) ++ E) h1
      rw [h0, h0', hτ] at this
      rw [htle]
      simpa using this
    have hseq : seq (scalar (a + 1)) (a + 1) (p + 1) true (ld L (st k pre [] (G ++ (spaces τ ++ tl)))) =
        (.err .mismatch, ld L (st k1 pre [] (G ++ (spaces τ ++ tl)))) := by
      rw [seq, bind_err]
      rw [seqLoop, bind_ok (lift_of (forward_st ..)), bind_err]
      simp only [List.isEmpty_nil, if_true, List.append_nil]
      rw [bind_ok (hfi k hw hk1 pre)]
      have hdash : ∃ c' r', tl = c' :: r' ∧ (c' = 0x2D → headIn b!":{}[] ,\n\r" r' = false) := by
        obtain ⟨c2, r2, hT2, _, _, h3⟩ := hkt.2
        refine ⟨c2, r2 ++ 0x3A :: (es.sp ++ es.body τ) ++ E, ?_, ?_⟩
        · rw [← htl, hT2]; rfl
        · intro hc
          obtain ⟨x, s, rfl, hx⟩ := h3 (.inl hc)
          simp only [List.cons_append, headIn]
          simpa using hx
      rcases dash_no k1 pre (G ++ spaces τ) hdash with ⟨s, hs, rfl⟩ | ⟨r', hr, hs, hb⟩
      · rw [bind_err (lift_of hs), List.append_assoc]
      · rw [bind_ok (lift_of hs), bind_err (lift_of hb), List.append_assoc]
    generalize hkn : (Node.mk (k.consumed + pre.length + (G ++ spaces τ).length) [] es.y) = kn
    have hgo := hN (a + 1) (a + 1) a (by omega) (by omega) (by omega) L (pre ++ (G ++ spaces τ) ++ es.T)
      (0x3A :: es.sp) [] kn true hL
    have hpos : k2.consumed + (pre ++ (G ++ spaces τ) ++ es.T ++ 0x3A :: es.sp).length =
        k.consumed + pre.length + (G ++ spaces τ).length + es.T.length + 1 + es.sp.length := by
      rw [hcon2]; simp; omega
    simp only [Blk.fine] at hfine
    rw [hpos, envOf_ctx L (Ctx.tag_of_at (Ctx.at_of_at hk2at (Nat.le_succ p) |>.trans hk1at))] at hgo
    replace hgo := hgo hfine (by
        simp only [List.nil_append]
        rw [← hkn]; exact hgood _ _ _)
    generalize hP : k.consumed + pre.length + (G ++ spaces τ).length + es.T.length + 1 + es.sp.length = P at *
    have hmap : YamlPeg.map (scalar (a + 1)) (a + 1) (p + 1) true false
        (ld L (st k1 pre [] (G ++ (spaces τ ++ tl)))) =
        (.ok (.map (mapOf (es.pairs τ kn P (envOf L k)))),
          ld (L.put (es.eff τ P (envOf L k))) (st k' (pre ++ (Blk.map (G ++ spaces τ) τ es).text) [] E)) := by
      rw [YamlPeg.map, mapLoop, bind_ok (a := MapStep.key kn)
        (s' := ld L (st k2 (pre ++ (G ++ spaces τ) ++ es.T) (0x3A :: es.sp) (es.body τ ++ E)))]
      · simp only
        rw [mapGo] at hgo
        rw [hgo]
        simp [Blk.text]
      · rw [mapStep, bind_ok (lift_of (forward_st ..))]
        simp only [List.isEmpty_nil, if_true, List.append_nil]
        have hkey : (do
            if ← isOk (lift complexMapping) then complexKey (scalar (a + 1)) (p + 1) true false "map key"
            else scalarFlow (scalar (a + 1)) (a + 1) (p + 1 + 1) false : LM Node)
            (ld L (st k1 (pre ++ (G ++ spaces τ)) [] tl)) =
            (.ok kn, ld L (st k2 (pre ++ (G ++ spaces τ) ++ es.T) []
              (0x3A :: (es.sp ++ (es.body τ ++ E))))) := by
          have hcm : complexMapping (st k1 (pre ++ (G ++ spaces τ)) [] tl) =
              (.err .mismatch, st k1 (pre ++ (G ++ spaces τ)) [] tl) := by
            rw [← htl, List.append_assoc es.T]; exact complexMapping_no _ _ hkt.2
          rw [bind_ok (isOk_err (lift_of hcm))]
          simp only [Bool.false_eq_true, if_false]
          rw [hN1 (a + 1) (a + 1) (by omega) (by omega) L (pre ++ (G ++ spaces τ)) hL,
            ← hkn, hcon]
          simp [Nat.add_assoc]
        rw [bind_ok (hfi k1 hk1w (by subst hk1; simp) _), bind_ok (lift_of (forward_st ..)), bind_ok hkey]
        rw [bind_ok (colonBound_yes _ _ _ hsep)]
        rfl
    rw [scalar, htxt]
    rw [scalarNode_ok (y := .map (mapOf (es.pairs τ kn P (envOf L k))))
      (k' := k') (L' := L.put (es.eff τ P (envOf L k))) (p' := pre ++ (Blk.map (G ++ spaces τ) τ es).text) (m' := []) (post' := E)]
    · simp only [Blk.node, Blk.data, Blk.eff, Blk.off, Blk.tag, hkn, hP, Nat.add_zero, List.append_nil]
    · rw [hce]; exact noProps_of hc'
    · rw [hce, scalarBody_skip _ _ _ hc', ← hce, orElse_ok]
      rw [orElse_mismatch hseq, hmap]
  | .cmap lead τ es, p, σ, k, E, hwf, hw, hw2, hf, hs, hd => by
    rw [Blk.wfV] at hwf
    obtain ⟨⟨G, hG, rfl⟩, hle, hi⟩ := hwf
    obtain ⟨w, rfl⟩ : ∃ w, τ = σ + w := ⟨τ - σ, by omega⟩
    rw [Blk.kind] at hf
    generalize hk1 : k.push p w = k1
    have hk1at : k1.at p = k.at p := by subst hk1; exact Ctx.push_at ..
    have hlen1 : k1.indent.length ≤ (p + 1) + 1 := by subst hk1; simp
    have hw1 : k1.want (p + 1) = σ + w := by subst hk1; rw [Ctx.push_want, hw]
    have hk1w : k1.want p = σ := by rw [Ctx.want_of_at hk1at, hw]
    have hcon : k1.consumed = k.consumed := Ctx.consumed_of_at hk1at
    have hs' : Stops (σ + w) false E := by
      by_cases h : w = 0
      · subst h
        simp only [Blk.deep] at hd
        exact hd.resolve_left (by omega)
      · exact Stops.mono hs (by omega)
    have hsep := CEnts.sepOK hi hf
    have hkt := hi.key.head
    obtain ⟨k2, hk2at, hk2w, N1, hN1⟩ := CEnts.readKey es (σ + w) (p + 1) k1 (es.sp ++ (es.body (σ + w) ++ E)) hi.key hw1
      (by rw [Ctx.want_succ _ _ hlen1]; omega) hsep.colonStop
    have hcon2 : k2.consumed = k.consumed := (Ctx.consumed_of_at hk2at).trans hcon
    obtain ⟨k', m, r, hk', _, hmr, N, hN⟩ := CEnts.read es (σ + w) (p + 1) k2 E hi
      ((Ctx.want_of_at hk2at).trans hw1) hk2w hf hs'
    refine ⟨k', (Ctx.at_of_at (hk'.trans hk2at) (Nat.le_succ p)).trans hk1at, by
      rw [Ctx.want_of_at (hk'.trans hk2at), hw1]; simp only [Blk.calmV, Kept]; omega, N + N1 + 3, fun n hn L pre hL hfine => ?_⟩
    obtain ⟨a, rfl⟩ : ∃ a, n = a + 2 := ⟨n - 2, by omega⟩
    generalize hτ : σ + w = τ at *
    simp only [Blk.fine] at hfine
    generalize hP : k.consumed + pre.length + (G ++ spaces τ).length = P at hfine
    generalize htl : es.K τ ++ 0x3A :: (es.sp ++ (es.body τ ++ E)) = tl at *
    have htxt : (Blk.cmap (G ++ spaces τ) τ es).text ++ E = G ++ (spaces τ ++ tl) := by
      simp [Blk.text, ← htl]
    obtain ⟨c, u, hTe, h1, h3⟩ := id hkt
    have htle : tl = c :: (u ++ 0x3A :: (es.sp ++ (es.body τ ++ E))) := by rw [← htl, hTe]; rfl
    obtain ⟨c', g', hGe, hc'⟩ := hG.head
    have hc' := plainHead_of_not_tok hc'
    have hce : G ++ (spaces τ ++ tl) = c' :: (g' ++ (spaces τ ++ tl)) := by rw [hGe]; rfl
    have hfi : ∀ k0 : Ctx, k0.want p = σ → k0.push p w = k1 → ∀ pre,
        firstItem (p + 1) true (ld L (st k0 pre [] (G ++ (spaces τ ++ tl)))) =
        (.ok (), ld L (st k1 pre (G ++ spaces τ) tl)) := by
      intro k0 h0 h0' pre
      have := firstItem_value k0 L pre [] hG (p := p) (w := w) (c := c)
        (r := u ++ 0x3A :: (es.sp ++ (es.body τ ++ E))) h1
      rw [h0, h0', hτ] at this
      rw [htle]
      simpa using this
    have hseq : seq (scalar (a + 1)) (a + 1) (p + 1) true (ld L (st k pre [] (G ++ (spaces τ ++ tl)))) =
        (.err .mismatch, ld L (st k1 pre [] (G ++ (spaces τ ++ tl)))) := by
      rw [seq, bind_err]
      rw [seqLoop, bind_ok (lift_of (forward_st ..)), bind_err]
      simp only [List.isEmpty_nil, if_true, List.append_nil]
      rw [bind_ok (hfi k hw hk1 pre)]
      have hdash : ∃ c' r', tl = c' :: r' ∧ (c' = 0x2D → headIn b!":{}[] ,\n\r" r' = false) := by
        refine ⟨c, _, htle, ?_⟩
        intro hc
        obtain ⟨x, s, rfl, hx⟩ := h3 hc
        simp only [List.cons_append, headIn]
        simpa using hx
      rcases dash_no k1 pre (G ++ spaces τ) hdash with ⟨s, hs, rfl⟩ | ⟨r', hr, hs, hb⟩
      · rw [bind_err (lift_of hs), List.append_assoc]
      · rw [bind_ok (lift_of hs), bind_err (lift_of hb), List.append_assoc]
    have htag1 : k1.tag = k.tag := Ctx.tag_of_at hk1at
    have henv : envOf L k1 = envOf L k := envOf_ctx L htag1
    have hpk : k1.consumed + (pre ++ (G ++ spaces τ)).length = P := by rw [hcon, ← hP]; simp; omega
    obtain ⟨p', m', hpm, hkey⟩ := hN1 (a + 1) (a + 1) (by omega) (by omega) L (pre ++ (G ++ spaces τ)) _ (.inl rfl) hL (by
      rw [hpk, henv]; exact hfine.1.key)
    rw [hpk, henv] at hkey
    have hgo := hN (a + 1) (a + 1) a (by omega) (by omega) (by omega) (L.put (es.keyEff P (envOf L k))) p'
      (m' ++ 0x3A :: es.sp) [] true P (envOf L k) (hL.put _)
      (by rw [envOf_put hL ((Ctx.tag_of_at hk2at).trans htag1)])
      (by rw [hcon2, ← List.append_assoc, hpm, ← hP]; simp; omega) hfine.1 (by simpa using hfine.2)
    have hmap : YamlPeg.map (scalar (a + 1)) (a + 1) (p + 1) true false
        (ld L (st k1 pre [] (G ++ (spaces τ ++ tl)))) =
        (.ok (.map (mapOf (es.pairs τ P (envOf L k)))),
          ld (L.put (es.eff τ P (envOf L k))) (st k' (pre ++ (Blk.cmap (G ++ spaces τ) τ es).text) [] E)) := by
      rw [YamlPeg.map, mapLoop, bind_ok (a := MapStep.key (es.keyNode P (envOf L k)))
        (s' := ld (L.put (es.keyEff P (envOf L k))) (st k2 p' (m' ++ 0x3A :: es.sp) (es.body τ ++ E)))]
      · simp only
        rw [mapGo] at hgo
        rw [hgo, Loader.put_put, ← List.append_assoc, ← List.append_assoc, hpm]
        simp [Blk.text]
      · rw [mapStep, bind_ok (lift_of (forward_st ..))]
        simp only [List.isEmpty_nil, if_true, List.append_nil]
        rw [bind_ok (hfi k1 hk1w (by subst hk1; simp) _), bind_ok (lift_of (forward_st ..)), bind_ok hkey]
        rw [bind_ok (colonBound_yes' _ _ _ _ hsep)]
        rfl
    rw [scalar, htxt]
    rw [scalarNode_ok (y := .map (mapOf (es.pairs τ P (envOf L k))))
      (k' := k') (L' := L.put (es.eff τ P (envOf L k))) (p' := pre ++ (Blk.cmap (G ++ spaces τ) τ es).text) (m' := []) (post' := E)]
    · simp only [Blk.node, Blk.data, Blk.eff, Blk.off, Blk.tag, hP, Nat.add_zero, List.append_nil]
    · rw [hce]; exact noProps_of hc'
    · rw [hce, scalarBody_skip _ _ _ hc', ← hce, orElse_ok]
      rw [orElse_mismatch hseq, hmap]
  | .prop f b, p, σ, k, E, hwf, hw, hw2, hf, hs, hd => by
    rw [Blk.wfV] at hwf
    obtain ⟨hform, hbare, hb⟩ := hwf
    rw [Blk.kind] at hf
    obtain ⟨k', hk', hcw, N, hN⟩ := Blk.readV b p σ k E hb hw hw2 hf hs (by simpa only [Blk.deep] using hd)
    refine ⟨k', hk', by simpa only [Blk.calmV] using hcw, N + 1, fun n hn L pre hL hfine => ?_⟩
    obtain ⟨n, rfl⟩ : ∃ a, n = a + 1 := ⟨n - 1, by omega⟩
    simp only [Blk.fine] at hfine
    have hpos : k.consumed + (pre ++ f.text).length = k.consumed + pre.length + f.text.length := by simp; omega
    have := hN (n + 1) (by omega) L (pre ++ f.text) hL (by rw [hpos]; exact hfine.2.1)
    rw [hpos, scalar, Blk.node, Blk.off_bare hbare, Blk.tag_bare hbare] at this
    simp only [Nat.add_zero] at this
    have hX : noProps (b.text ++ E) = true := Blk.noPropsV hb hbare hf
    rw [scalar]
    simp only [Blk.text, List.append_assoc] at this ⊢
    rw [scalarNode_prop (hform.append E) hfine.1 hX hL hfine.2.2 this]
    simp only [Blk.node, Blk.off, Blk.tag, Blk.data, Blk.eff]

/-- The items of a sequence, from behind the first `- `. -/
theorem Items.read : ∀ (its : Items) (τ level : Nat) (k : Ctx) (E : Bytes) (d : Bool), its.wf τ →
    k.want level = τ → k.indent.length ≤ level + 1 → Fits its.kind E → Stops τ d E →
    ∃ k' m r, k'.at level = k.at level ∧ τ < k'.want (level + 1) ∧ m ++ r = E ∧ ∃ N, ∀ n c, N ≤ n → N ≤ c → ∀ L pre mid v map, L.Ready →
      its.fine τ (k.consumed + (pre ++ mid).length) (envOf L k) →
      seqGo n level map c v (ld L (st k pre mid (its.body τ ++ E))) =
        (.ok (v ++ its.nodes τ (k.consumed + (pre ++ mid).length) (envOf L k)),
          ld (L.put (its.eff τ (k.consumed + (pre ++ mid).length) (envOf L k))) (st k' (pre ++ (mid ++ its.body τ)) m r))
  | .one sp b, τ, level, k, E, d, hwf, hw, hlen, hf, hs => by
    rw [Items.wf] at hwf
    rw [Items.kind] at hf
    have hw2 : k.want (level + 1) = τ + 2 := by rw [Ctx.want_succ _ _ hlen, hw]
    obtain ⟨k1, hk1, _, N, hN⟩ := Blk.readN b (level + 1) (τ + 2) k E hwf.2 hw2 (.inr (.inl (by omega))) hf
      (Stops.mono hs (by omega))
    have hk1' := Ctx.at_of_at hk1 (Nat.le_succ level)
    obtain ⟨k2, m, r, hk2, hmr, hn⟩ := nextItem_stop k1 ((Ctx.want_of_at hk1').trans hw) hs
    have hk2' : k2.at level = k.at level := by
      rcases hk2 with rfl | ⟨rfl, hpos⟩
      · exact hk1'
      · rw [Ctx.at_idem, hk1']
    have hcw : τ < k2.want (level + 1) := by
      rcases hk2 with rfl | ⟨rfl, hpos⟩
      · rw [Ctx.want_of_at hk1, hw2]; omega
      · rw [Ctx.want_succ _ _ (by simp), Ctx.want_of_at hk2', hw]; omega
    have hx : ∀ n c, N + 1 ≤ n → N + 1 ≤ c → ∀ L pre mid v map, L.Ready →
        b.fine (k.consumed + (pre ++ mid).length) (envOf L k) → seqGo n level map c v
        (ld L (st k pre mid (b.text ++ E))) =
        seqLoop (scalar n) level map c (v ++ [b.node (k.consumed + (pre ++ mid).length) (envOf L k)])
          (ld (L.put (b.eff (k.consumed + (pre ++ mid).length) (envOf L k))) (st k1 (pre ++ (mid ++ b.text)) [] E)) := by
      intro n c h1 h2 L pre mid v map hL hfine
      rw [seqGo, bind_ok (lift_of (forward_st ..)), bind_ok (orErr_ok (hN n (by omega) L (pre ++ mid) hL hfine))]
      rw [List.append_assoc pre mid b.text]
    rcases hn with hn | ⟨hd, hcr, hn⟩
    · refine ⟨k2, m, r, hk2', hcw, hmr, N + 1, fun n c h1 h2 L pre mid v map hL hfine => ?_⟩
      simp only [Items.fine] at hfine
      simp only [Items.body, Items.nodes, Items.eff, Blk.node_def]
      rw [hx n c h1 h2 L pre mid v map hL hfine]
      generalize L.put (b.eff (k.consumed + (pre ++ mid).length) (envOf L k)) = L
      obtain ⟨c, rfl⟩ : ∃ m, c = m + 1 := ⟨c - 1, by omega⟩
      rw [seqLoop, bind_ok (lift_of (forward_st ..)), bind_ok (a := true)
        (s' := ld L (st k2 (pre ++ (mid ++ b.text)) m r))]
      · rfl
      · simp only [isEmpty_snoc, Bool.false_eq_true, if_false,
          List.append_nil]
        rw [bind_ok (hn _ _ _)]
        rfl
    · refine ⟨k2, [], E, hk2', hcw, rfl, N + 1, fun n c h1 h2 L pre mid v map hL hfine => ?_⟩
      simp only [Items.fine] at hfine
      simp only [Items.body, Items.nodes, Items.eff, Blk.node_def]
      rw [hx n c h1 h2 L pre mid v map hL hfine]
      generalize L.put (b.eff (k.consumed + (pre ++ mid).length) (envOf L k)) = L
      obtain ⟨c, rfl⟩ : ∃ m, c = m + 1 := ⟨c - 1, by omega⟩
      rw [seqLoop, bind_ok (lift_of (forward_st ..)), bind_ok (a := true)
        (s' := ld L (st k2 (pre ++ (mid ++ b.text)) [] E))]
      · rfl
      · simp only [isEmpty_snoc, Bool.false_eq_true, if_false,
          List.append_nil]
        rw [bind_ok (hn _ _ _)]
        simp only [Bool.false_eq_true, if_false]
        rw [seqLoop_noitem _ _ _ _ _ hcr, hmr]
  | .cons sp b G rest, τ, level, k, E, d, hwf, hw, hlen, hf, hs => by
    rw [Items.wf] at hwf
    obtain ⟨hsep, hb, hG, hfit, hrest⟩ := hwf
    rw [Items.kind] at hf
    have hw2 : k.want (level + 1) = τ + 2 := by rw [Ctx.want_succ _ _ hlen, hw]
    generalize hE' : rest.sp ++ (rest.body τ ++ E) = E'
    obtain ⟨k1, hk1, _, N, hN⟩ := Blk.readN b (level + 1) (τ + 2) k (G ++ (spaces τ ++ 0x2D :: E'))
      hb hw2 (.inr (.inl (by omega))) (hfit _) (hG.stops (by omega) (by decide) _)
    have hk1' := Ctx.at_of_at hk1 (Nat.le_succ level)
    have hw1 : k1.want level = τ := (Ctx.want_of_at hk1').trans hw
    have hcon1 : k1.consumed = k.consumed := Ctx.consumed_of_at hk1
    obtain ⟨k', m, r, hk', hcw, hmr, N2, hN2⟩ := Items.read rest τ level (k1.at level) E d hrest
      (by rw [Ctx.want_at, hw1]) (by simp) hf hs
    refine ⟨k', m, r, ?_, hcw, hmr, N + N2 + 1, fun n c h1 h2 L pre mid v map hL hfine => ?_⟩
    · rw [hk', Ctx.at_idem, hk1']
    have htxt : (Items.cons sp b G rest).body τ ++ E = b.text ++ (G ++ (spaces τ ++ 0x2D :: E')) := by
      simp [Items.body, ← hE']
    obtain ⟨c, rfl⟩ : ∃ m, c = m + 1 := ⟨c - 1, by omega⟩
    have hsep' := Items.sepOK hrest hf
    simp only [Items.fine] at hfine
    generalize hP : k.consumed + (pre ++ mid).length = P at *
    generalize hL1 : L.put (b.eff P (envOf L k)) = L1
    have hL1r : L1.Ready := hL1 ▸ hL.put _
    have henv : envOf L1 (k1.at level) = { envOf L k with anchors := b.eff P (envOf L k) } := by
      rw [← hL1, envOf_put hL]; exact Ctx.tag_of_at (q := level) (by rw [Ctx.at_idem, hk1'])
    have hpos : (k1.at level).consumed + (pre ++ mid ++ b.text ++ (G ++ spaces τ ++ [0x2D] ++ rest.sp) ++ []).length =
        P + b.text.length + G.length + τ + 1 + rest.sp.length := by
      rw [Ctx.at_consumed, hcon1, ← hP]; simp [spaces]; omega
    have hgo := hN2 n c (by omega) (by omega) L1
      (pre ++ mid ++ b.text ++ (G ++ spaces τ ++ [0x2D] ++ rest.sp)) []
      (v ++ [b.node P (envOf L k)]) map hL1r
    rw [hpos, henv] at hgo
    replace hgo := hgo hfine.2
    have hx := hN n (by omega) L (pre ++ mid) hL (by rw [hP]; exact hfine.1)
    rw [hP, hL1] at hx
    rw [seqGo, htxt, bind_ok (lift_of (forward_st ..)), bind_ok (orErr_ok hx)]
    rw [seqLoop, bind_ok (lift_of (forward_st ..)), bind_ok (a := false)
      (s' := ld L1 (st (k1.at level) (pre ++ mid ++ b.text ++ (G ++ spaces τ ++ [0x2D] ++ rest.sp)) []
        (rest.body τ ++ E)))]
    · simp only [Bool.false_eq_true, if_false]
      rw [seqGo] at hgo
      rw [hgo]
      simp only [Items.nodes, Items.eff, Blk.node_def, ← hL1, Loader.put_put]
      simp [Items.body]
    · simp only [isEmpty_snoc, Bool.false_eq_true, if_false,
          List.append_nil]
      rw [bind_ok (nextItem_more _ _ _ hG hw1 (by decide) (docMark_spaces (by
        rw [← hE']; exact docMark_dash hsep')) _)]
      simp only [Bool.false_eq_true, if_false]
      rw [bind_ok (isOk_ok (lift_of (sym_hit ..)))]
      simp only [if_true]
      rw [← hE', bind_ok (isOk_ok (lift_of (bound_sep _ _ _ hsep')))]
      simp only [if_true]
      rw [bind_ok (lift_of (forward_st ..))]
      rfl

/-- The entries of a map, from behind the first `key: `. -/
theorem Ents.read : ∀ (es : Ents) (τ level : Nat) (k : Ctx) (E : Bytes), es.wf τ →
    k.want level = τ → k.want (level + 1) = τ + 2 → Fits es.kind E → Stops τ false E →
    ∃ k' m r, k'.at level = k.at level ∧ Kept (es.calm τ) τ (k'.want (level + 1)) ∧ m ++ r = E ∧ ∃ N, ∀ n i c, N ≤ n → N ≤ i → N ≤ c →
      ∀ L pre mid acc kn map, L.Ready → es.fine τ (k.consumed + (pre ++ mid).length) (envOf L k) →
      GoodKeys ((acc ++ es.pairs τ kn (k.consumed + (pre ++ mid).length) (envOf L k)).map Prod.fst) →
      mapGo n level map i c acc kn (ld L (st k pre mid (es.body τ ++ E))) =
        (.ok (.map (mapOf (acc ++ es.pairs τ kn (k.consumed + (pre ++ mid).length) (envOf L k)))),
          ld (L.put (es.eff τ (k.consumed + (pre ++ mid).length) (envOf L k))) (st k' (pre ++ (mid ++ es.body τ)) [] E))
  | .one T y sp b, τ, level, k, E, hwf, hw, hw2, hf, hs => by
    rw [Ents.wf] at hwf
    rw [Ents.kind] at hf
    obtain ⟨k1, hk1, hcw, N, hN⟩ := Blk.readV b level τ k E hwf.2.2 hw hw2 hf (hs.to_dash true) (.inr hs)
    obtain ⟨k2, m, r, hk2, hmr, hn⟩ := nextItem_stop k1 ((Ctx.want_of_at hk1).trans hw) hs
    have hk2' : k2.at level = k.at level := by
      rcases hk2 with rfl | ⟨rfl, hpos⟩
      · exact hk1
      · rw [Ctx.at_idem, hk1]
    have hcw2 : Kept ((Ents.one T y sp b).calm τ) τ (k2.want (level + 1)) := by
      rcases hk2 with rfl | ⟨rfl, hpos⟩
      · simpa only [Ents.calm] using hcw
      · rw [Ctx.want_succ _ _ (by simp), Ctx.want_of_at hk2', hw]
        simp at hpos
        simp only [Kept]; omega
    rcases hn with hn | ⟨hd, hcr, hn⟩
    · refine ⟨k2, m, r, hk2', hcw2, hmr, N + 1, fun n i c h1 h2 h3 L pre mid acc kn map hL hfine hgood => ?_⟩
      simp only [Ents.fine] at hfine
      simp only [Ents.body, Ents.pairs, Ents.eff, Blk.node_def] at hgood ⊢
      rw [mapGo, bind_ok (lift_of (forward_st ..)), bind_ok (orErr_ok (hN n (by omega) L (pre ++ mid) hL hfine))]
      generalize L.put (b.eff (k.consumed + (pre ++ mid).length) (envOf L k)) = L1
      obtain ⟨c, rfl⟩ : ∃ m, c = m + 1 := ⟨c - 1, by omega⟩
      rw [mapLoop, bind_ok (a := MapStep.stop) (s' := ld L1 (st k2 (pre ++ mid ++ b.text) m r))]
      · simp only
        rw [bind_ok (lift_of (backward_st ..)), hmr, collectMap]
        rw [entriesCollect_good hgood _ [] (by simp) (fun e he => List.mem_map_of_mem he)]
        simp [mapOf]
      · rw [mapStep, bind_ok (lift_of (forward_st ..))]
        simp only [isEmpty_snoc, Bool.false_eq_true, if_false,
          List.append_nil]
        rw [bind_ok (hn _ _ _)]
        rfl
    · simp at hd
  | .cons T y sp b G rest, τ, level, k, E, hwf, hw, hw2, hf, hs => by
    rw [Ents.wf] at hwf
    obtain ⟨hkey, hsep, hb, hG, hfit, hrest⟩ := hwf
    rw [Ents.kind] at hf
    have hkt := (Ents.keyOK hrest)
    have hmark := docMark_key hkt.2 (rest.sp ++ rest.body τ ++ E)
    generalize htl : rest.T ++ 0x3A :: (rest.sp ++ rest.body τ) ++ E = tl
    have hfit' : Fits b.kind (G ++ (spaces τ ++ tl)) := by
      rw [← htl, List.append_assoc]; exact hfit _
    have hst : Stops τ true (G ++ (spaces τ ++ tl)) := by
      rw [← htl, List.append_assoc]; exact hG.stops_key hkt.1.2.keyHead _
    obtain ⟨k1, hk1, _, N, hN⟩ := Blk.readV b level τ k (G ++ (spaces τ ++ tl)) hb.1 hw hw2 hfit' hst (.inl hb.2)
    have hw1 : k1.want level = τ := (Ctx.want_of_at hk1).trans hw
    have hcon1 : k1.consumed = k.consumed := Ctx.consumed_of_at hk1
    obtain ⟨k2, hk2, N1, hN1⟩ := key_read hrest (k1.at level) level hf
      (by rw [Ctx.want_succ _ _ (by simp)]; omega)
    have hk2at : k2.at level = k1.at level := by
      rw [Ctx.at_of_at hk2 (Nat.le_succ level), Ctx.at_idem]
    have hk2w : k2.want (level + 1) = τ + 2 := by
      rw [Ctx.want_of_at hk2, Ctx.want_succ _ _ (by simp), Ctx.want_at, hw1]
    have hcon2 : k2.consumed = k.consumed := (Ctx.consumed_of_at hk2at).trans hcon1
    obtain ⟨k', m, r, hk', hcw, hmr, N2, hN2⟩ := Ents.read rest τ level k2 E hrest
      ((Ctx.want_of_at hk2at).trans hw1) hk2w hf hs
    refine ⟨k', m, r, ?_, by simpa only [Ents.calm] using hcw, hmr, N + N1 + N2 + 1, fun n i c h1 h2 h3 L pre mid acc kn map hL hfine hgood => ?_⟩
    · rw [hk', hk2at, hk1]
    have htxt : (Ents.cons T y sp b G rest).body τ ++ E = b.text ++ (G ++ (spaces τ ++ tl)) := by
      simp [Ents.body, ← htl]
    obtain ⟨c, rfl⟩ : ∃ m, c = m + 1 := ⟨c - 1, by omega⟩
    have hsep' := Ents.sepOK hrest hf
    generalize hP : k.consumed + (pre ++ mid).length = P at *
    generalize hkn : (Node.mk (P + b.text.length + G.length + τ) [] rest.y) = kn'
    have hpos : k2.consumed + (pre ++ mid ++ b.text ++ (G ++ spaces τ) ++ rest.T ++ 0x3A :: rest.sp).length =
        P + b.text.length + G.length + τ + rest.T.length + 1 + rest.sp.length := by
      rw [hcon2, ← hP]; simp [spaces]; omega
    simp only [Ents.fine] at hfine
    generalize hL1 : L.put (b.eff P (envOf L k)) = L1
    have hL1r : L1.Ready := hL1 ▸ hL.put _
    have henv : envOf L1 k2 = { envOf L k with anchors := b.eff P (envOf L k) } := by
      rw [← hL1, envOf_put hL]; exact Ctx.tag_of_at (hk2at.trans hk1)
    have hpairs : (Ents.cons T y sp b G rest).pairs τ kn P (envOf L k) =
        (kn, b.node P (envOf L k)) :: rest.pairs τ kn'
          (P + b.text.length + G.length + τ + rest.T.length + 1 + rest.sp.length)
          { envOf L k with anchors := b.eff P (envOf L k) } := by
      rw [Ents.pairs, hkn]; rfl
    have hgo := hN2 n i c (by omega) (by omega) (by omega) L1
      (pre ++ mid ++ b.text ++ (G ++ spaces τ) ++ rest.T) (0x3A :: rest.sp)
      (acc ++ [(kn, b.node P (envOf L k))]) kn' map hL1r (by
        rw [hpos, henv]; exact hfine.2) (by
        rw [hpos, henv, List.append_assoc, List.singleton_append, ← hpairs]
        exact hgood)
    rw [hpos, henv] at hgo
    have hx := hN n (by omega) L (pre ++ mid) hL (by rw [hP]; exact hfine.1)
    rw [hP, hL1] at hx
    obtain ⟨x, u, hTe, hx1, hx2⟩ := hkt.1.2.head
    have htle : tl = x :: (u ++ 0x3A :: (rest.sp ++ rest.body τ) ++ E) := by
      rw [← htl, hTe]; rfl
    rw [mapGo, htxt, bind_ok (lift_of (forward_st ..)), bind_ok (orErr_ok hx)]
    rw [mapLoop, bind_ok (a := MapStep.key kn')
      (s' := ld L1 (st k2 (pre ++ mid ++ b.text ++ (G ++ spaces τ) ++ rest.T) (0x3A :: rest.sp)
        (rest.body τ ++ E)))]
    · simp only
      rw [mapGo] at hgo
      rw [hgo, hpairs]
      simp [Ents.body, Ents.eff, ← hL1]
    · rw [mapStep, bind_ok (lift_of (forward_st ..))]
      simp only [isEmpty_snoc, Bool.false_eq_true, if_false,
          List.append_nil]
      have hni : nextItem level "map terminator" (ld L1 (st k1 (pre ++ mid ++ b.text) [] (G ++ (spaces τ ++ tl)))) =
          (.ok false, ld L1 (st (k1.at level) (pre ++ mid ++ b.text) (G ++ spaces τ) tl)) := by
        have := nextItem_more k1 L1 (pre ++ mid ++ b.text) hG hw1 hx1 (r := u ++ 0x3A :: (rest.sp ++ rest.body τ) ++ E)
          (docMark_spaces (by rw [← htle, ← htl]; simpa using hmark)) "map terminator"
        rw [← htle] at this
        exact this
      rw [bind_ok hni]
      simp only [Bool.false_eq_true, if_false]
      rw [bind_ok (lift_of (forward_st ..))]
      have hkeyr : (do
          if ← isOk (lift complexMapping) then complexKey (scalar n) level true false "map key"
          else orErr (scalarFlow (scalar n) i (level + 1) false) "map key" : LM Node)
          (ld L1 (st (k1.at level) (pre ++ mid ++ b.text ++ (G ++ spaces τ)) [] tl)) =
          (.ok kn', ld L1 (st k2 (pre ++ mid ++ b.text ++ (G ++ spaces τ) ++ rest.T) []
            (0x3A :: (rest.sp ++ (rest.body τ ++ E))))) := by
        have hcm : complexMapping (st (k1.at level) (pre ++ mid ++ b.text ++ (G ++ spaces τ)) [] tl) =
            (.err .mismatch, st (k1.at level) (pre ++ mid ++ b.text ++ (G ++ spaces τ)) [] tl) := by
          rw [← htl, List.append_assoc rest.T]; exact complexMapping_no _ _ hkt.1.2
        rw [bind_ok (isOk_err (lift_of hcm))]
        simp only [Bool.false_eq_true, if_false]
        rw [← htl, orErr_ok (hN1 n i (by omega) (by omega) L1 _ hL1r), ← hkn]
        simp only [Ctx.at_consumed, hcon1, ← hP]
        congr 3
        simp [spaces]; omega
      rw [bind_ok hkeyr, bind_ok (colonBound_yes _ _ _ hsep')]
      rfl
/-- The key of an entry. -/
theorem CEnts.readKey : ∀ (es : CEnts) (τ level : Nat) (k : Ctx) (R : Bytes), es.keyWf τ →
    k.want level = τ → k.want (level + 1) = τ + 2 → colonStop R = true →
    ∃ k', k'.at level = k.at level ∧ k'.want (level + 1) = τ + 2 ∧ ∃ N, ∀ a n, N ≤ a → N ≤ n → ∀ L pre sf,
      (sf = scalarFlow (scalar a) n (level + 1) false ∨
        sf = orErr (scalarFlow (scalar a) n (level + 1) false) "map key") → L.Ready →
      es.b.fine (k.consumed + pre.length + koff es.c) (envOf L k) →
      ∃ p' m', p' ++ m' = pre ++ es.K τ ∧
        (do if ← isOk (lift complexMapping) then complexKey (scalar a) level true false "map key"
            else sf : LM Node) (ld L (st k pre [] (es.K τ ++ 0x3A :: R))) =
          (.ok (es.keyNode (k.consumed + pre.length) (envOf L k)),
            ld (L.put (es.keyEff (k.consumed + pre.length) (envOf L k))) (st k' p' m' (0x3A :: R)))
  | .one c b sp v, τ, level, k, R, hwf, hw, hw2, hR => by
    rcases hwf with ⟨hc, hb⟩ | ⟨s, G, hc, hb⟩
    · exact key_flat hc hb hw2 hR
    · exact key_complex hc hb hw (fun E h1 h2 h3 => by
        obtain ⟨k', hk', _, h⟩ := Blk.readV b level τ k E hb.2.1 hw hw2 h1 h2 h3
        exact ⟨k', hk', h⟩)
  | .cons c b sp v G' rest, τ, level, k, R, hwf, hw, hw2, hR => by
    rcases hwf with ⟨hc, hb⟩ | ⟨s, G, hc, hb⟩
    · exact key_flat hc hb hw2 hR
    · exact key_complex hc hb hw (fun E h1 h2 h3 => by
        obtain ⟨k', hk', _, h⟩ := Blk.readV b level τ k E hb.2.1 hw hw2 h1 h2 h3
        exact ⟨k', hk', h⟩)

/-- The entries of a map, from behind the first `key: `. -/
theorem CEnts.read : ∀ (es : CEnts) (τ level : Nat) (k : Ctx) (E : Bytes), es.wf τ →
    k.want level = τ → k.want (level + 1) = τ + 2 → Fits es.kind E → Stops τ false E →
    ∃ k' m r, k'.at level = k.at level ∧ Kept (es.calm τ) τ (k'.want (level + 1)) ∧ m ++ r = E ∧ ∃ N, ∀ n i c, N ≤ n → N ≤ i → N ≤ c →
      ∀ L pre mid acc map P e, L.Ready → envOf L k = { e with anchors := es.keyEff P e } →
      k.consumed + (pre ++ mid).length = P + (es.K τ).length + 1 + es.sp.length → es.fine τ P e →
      GoodKeys ((acc ++ es.pairs τ P e).map Prod.fst) →
      mapGo n level map i c acc (es.keyNode P e) (ld L (st k pre mid (es.body τ ++ E))) =
        (.ok (.map (mapOf (acc ++ es.pairs τ P e))),
          ld (L.put (es.eff τ P e)) (st k' (pre ++ (mid ++ es.body τ)) [] E))
  | .one c0 b sp v, τ, level, k, E, hwf, hw, hw2, hf, hs => by
    have hwf := hwf.one
    rw [CEnts.kind] at hf
    obtain ⟨k1, hk1, hcw, N, hN⟩ := Blk.readV v level τ k E hwf.2 hw hw2 hf (hs.to_dash true) (.inr hs)
    obtain ⟨k2, m, r, hk2, hmr, hn⟩ := nextItem_stop k1 ((Ctx.want_of_at hk1).trans hw) hs
    have hk2' : k2.at level = k.at level := by
      rcases hk2 with rfl | ⟨rfl, hpos⟩
      · exact hk1
      · rw [Ctx.at_idem, hk1]
    have hcw2 : Kept ((CEnts.one c0 b sp v).calm τ) τ (k2.want (level + 1)) := by
      rcases hk2 with rfl | ⟨rfl, hpos⟩
      · simpa only [CEnts.calm] using hcw
      · rw [Ctx.want_succ _ _ (by simp), Ctx.want_of_at hk2', hw]
        simp at hpos
        simp only [Kept]; omega
    rcases hn with hn | ⟨hd, hcr, hn⟩
    · refine ⟨k2, m, r, hk2', hcw2, hmr, N + 1, fun n i c h1 h2 h3 L pre mid acc map P e hL henv hpos hfine hgood => ?_⟩
      simp only [CEnts.fine] at hfine
      simp only [CEnts.body, CEnts.pairs, CEnts.eff, Blk.node_def, CEnts.keyNode, CEnts.b, CEnts.c] at hgood ⊢
      simp only [CEnts.keyEff, CEnts.b, CEnts.c] at henv
      simp only [CEnts.K, CEnts.sp] at hpos
      have hx := hN n (by omega) L (pre ++ mid) hL (by rw [hpos, henv]; exact hfine.2)
      rw [hpos, henv] at hx
      rw [mapGo, bind_ok (lift_of (forward_st ..)), bind_ok (orErr_ok hx)]
      generalize L.put (v.eff (P + (ktext τ c0 b.text).length + 1 + sp.length)
        { e with anchors := b.eff (P + koff c0) e }) = L1
      obtain ⟨c, rfl⟩ : ∃ m, c = m + 1 := ⟨c - 1, by omega⟩
      rw [mapLoop, bind_ok (a := MapStep.stop) (s' := ld L1 (st k2 (pre ++ mid ++ v.text) m r))]
      · simp only
        rw [bind_ok (lift_of (backward_st ..)), hmr, collectMap]
        rw [entriesCollect_good hgood _ [] (by simp) (fun e he => List.mem_map_of_mem he)]
        simp [mapOf]
      · rw [mapStep, bind_ok (lift_of (forward_st ..))]
        simp only [isEmpty_snoc, Bool.false_eq_true, if_false,
          List.append_nil]
        rw [bind_ok (hn _ _ _)]
        rfl
    · simp at hd
  | .cons c0 b sp v G rest, τ, level, k, E, hwf, hw, hw2, hf, hs => by
    obtain ⟨hsep, hv, hG, hfit, hrest⟩ := hwf.cons
    rw [CEnts.kind] at hf
    have hkt := hrest.key.head
    have hmark := hrest.key.mark (rest.sp ++ (rest.body τ ++ E))
    have hsep' := CEnts.sepOK hrest hf
    generalize htl : rest.K τ ++ 0x3A :: (rest.sp ++ (rest.body τ ++ E)) = tl at *
    have hfit' : Fits v.kind (G ++ (spaces τ ++ tl)) := by rw [← htl]; exact hfit _
    have hst : Stops τ true (G ++ (spaces τ ++ tl)) := by rw [← htl]; exact hG.stops_key hkt _
    obtain ⟨k1, hk1, _, N, hN⟩ := Blk.readV v level τ k (G ++ (spaces τ ++ tl)) hv.1 hw hw2 hfit' hst (.inl hv.2)
    have hw1 : k1.want level = τ := (Ctx.want_of_at hk1).trans hw
    have hcon1 : k1.consumed = k.consumed := Ctx.consumed_of_at hk1
    obtain ⟨k2, hk2a, hk2w, N1, hN1⟩ := CEnts.readKey rest τ level (k1.at level) (rest.sp ++ (rest.body τ ++ E)) hrest.key
      (by rw [Ctx.want_at, hw1]) (by rw [Ctx.want_succ _ _ (by simp), Ctx.want_at, hw1]) hsep'.colonStop
    have hk2at : k2.at level = k1.at level := by rw [hk2a, Ctx.at_idem]
    have hcon2 : k2.consumed = k.consumed := (Ctx.consumed_of_at hk2at).trans hcon1
    obtain ⟨k', m, r, hk', hcw, hmr, N2, hN2⟩ := CEnts.read rest τ level k2 E hrest
      ((Ctx.want_of_at hk2at).trans hw1) hk2w hf hs
    refine ⟨k', m, r, ?_, by simpa only [CEnts.calm] using hcw, hmr, N + N1 + N2 + 1, fun n i c h1 h2 h3 L pre mid acc map P e hL henv hpos hfine hgood => ?_⟩
    · rw [hk', hk2at, hk1]
    have htxt : (CEnts.cons c0 b sp v G rest).body τ ++ E = v.text ++ (G ++ (spaces τ ++ tl)) := by
      simp [CEnts.body, ← htl]
    obtain ⟨c, rfl⟩ : ∃ m, c = m + 1 := ⟨c - 1, by omega⟩
    simp only [CEnts.keyEff, CEnts.b, CEnts.c] at henv
    simp only [CEnts.K, CEnts.sp] at hpos
    simp only [CEnts.fine] at hfine
    simp only [CEnts.pairs, Blk.node_def] at hgood ⊢
    simp only [CEnts.keyNode, CEnts.b, CEnts.c, CEnts.eff]
    generalize hV : P + (ktext τ c0 b.text).length + 1 + sp.length = V at *
    generalize he1 : ({ e with anchors := b.eff (P + koff c0) e } : Env) = e1 at *
    generalize hQ : V + v.text.length + G.length + τ = Q at *
    generalize he2 : ({ e with anchors := v.eff V e1 } : Env) = e2 at *
    have hx := hN n (by omega) L (pre ++ mid) hL (by rw [hpos, henv]; exact hfine.2.1)
    rw [hpos, henv] at hx
    generalize hL1 : L.put (v.eff V e1) = L1 at *
    have hL1r : L1.Ready := hL1 ▸ hL.put _
    have henv1 : envOf L1 (k1.at level) = e2 := by
      rw [← hL1, envOf_put hL (k := k) (Ctx.tag_of_at (q := level) (by rw [Ctx.at_idem, hk1])), henv, ← he2, ← he1]
    have hpk : (k1.at level).consumed + (pre ++ mid ++ v.text ++ (G ++ spaces τ)).length = Q := by
      rw [Ctx.at_consumed, hcon1, ← hQ, ← hpos]; simp [spaces]; omega
    obtain ⟨p', m', hpm, hkey⟩ := hN1 n i (by omega) (by omega) L1 (pre ++ mid ++ v.text ++ (G ++ spaces τ)) _ (.inr rfl)
      hL1r (by rw [hpk, henv1]; exact hfine.2.2.key)
    rw [hpk, henv1, htl] at hkey
    have hgo := hN2 n i c (by omega) (by omega) (by omega) (L1.put (rest.keyEff Q e2)) p' (m' ++ 0x3A :: rest.sp)
      (acc ++ [(b.node (P + koff c0) e, v.node V e1)]) map Q e2 (hL1r.put _)
      (by rw [envOf_put hL1r (k := k1.at level) (Ctx.tag_of_at hk2a), henv1])
      (by rw [hcon2, ← List.append_assoc, hpm, ← hpk, Ctx.at_consumed, hcon1]; simp; omega) hfine.2.2
      (by rw [List.append_assoc, List.singleton_append]; exact hgood)
    obtain ⟨x, u, hTe, hx1, hx3⟩ := id hkt
    have htle : tl = x :: (u ++ 0x3A :: (rest.sp ++ (rest.body τ ++ E))) := by
      rw [← htl, hTe]; rfl
    rw [mapGo, htxt, bind_ok (lift_of (forward_st ..)), bind_ok (orErr_ok hx)]
    rw [mapLoop, bind_ok (a := MapStep.key (rest.keyNode Q e2))
      (s' := ld (L1.put (rest.keyEff Q e2)) (st k2 p' (m' ++ 0x3A :: rest.sp) (rest.body τ ++ E)))]
    · simp only
      rw [mapGo] at hgo
      rw [hgo, Loader.put_put, ← hL1, Loader.put_put, ← List.append_assoc, ← List.append_assoc, hpm]
      simp [CEnts.body]
    · rw [mapStep, bind_ok (lift_of (forward_st ..))]
      simp only [isEmpty_snoc, Bool.false_eq_true, if_false,
          List.append_nil]
      have hni : nextItem level "map terminator" (ld L1 (st k1 (pre ++ mid ++ v.text) [] (G ++ (spaces τ ++ tl)))) =
          (.ok false, ld L1 (st (k1.at level) (pre ++ mid ++ v.text) (G ++ spaces τ) tl)) := by
        have := nextItem_more k1 L1 (pre ++ mid ++ v.text) hG hw1 hx1 (r := u ++ 0x3A :: (rest.sp ++ (rest.body τ ++ E)))
          (docMark_spaces (by rw [← htle]; exact hmark)) "map terminator"
        rw [← htle] at this
        exact this
      rw [bind_ok hni]
      simp only [Bool.false_eq_true, if_false]
      rw [bind_ok (lift_of (forward_st ..)), bind_ok hkey, bind_ok (colonBound_yes' _ _ _ _ hsep')]
      rfl
end

end YamlPeg
