import Verif.Props.Open
import Verif.Props.Errors
import Verif.Props.Directives
import Verif.Proof.BrokenDoc
/-!
# C70: which texts are rejected, with which error, and where

The grammar of the mistakes: a text with a mistake in it, the name of the error, and the
offset of the place that is shown.  Around the mistake stand the layouts of C52; behind it
anything.
-/

namespace YamlPeg.Props
open YamlPeg M

/-! ## The grammar of the mistakes

`Loose T o`: the text begins with an anchor or a tag, or one of each, and what begins at `o`, the last of
them, is not followed by a blank, a line break or one of `: , [ ] { }`.
`TwoAnchors T o`: two anchors in front of one node (perhaps with a tag in between), the second
ends at `o`. -/

mutual
/-- A flow collection. -/
inductive BadFlow : Bytes → String → Nat → Prop
  /-- items with their commas, then a mistake -/
  | seq {ws T : Bytes} {xs : List FItem} {name : String} {o : Nat} : AllWs ws → (∀ x ∈ xs, x.f.ok x.W ∧ x.f.still ∧ AllWs x.ws) →
      BadPart "flow sequence item" T name o → BadFlow (0x5B :: (ws ++ (fitemsText xs ++ T))) name (1 + ws.length + (fitemsText xs).length + o)
  /-- entries with their commas, then a mistake -/
  | map {ws T : Bytes} {xs : List FEntry} {name : String} {o : Nat} : AllWs ws →
      (∀ x ∈ xs, FlowKey x.T x.y x.sp ∧ x.v.ok [] ∧ x.v.still ∧ AllWs x.ws) →
      BadEntry T name o → BadFlow (0x7B :: (ws ++ (fentriesText xs ++ T))) name (1 + ws.length + ((fentriesText xs).length + o))
/-- An item or a value of a flow collection; a property without boundary is reported as `wrap`. -/
inductive BadPart : String → Bytes → String → Nat → Prop
  | loose {wrap : String} {T : Bytes} {o : Nat} : Loose T o → BadPart wrap T wrap o
  | twice {wrap : String} {T : Bytes} {o : Nat} : TwoAnchors T o → BadPart wrap T "duplicated anchor definition" o
  | flow {wrap : String} {T : Bytes} {name : String} {o : Nat} : BadFlow T name o → BadPart wrap T name o
/-- An entry of a flow map. -/
inductive BadEntry : Bytes → String → Nat → Prop
  | value {K sp T : Bytes} {y : Yaml} {name : String} {o : Nat} : FlowKey K y sp → BadPart "flow map value" T name o →
      BadEntry (K ++ (0x3A :: (sp ++ T))) name (K.length + 1 + sp.length + o)
  | key {T : Bytes} {o : Nat} : Loose T o → BadEntry T "flow map key" o
  | keyTwice {T : Bytes} {o : Nat} : TwoAnchors T o → BadEntry T "duplicated anchor definition" o
  /-- a key, then `,`, `]` or `}` -/
  | alone {f : Flow} {E : Bytes} : f.ok [] → f.bare = true → f.still → FlowStop E → BadEntry (f.text ++ E) "flow map splitter" f.text.length
  /-- a key, then the end of the input or a comment -/
  | last {b : Bool} {T E : Bytes} : LastPart b T → OpenEnd b E → (E = [] ∨ ∃ r, E = 0x20 :: 0x23 :: r) →
      BadEntry (T ++ E) "flow map splitter" T.length
  /-- no key: the end of the input, a comma or a `]` -/
  | empty {E : Bytes} : (E = [] ∨ ∃ r, E = 0x2C :: r ∨ E = 0x5D :: r) → BadEntry E "flow map splitter" 0
end

/-- A text that is complete: a quoted string, or a closed flow collection. -/
inductive Complete : Bytes → Prop
  | quoted {κ : EndKind} {T : Bytes} {y : Yaml} : ScalarText κ T y → Quoted T → Complete T
  | flow {f : Flow} : f.ok [] → f.still → f.isAtom = false → Complete f.text

/-- Something on the line of a complete text, and not a comment: blanks, and a character that is no
`#`; if there are no blanks, no colon, no single quote, and no mark. -/
inductive Trailing : Bytes → Prop
  | mk {sp : Bytes} {c : UInt8} {r : Bytes} : (∀ x ∈ sp, isBlank x = true) → isAsciiWs c = false → c ≠ 0x23 →
      (sp = [] → c ≠ 0x3A ∧ c ≠ 0x27 ∧ docMark (c :: r) = false) → Trailing (sp ++ c :: r)

/-- What follows a key without a colon, in a map at the column `τ`: the end of the input, or the end of the line and
perhaps a line that is not indented deeper than the key. -/
inductive NoColon (τ : Nat) (κ : EndKind) : Bytes → Prop
  | eof : κ = .loose → NoColon τ κ []
  | lines {G : Bytes} : AfterLines κ G → NoColon τ κ G
  | line {G r : Bytes} {j : Nat} {c : UInt8} : AfterLines κ G → j ≤ τ → tokHead c = true → NoColon τ κ (G ++ (spaces j ++ c :: r))

/-- In front of a node: nothing, or the end of the line and idle lines. -/
def LeadIs (σ : Nat) (lead : Bytes) : Prop := lead = [] ∨ LeadLines σ lead

mutual
/-- A root or an item at the column `σ`. -/
inductive BadNode : Nat → Bytes → String → Nat → Prop
  | twice {σ : Nat} {T : Bytes} {o : Nat} : TwoAnchors T o → BadNode σ T "duplicated anchor definition" o
  | flow {σ : Nat} {lead T : Bytes} {name : String} {o : Nat} : LeadIs σ lead → BadFlow T name o →
      BadNode σ (lead ++ T) name (lead.length + o)
  /-- behind an anchor, a tag, or both -/
  | prop {σ : Nat} {f : Form} {T : Bytes} {name : String} {o : Nat} : f.wf T → (∀ tbl, f.fine tbl) → noProps T = true → BadNode σ T name o →
      BadNode σ (f.text ++ T) name (f.text.length + o)
  | seq {σ : Nat} {lead sp X : Bytes} {name : String} {o : Nat} : LeadIs σ lead → SepOK sp X → BadItems σ X name o →
      BadNode σ (lead ++ 0x2D :: (sp ++ X)) name (lead.length + 1 + sp.length + o)
  | map {σ : Nat} {κ : EndKind} {lead K sp X : Bytes} {y : Yaml} {name : String} {o : Nat} : LeadIs σ lead → ScalarText κ K y → SepOK sp X →
      BadEnts σ X name o → BadNode σ (lead ++ (K ++ 0x3A :: (sp ++ X))) name (lead.length + K.length + 1 + sp.length + o)
  /-- the first key, behind `?` -/
  | complex {σ : Nat} {lead s X : Bytes} {name : String} {o : Nat} : LeadIs σ lead → SepOK s X → BadPos "map key" σ X name o →
      BadNode σ (lead ++ 0x3F :: (s ++ X)) name (lead.length + 1 + s.length + o)
/-- A value (or a key behind `?`) of a map at the column `σ`. -/
inductive BadValue : Nat → Bytes → String → Nat → Prop
  | twice {σ : Nat} {T : Bytes} {o : Nat} : TwoAnchors T o → BadValue σ T "duplicated anchor definition" o
  | flow {σ : Nat} {T : Bytes} {name : String} {o : Nat} : BadFlow T name o → BadValue σ T name o
  | prop {σ : Nat} {f : Form} {T : Bytes} {name : String} {o : Nat} : f.wf T → (∀ tbl, f.fine tbl) → noProps T = true → BadValue σ T name o →
      BadValue σ (f.text ++ T) name (f.text.length + o)
  | seq {σ w : Nat} {G sp X : Bytes} {name : String} {o : Nat} : IdleLines G → SepOK sp X →
      BadItems (σ + w) X name o → BadValue σ (G ++ (spaces (σ + w) ++ 0x2D :: (sp ++ X))) name (G.length + (σ + w) + 1 + sp.length + o)
  | map {σ w : Nat} {κ : EndKind} {G K sp X : Bytes} {y : Yaml} {name : String} {o : Nat} : IdleLines G → ScalarText κ K y → SepOK sp X →
      BadEnts (σ + w) X name o →
      BadValue σ (G ++ (spaces (σ + w) ++ (K ++ 0x3A :: (sp ++ X)))) name (G.length + (σ + w) + K.length + 1 + sp.length + o)
/-- A value or a key; a property without boundary is reported as `wrap`. -/
inductive BadPos : String → Nat → Bytes → String → Nat → Prop
  | loose {wrap : String} {σ : Nat} {X : Bytes} {o : Nat} : Loose X o → BadPos wrap σ X wrap o
  | node {wrap : String} {σ : Nat} {X : Bytes} {name : String} {o : Nat} : BadValue σ X name o → BadPos wrap σ X name o
/-- From an item of a sequence at the column `τ` on. -/
inductive BadItems : Nat → Bytes → String → Nat → Prop
  | loose {τ : Nat} {X : Bytes} {o : Nat} : Loose X o → BadItems τ X "sequence item" o
  | item {τ : Nat} {X : Bytes} {name : String} {o : Nat} : BadNode (τ + 2) X name o → BadItems τ X name o
  /-- something behind an item -/
  | trailing {τ : Nat} {lead T E : Bytes} : LeadIs (τ + 2) lead → Complete T → Trailing E →
      BadItems τ (lead ++ T ++ E) "sequence terminator" (lead.length + T.length)
  /-- an item, and a mistake in a later one -/
  | next {τ : Nat} {b : Blk} {G sp X : Bytes} {name : String} {o : Nat} : b.okN (τ + 2) → b.still → AfterLines b.kind G → SepOK sp X →
      BadItems τ X name o →
      BadItems τ (b.text ++ (G ++ (spaces τ ++ 0x2D :: (sp ++ X)))) name (b.text.length + G.length + τ + 1 + sp.length + o)
/-- From a value of a map at the column `τ` on. -/
inductive BadEnts : Nat → Bytes → String → Nat → Prop
  | value {τ : Nat} {X : Bytes} {name : String} {o : Nat} : BadPos "map value" τ X name o → BadEnts τ X name o
  /-- something behind a value -/
  | trailing {τ : Nat} {T E : Bytes} : Complete T → Trailing E → BadEnts τ (T ++ E) "map terminator" T.length
  /-- a value, and a mistake in the next key -/
  | key {τ : Nat} {v : Blk} {G T : Bytes} {name : String} {o : Nat} : v.okV τ → v.text ≠ [] → v.still → AfterLines v.kind G →
      BadKeys τ T name o → BadEnts τ (v.text ++ (G ++ (spaces τ ++ T))) name (v.text.length + G.length + τ + o)
  /-- a value, a key, and a mistake in a later value -/
  | next {τ : Nat} {κ : EndKind} {v : Blk} {G K sp X : Bytes} {y : Yaml} {name : String} {o : Nat} : v.okV τ → v.text ≠ [] → v.still →
      AfterLines v.kind G → ScalarText κ K y → SepOK sp X → BadEnts τ X name o →
      BadEnts τ (v.text ++ (G ++ (spaces τ ++ (K ++ 0x3A :: (sp ++ X))))) name (v.text.length + G.length + τ + (K.length + 1 + sp.length + o))
/-- A further key of a map at the column `τ`. -/
inductive BadKeys : Nat → Bytes → String → Nat → Prop
  | loose {τ : Nat} {T : Bytes} {o : Nat} : Loose T o → BadKeys τ T "map key" o
  | twice {τ : Nat} {T : Bytes} {o : Nat} : TwoAnchors T o → BadKeys τ T "duplicated anchor definition" o
  | flow {τ : Nat} {T : Bytes} {name : String} {o : Nat} : BadFlow T name o → BadKeys τ T name o
  | complex {τ : Nat} {s X : Bytes} {name : String} {o : Nat} : SepOK s X → BadPos "map key" τ X name o →
      BadKeys τ (0x3F :: (s ++ X)) name (1 + s.length + o)
  | splitter {τ : Nat} {κ : EndKind} {K E : Bytes} {y : Yaml} : ScalarText κ K y → NoColon τ κ E → BadKeys τ (K ++ E) "map splitter" K.length
end

/-- A root, or what follows it. -/
inductive BadText : Bytes → String → Nat → Prop
  | node {T : Bytes} {name : String} {o : Nat} : BadNode 0 T name o → BadText T name o
  /-- something behind the root, on its line -/
  | trailing {lead T E : Bytes} : LeadIs 0 lead → Complete T → Trailing E → BadText (lead ++ T ++ E) "document splitter" (lead.length + T.length)
  /-- something that is no mark behind the root, on a later line -/
  | further {lead T G r : Bytes} {j : Nat} {c : UInt8} : LeadIs 0 lead → Complete T → IdleLines G → tokHead c = true →
      docMark (spaces j ++ c :: r) = false →
      BadText (lead ++ T ++ (G ++ (spaces j ++ c :: r))) "document splitter" (lead.length + T.length)
  /-- a line behind a sequence, at its column, that is no item -/
  | behind {lead : Bytes} {its : Items} {G r : Bytes} {c : UInt8} : LeadIs 0 lead → its.ok 0 → its.still → AfterLines its.kind G → tokHead c = true →
      (c = 0x2D → headIn b!":{}[] ,\n\r" r = false) → docMark (c :: r) = false →
      BadText ((Blk.seq lead 0 its).text ++ (G ++ c :: r)) "document splitter" (Blk.seq lead 0 its).text.length

/-- What stands in front: nothing, or directives or idle lines, and `---`. -/
inductive Opening : Bytes → Bytes → Prop
  | none {lead r : Bytes} {c : UInt8} : LeadIs 0 lead → tokHead c = true → (lead = [] → c ≠ 0x25) → (b!"---").isPrefixOf (c :: r) = false →
      Opening [] (lead ++ c :: r)
  | mark {ds : List Dir} {G sp T : Bytes} : (∀ d ∈ ds, d.is) → (ds.filter Dir.isYaml).length ≤ 1 → (G = [] ∨ (ds = [] ∧ IdleLines G)) →
      SepOK sp T → Opening (dirsText ds ++ (G ++ (b!"---" ++ sp))) T

/-! ## The proofs -/

mutual
theorem BadFlow.spec : ∀ {T : Bytes} {name : String} {o : Nat}, BadFlow T name o → TermBad T name o
  | _, _, _, .seq hws hx hT =>
    termBad_seq hT.spec hws fun x h => ⟨Flow.ok_wf _ _ (hx x h).1, (Flow.still_spec _ (hx x h).2.1).2, (hx x h).2.2⟩
  | _, _, _, .map hws hx hT =>
    termBad_map (entriesBad_more hT.spec _ fun x h =>
      ⟨(hx x h).1.key, Flow.ok_wf _ _ (hx x h).2.1, (Flow.still_spec _ (hx x h).2.2.1).2, (hx x h).2.2.2⟩) hws
theorem BadPart.spec : ∀ {wrap : String} {T : Bytes} {name : String} {o : Nat}, BadPart wrap T name o → FNodeBad wrap T name o
  | _, _, _, _, .loose h => h.fnode _
  | _, _, _, _, .twice h => h.fnode _
  | _, _, _, _, .flow h => h.spec.fnode _
theorem BadEntry.spec : ∀ {T : Bytes} {name : String} {o : Nat}, BadEntry T name o → EntriesBad T name o
  | _, _, _, .value hK hT => entriesBad_value hK.key hT.spec
  | _, _, _, .key h => entriesBad_key h
  | _, _, _, .keyTwice h => entriesBad_key_twice h
  | _, _, _, .alone hf hb hs hE => entriesBad_flow (Flow.ok_wf _ _ hf) hb (Flow.still_spec _ hs).2 hE
  | _, _, _, .last hT hP hE => entriesBad_open hT.last hP (by rcases hE with rfl | ⟨r, rfl⟩ <;> rfl)
      (by rcases hE with rfl | ⟨r, rfl⟩ <;> simp)
  | _, _, _, .empty h => entriesBad_empty h
end

theorem Trailing.junk {E : Bytes} (h : Trailing E) : Junk E := by
  cases h with
  | mk hsp hc1 hc2 h0 => exact junk_of hsp (by simp [tokHead, hc1, hc2]) h0

theorem Complete.whole {T : Bytes} (h : Complete T) : Whole (fun E => ∀ r, E ≠ 0x27 :: r) T := by
  cases h with
  | quoted h hq => exact whole_quoted h hq
  | flow hf hs ha => exact whole_flow (Flow.ok_wf _ _ hf) (Flow.still_spec _ hs).2 ha

theorem docMark_append {T E : Bytes} (h : docMark T = false) (hE : ∀ c r, E = c :: r → c ≠ 0x2D ∧ c ≠ 0x2E) : docMark (T ++ E) = false := by
  simp only [docMark, Bool.or_eq_false_iff] at h ⊢
  exact ⟨isPrefixOf_append_no (a := 0x2D) (by simp) h.1 fun c r he => (hE c r he).1,
    isPrefixOf_append_no (a := 0x2E) (by simp) h.2 fun c r he => (hE c r he).2⟩

theorem NoColon.fits {τ : Nat} {κ : EndKind} {E : Bytes} {T : Bytes} {y : Yaml} (hT : ScalarText κ T y) (h : NoColon τ κ E) :
    Fits κ E ∧ Stops (τ + 1) false E := by
  have hk : κ = .loose ∨ κ = .strict := by cases hT <;> simp
  have hka : ∀ σ, KindAt σ κ := fun σ => by
    rcases hk with h | h
    · exact .inl h
    · exact .inr (.inl h)
  cases h with
  | eof h => subst h; exact ⟨.inr rfl, .inl rfl⟩
  | lines hG =>
    obtain ⟨t, ht⟩ := hG.idle.endGap
    refine ⟨?_, .inr ⟨t, _, [], ht, .inl rfl⟩⟩
    have := hG.fits (hka 0) (X := []) (.inl rfl)
    simpa using this
  | line hG hj hc => exact ⟨hG.fits (hka _) (.inr ⟨_, _, rfl, hc⟩), hG.gap.stops (by omega) hc _⟩

mutual
theorem BadNode.spec : ∀ {σ : Nat} {T : Bytes} {name : String} {o : Nat}, BadNode σ T name o → BadN σ T name o
  | _, _, _, _, .twice h => h.badN _
  | _, _, _, _, .flow hl h => h.spec.badN (leadOK hl)
  | _, _, _, _, .prop hf hfine hT h => badN_prop h.spec hf hfine hT
  | _, _, _, _, .seq hl hsp h => badN_seq h.spec (leadOK hl) hsp
  | _, _, _, _, .map hl hK hsp h => badN_map h.spec (leadOK hl) hK.key hsp
  | _, _, _, _, .complex hl hs h => badN_complex h.spec (leadOK hl) hs
theorem BadValue.spec : ∀ {σ : Nat} {T : Bytes} {name : String} {o : Nat}, BadValue σ T name o → BadV σ T name o
  | _, _, _, _, .twice h => h.badV _
  | _, _, _, _, .flow h => h.spec.badV _
  | _, _, _, _, .prop hf hfine hT h => badV_prop h.spec hf hfine hT
  | _, _, _, _, .seq hG hsp h => badV_seq h.spec hG.gap hsp
  | _, _, _, _, .map hG hK hsp h => badV_map h.spec hG.gap hK.key hsp
theorem BadPos.spec : ∀ {wrap : String} {σ : Nat} {T : Bytes} {name : String} {o : Nat}, BadPos wrap σ T name o → BadVal wrap σ T name o
  | _, _, _, _, _, .loose h => h.val _ _
  | _, _, _, _, _, .node h => h.spec.val _
theorem BadItems.spec : ∀ {τ : Nat} {T : Bytes} {name : String} {o : Nat}, BadItems τ T name o → SeqHole τ T name o
  | _, _, _, _, .loose h => seqHole_item (h.item _)
  | _, _, _, _, .item h => seqHole_item h.spec.item
  | _, _, _, _, .trailing hl hT hE => seqHole_term hT.whole (leadOK hl) hE.junk.quote hE.junk
  | τ, _, _, _, .next (b := b) hb hst hG hsp h => seqHole_cons h.spec (Blk.okN_wf _ _ hb) hst hG.gap
      (fun r => hG.fits ((Blk.okN_kind b (τ + 1) hb).mono (by omega)) (.inr ⟨0x2D, r, rfl, by decide⟩)) hsp
theorem BadEnts.spec : ∀ {τ : Nat} {T : Bytes} {name : String} {o : Nat}, BadEnts τ T name o → MapHole τ T name o
  | _, _, _, _, .value h => mapHole_value h.spec
  | _, _, _, _, .trailing hT hE => mapHole_term hT.whole hE.junk.quote hE.junk
  | τ, _, _, _, .key (v := v) hv hne hst hG h => by
    have hk := h.spec
    refine mapHole_key (Blk.okV_wf _ _ hv) (Blk.okV_deep _ _ hv hne) hst hG.gap ?_ hk
    obtain ⟨c, r, rfl, h1, _⟩ := hk.1
    exact hG.fits (Blk.okV_kind v τ hv) (.inr ⟨c, r, rfl, h1⟩)
  | τ, _, _, _, .next (v := v) hv hne hst hG hK hsp h => by
    refine mapHole_cons h.spec (Blk.okV_wf _ _ hv) (Blk.okV_deep _ _ hv hne) hst hG.gap hK.key (fun r => ?_) hsp
    obtain ⟨c, u, he, hc, _⟩ := hK.leaf.2.head
    exact hG.fits (Blk.okV_kind v τ hv) (.inr ⟨c, u ++ r, by rw [he]; simp, hc⟩)
theorem BadKeys.spec : ∀ {τ : Nat} {T : Bytes} {name : String} {o : Nat}, BadKeys τ T name o → BadKey τ T name o
  | _, _, _, _, .loose h => h.key _
  | _, _, _, _, .twice h => h.key _
  | _, _, _, _, .flow h => h.spec.key _
  | _, _, _, _, .complex hs h => badKey_complex h.spec hs
  | τ, _, _, _, .splitter (κ := κ) (E := E) hK hE => by
    have hf := hE.fits hK
    refine badKey_splitter hK.leaf.toE ?_ hf.1 hf.2 (docMark_append hK.noMark.1 ?_)
    · intro w; cases hK <;> simp
    · intro c r he
      have := hf.2.head c r he
      constructor <;> (rintro rfl; revert this; decide)
end

theorem BadText.spec {T : Bytes} {name : String} {o : Nat} (h : BadText T name o) : BadRoot T name o := by
  cases h with
  | node h => exact badRoot_node h.spec
  | @trailing lead T E hl hT hE =>
    have hr := rootRead_whole (E := E) hT.whole (leadOK hl) hE.junk.quote hE.junk.colon
    have := badRoot_split (G := []) (E := E) (by simpa using hr) hE.junk.ne hE.junk.mark (.inr ⟨rfl, hE.junk⟩)
    simpa using this
  | @further lead T G r j c hl hT hG hc hm =>
    have hr := rootRead_whole (E := G ++ (spaces j ++ c :: r)) hT.whole (leadOK hl) ?_ ?_
    · obtain ⟨t, ht⟩ := hG.gap _ ⟨j, c, r, rfl, hc⟩
      have := badRoot_split hr (by cases j <;> simp [spaces]) hm (.inl ⟨t, ht⟩)
      simpa using this
    · intro q h
      obtain ⟨x, s, rfl, hx⟩ := hG.gap.head
      simp only [List.cons_append, List.cons.injEq] at h
      rw [h.1] at hx; revert hx; decide
    · intro q h
      obtain ⟨x, s, rfl, hx⟩ := hG.gap.head
      simp only [List.cons_append, List.cons.injEq] at h
      rw [h.1] at hx; revert hx; decide
  | @behind lead its G r c hl hi hst hG hc hd hm =>
    obtain ⟨t, ht⟩ := hG.gap _ ⟨0, c, r, rfl, hc⟩
    have e : spaces 0 ++ c :: r = c :: r := by simp [spaces]
    rw [e] at ht
    have hr := rootRead_seq (E := G ++ c :: r) (leadOK hl) (Items.ok_wf _ _ hi) hst (hG.fits (Items.ok_kind _ _ hi) (.inr ⟨c, r, by rw [e], hc⟩))
      (.inr ⟨t, G, _, ht, .inr (.inr ⟨0, c, r, by rw [e], (tokHead_ne hc).2.2.2.1, .inr ⟨rfl, rfl, hd⟩⟩)⟩)
    exact badRoot_split hr (by simp) hm (.inl ⟨t, ht⟩)

theorem Opening.spec {H T : Bytes} (h : Opening H T) : Opens H T := by
  cases h with
  | @none lead r c hl hc hp hm =>
    refine opens_none (leadOK hl) rfl hc hp ?_ hm
    intro q h
    rcases hl with rfl | ⟨nl, l, ls, hnl, hl, hb, hls, rfl⟩
    · simp at h
    · cases l with
      | nil => rcases hnl with rfl | rfl | rfl <;> simp [gapLines] at h
      | cons x y =>
        simp only [gapLines, List.cons_append, List.cons.injEq] at h
        have := hb x y rfl
        rw [h.1] at this; revert this; decide
  | @mark ds G sp T hds h1 hG hs => exact opens_mark ⟨fun d h => (hds d h).wf, h1⟩ (hG.imp id fun h => ⟨h.1, h.2.gap⟩) hs

theorem _root_.YamlPeg.Loose.le {T : Bytes} {o : Nat} (h : Loose T o) : o ≤ T.length := by
  cases h <;> simp <;> omega

theorem _root_.YamlPeg.TwoAnchors.le {T : Bytes} {o : Nat} (h : TwoAnchors T o) : o ≤ T.length := by
  cases h <;> simp <;> omega

mutual
theorem BadFlow.le : ∀ {T : Bytes} {name : String} {o : Nat}, BadFlow T name o → o ≤ T.length
  | _, _, _, .seq _ _ h => by have := h.le; simp; omega
  | _, _, _, .map _ _ h => by have := h.le; simp; omega
theorem BadPart.le : ∀ {wrap : String} {T : Bytes} {name : String} {o : Nat}, BadPart wrap T name o → o ≤ T.length
  | _, _, _, _, .loose h => h.le
  | _, _, _, _, .twice h => h.le
  | _, _, _, _, .flow h => h.le
theorem BadEntry.le : ∀ {T : Bytes} {name : String} {o : Nat}, BadEntry T name o → o ≤ T.length
  | _, _, _, .value _ h => by have := h.le; simp; omega
  | _, _, _, .key h => h.le
  | _, _, _, .keyTwice h => h.le
  | _, _, _, .alone .. => by simp
  | _, _, _, .last .. => by simp
  | _, _, _, .empty _ => by simp
end

mutual
theorem BadNode.le : ∀ {σ : Nat} {T : Bytes} {name : String} {o : Nat}, BadNode σ T name o → o ≤ T.length
  | _, _, _, _, .twice h => h.le
  | _, _, _, _, .flow _ h => by have := h.le; simp; omega
  | _, _, _, _, .prop _ _ _ h => by have := h.le; simp; omega
  | _, _, _, _, .seq _ _ h => by have := h.le; simp; omega
  | _, _, _, _, .map _ _ _ h => by have := h.le; simp; omega
  | _, _, _, _, .complex _ _ h => by have := h.le; simp; omega
theorem BadValue.le : ∀ {σ : Nat} {T : Bytes} {name : String} {o : Nat}, BadValue σ T name o → o ≤ T.length
  | _, _, _, _, .twice h => h.le
  | _, _, _, _, .flow h => h.le
  | _, _, _, _, .prop _ _ _ h => by have := h.le; simp; omega
  | _, _, _, _, .seq _ _ h => by have := h.le; simp [spaces]; omega
  | _, _, _, _, .map _ _ _ h => by have := h.le; simp [spaces]; omega
theorem BadPos.le : ∀ {wrap : String} {σ : Nat} {T : Bytes} {name : String} {o : Nat}, BadPos wrap σ T name o → o ≤ T.length
  | _, _, _, _, _, .loose h => h.le
  | _, _, _, _, _, .node h => h.le
theorem BadItems.le : ∀ {τ : Nat} {T : Bytes} {name : String} {o : Nat}, BadItems τ T name o → o ≤ T.length
  | _, _, _, _, .loose h => h.le
  | _, _, _, _, .item h => h.le
  | _, _, _, _, .trailing .. => by simp
  | _, _, _, _, .next _ _ _ _ h => by have := h.le; simp [spaces]; omega
theorem BadEnts.le : ∀ {τ : Nat} {T : Bytes} {name : String} {o : Nat}, BadEnts τ T name o → o ≤ T.length
  | _, _, _, _, .value h => h.le
  | _, _, _, _, .trailing .. => by simp
  | _, _, _, _, .key _ _ _ _ h => by have := h.le; simp [spaces]; omega
  | _, _, _, _, .next _ _ _ _ _ _ h => by have := h.le; simp [spaces]; omega
theorem BadKeys.le : ∀ {τ : Nat} {T : Bytes} {name : String} {o : Nat}, BadKeys τ T name o → o ≤ T.length
  | _, _, _, _, .loose h => h.le
  | _, _, _, _, .twice h => h.le
  | _, _, _, _, .flow h => h.le
  | _, _, _, _, .complex _ h => by have := h.le; simp; omega
  | _, _, _, _, .splitter .. => by simp
end

theorem BadText.le {T : Bytes} {name : String} {o : Nat} (h : BadText T name o) : o ≤ T.length := by
  cases h with
  | node h => exact h.le
  | trailing => simp
  | further => simp
  | behind => simp

/-- Both entry points end with an error of the kind `name`, and its text shows the position `p`. -/
def RejectedAt (doc : Bytes) (name : String) (p : Nat) : Prop :=
  ∀ h : HashCfg, ∃ msg, Ends (fun n => parse h n doc) (.err (.terminate name msg)) ∧
    Ends (fun n => parseCyclic h n doc) (.err (.terminate name msg)) ∧
    (PErr.terminate name msg).display = placedText doc name p

/-- **C70.** A text with one of these mistakes is rejected, with this error at this place, by both entry points. -/
theorem C70_rejected {H T : Bytes} {name : String} {o : Nat} (hH : Opening H T) (hT : BadText T name o) :
    RejectedAt (H ++ T) name (H.length + o) := by
  intro h
  have hle : H.length + o ≤ (H ++ T).length := by have := hT.le; simp; omega
  obtain ⟨N, hN⟩ := loaderParse_bad hH.spec hT.spec
  have hm := C06_indicated_msg (H ++ T) (H.length + o) hle
  refine ⟨(indicatedMsg (H ++ T) (H.length + o)).getD [], ?_, ?_, ?_⟩
  · refine parse_returns_of (n := N) ?_ (by simp)
    obtain ⟨c, rfl, s', he⟩ := hN N (Nat.le_refl _) (Loader.new h (H ++ T)) rfl
    rw [← new_st] at he
    rw [parse, he]; rfl
  · refine parseCyclic_returns_of (n := N) ?_ (by simp)
    obtain ⟨c, rfl, s', he⟩ := hN N (Nat.le_refl _) { Loader.new h (H ++ T) with cyclicMode := true } rfl
    have e : ld { Loader.new h (H ++ T) with cyclicMode := true } (st .start [] [] (H ++ T)) =
        { Loader.new h (H ++ T) with cyclicMode := true } := by
      simp [ld, Loader.new, st, Parser.new, Ctx.start]
    rw [e] at he
    rw [parseCyclic, he]; rfl
  · rw [hm]; simp [PErr.display, placedText]

/-! Simple cases. -/

theorem Complete.head {T : Bytes} (h : Complete T) : ∃ c r, T = c :: r ∧ c ∈ b!"'\"[{" := by
  cases h with
  | quoted _ hq => obtain ⟨r, h⟩ := hq; rcases h with rfl | rfl <;> exact ⟨_, _, rfl, by decide⟩
  | @flow f _ _ ha => cases f <;> first | exact ⟨_, _, rfl, by decide⟩ | simp [Flow.isAtom] at ha

theorem opening_head {c : UInt8} {r : Bytes} (hc : tokHead c = true) (h1 : c ≠ 0x25) (h2 : c ≠ 0x2D) : Opening [] (c :: r) :=
  .none (lead := []) (.inl rfl) hc (fun _ => h1) (by simp [List.isPrefixOf]; exact fun h => absurd h.symm h2)

theorem Complete.opening {T : Bytes} (h : Complete T) (E : Bytes) : Opening [] (T ++ E) := by
  obtain ⟨c, r, rfl, hc⟩ := h.head
  refine opening_head ?_ ?_ ?_
  · clear h; revert hc; revert c; decide
  · rintro rfl; revert hc; decide
  · rintro rfl; revert hc; decide

/-- **C70.** Behind a document that is a quoted string or a closed flow collection there can only be a comment, the end of the line,
or a mark. -/
theorem C70_text_behind_document {T E : Bytes} (hT : Complete T) (hE : Trailing E) : RejectedAt (T ++ E) "document splitter" T.length := by
  have := C70_rejected (hT.opening E) (.trailing (lead := []) (.inl rfl) hT hE)
  simpa using this

theorem scalar_opening {κ : EndKind} {K : Bytes} {y : Yaml} (h : ScalarText κ K y) (E : Bytes) (hE : ∀ c r, E = c :: r → c ≠ 0x2D) :
    (∀ r, K ≠ 0x25 :: r) → Opening [] (K ++ E) := by
  intro hp
  obtain ⟨c, r, rfl, hc, _⟩ := scalar_head h
  refine .none (lead := []) (.inl rfl) hc (fun _ => ?_) ?_
  · rintro rfl; exact hp _ rfl
  · have := h.noMark.1
    simp only [docMark, Bool.or_eq_false_iff] at this
    exact isPrefixOf_append_no (a := 0x2D) (by simp) this.1 hE

/-- **C70.** The text `key: value` (the value quoted, or a closed flow collection) and something behind the value. -/
theorem C70_text_behind_value {κ : EndKind} {K T E : Bytes} {y : Yaml} (hK : ScalarText κ K y) (hp : ∀ r, K ≠ 0x25 :: r) (hT : Complete T)
    (hE : Trailing E) : RejectedAt (K ++ b!": " ++ T ++ E) "map terminator" (K.length + 2 + T.length) := by
  obtain ⟨c, r, hc, hm⟩ := hT.head
  have := C70_rejected (scalar_opening hK (0x3A :: (b!" " ++ (T ++ E))) (by simp) hp)
    (.node (.map (lead := []) (.inl rfl) hK (sp := b!" ") ⟨by simp; decide, ⟨c, r ++ E, by rw [hc]; simp, by
      clear hc; revert hm; revert c; decide⟩, .inl ⟨[], rfl⟩⟩ (.trailing hT hE)))
  simpa using this

/-- **C70.** The text `key: value`, a line break, and a line that is a scalar but no entry. -/
theorem C70_line_without_colon {κ κ' κ'' : EndKind} {K T L : Bytes} {y z w : Yaml} (hK : ScalarText κ K y) (hp : ∀ r, K ≠ 0x25 :: r)
    (hT : ScalarText κ' T z) (hL : ScalarText κ'' L w) :
    RejectedAt (K ++ b!": " ++ T ++ b!"\n" ++ L ++ b!"\n") "map splitter" (K.length + 2 + T.length + 1 + L.length) := by
  obtain ⟨c, r, hc, hm, _⟩ := scalar_head hT
  have hl : LeafIs κ' T (fun _ _ => z) .none := .inl ⟨_, hT, rfl, rfl⟩
  have hkind : ∀ {κ : EndKind} {T : Bytes} {y : Yaml}, ScalarText κ T y → AfterLines κ b!"\n" := fun h =>
    after_lf (by cases h <;> simp)
  have := C70_rejected (scalar_opening hK (0x3A :: (b!" " ++ (T ++ (b!"\n" ++ (spaces 0 ++ (L ++ b!"\n")))))) (by simp) hp)
    (.node (.map (lead := []) (.inl rfl) hK (sp := b!" ") ⟨by simp; decide, ⟨c, r ++ _, by rw [hc]; rfl, tokHead_blank hm⟩, .inl ⟨[], rfl⟩⟩
      (.key (v := .leaf [] T κ' (fun _ _ => z) .none) ?_ ?_ ?_ (hkind hT) (.splitter hL (.lines (hkind hL))))))
  · simpa [Blk.text, spaces, Nat.add_assoc] using this
  · simp only [Blk.okV]; exact .inl ⟨trivial, .inl hl⟩
  · simp [Blk.text, hc]
  · simp [Blk.still]

/-! Flow maps (also C28): a key without a colon. -/

/-- **C28**, **C70.** A flow map whose first key is followed by `,`, `]` or `}`. -/
theorem C28_key_alone {ws E : Bytes} {f : Flow} (hws : AllWs ws) (hf : f.ok []) (hb : f.bare = true) (hs : f.still) (hE : FlowStop E) :
    RejectedAt (0x7B :: (ws ++ (f.text ++ E))) "flow map splitter" (1 + ws.length + f.text.length) := by
  have := C70_rejected (H := []) (opening_head (by decide) (by decide) (by decide))
    (.node (.flow (lead := []) (.inl rfl) (.map (xs := []) hws (by simp) (.alone hf hb hs hE))))
  simpa [fentriesText] using this

/-- **C28**, **C70.** A flow map whose first key is the last thing in the input. -/
theorem C28_key_at_end {ws T : Bytes} (hws : AllWs ws) (hT : LastPart false T) :
    RejectedAt (0x7B :: (ws ++ T)) "flow map splitter" (1 + ws.length + T.length) := by
  have := C70_rejected (H := []) (opening_head (by decide) (by decide) (by decide))
    (.node (.flow (lead := []) (.inl rfl) (.map (xs := []) hws (by simp) (.last hT (E := []) ⟨NoClose.nil.open (by simp), by simp⟩ (.inl rfl)))))
  simpa [fentriesText] using this

/-- **C28**, **C70.** A flow map that ends behind its brace and white space, or behind a comma and white space. -/
theorem C28_map_at_end {ws : Bytes} {xs : List FEntry} (hws : AllWs ws)
    (hx : ∀ x ∈ xs, FlowKey x.T x.y x.sp ∧ x.v.ok [] ∧ x.v.still ∧ AllWs x.ws) :
    RejectedAt (0x7B :: (ws ++ fentriesText xs)) "flow map splitter" (1 + ws.length + (fentriesText xs).length) := by
  have := C70_rejected (H := []) (opening_head (by decide) (by decide) (by decide))
    (.node (.flow (lead := []) (.inl rfl) (.map (xs := xs) hws hx (.empty (.inl rfl)))))
  simpa using this

/-! One text for each kind of error. -/

theorem word_x : ScalarText .loose b!"x" (.str b!"x") := .plain (isWord_plainLine (by decide)) (by decide)
theorem quoted_x : Complete b!"\"x\"" := .quoted (.double (s := b!"x") (utf8_ascii (by decide)) (by decide)) ⟨_, .inr rfl⟩
theorem flowText_x : FlowText b!"x" (.str b!"x") := ⟨⟨_, word_x⟩, .inr (by decide)⟩
theorem sepOK_space {c : UInt8} (r : Bytes) (h : isBlank c = false) : SepOK b!" " (c :: r) :=
  ⟨by simp; decide, ⟨c, r, rfl, h⟩, .inl ⟨[], rfl⟩⟩
theorem ident_a : IsIdent b!"a" := ⟨by decide, by decide⟩
theorem ident_b : IsIdent b!"b" := ⟨by decide, by decide⟩
theorem RejectedAt.of {doc doc' : Bytes} {name : String} {p p' : Nat} (h : RejectedAt doc name p) (h1 : doc = doc') (h2 : p = p') :
    RejectedAt doc' name p' := by subst h1 h2; exact h
theorem loose_end : Loose b!"&a" 0 := .anchor (a := b!"a") (R := []) ident_a (by simp [IdEnd]) (by decide)
theorem loose_quote : Loose b!"!a\"x\"" 0 := .tag (x := b!"a") (R := b!"\"x\"") ident_a (by simp [TagEnd, IdEnd]; decide) (by decide)
theorem two_anchors : TwoAnchors b!"&a &b x" 5 :=
  .mk (a := b!"a") (sp := b!" ") (b := b!"b") (R := b!" x") ident_a (sepOK_space _ (by decide)) ident_b (by simp [IdEnd]; decide)
theorem trailing_y : Trailing b!" y\n" := .mk (sp := b!" ") (c := 0x79) (r := b!"\n") (by simp; decide) (by decide) (by decide) (by simp)
theorem open_dash (r : Bytes) (h : (b!"---").isPrefixOf (0x2D :: r) = false) : Opening [] (0x2D :: r) :=
  .none (lead := []) (.inl rfl) (by decide) (by simp) h
theorem opening_x (r : Bytes) : Opening [] (0x78 :: r) := opening_head (by decide) (by decide) (by decide)

example : RejectedAt b!"\"x\" y\n" "document splitter" 3 := C70_text_behind_document quoted_x trailing_y
example : RejectedAt b!"x: \"x\" y\n" "map terminator" 6 := C70_text_behind_value word_x (by simp) quoted_x trailing_y
example : RejectedAt b!"x: x\nx\n" "map splitter" 6 := C70_line_without_colon word_x (by simp) word_x word_x
example : RejectedAt b!"{ x}" "flow map splitter" 3 :=
  C28_key_alone (ws := b!" ") (f := .atom b!"x" (fun _ => .str b!"x") (fun _ => True)) (E := b!"}") (by simp [AllWs]; decide)
    (by simp only [Flow.ok]; exact FlowText.is flowText_x) rfl (by simp [Flow.still]) ⟨_, _, rfl, by decide⟩
example : RejectedAt b!"{x" "flow map splitter" 2 := C28_key_at_end (ws := []) (by simp [AllWs]) (.text flowText_x word_x)
example : RejectedAt b!"{" "flow map splitter" 1 := C28_map_at_end (ws := []) (xs := []) (by simp [AllWs]) (by simp)
example : RejectedAt b!"- \"x\" y\n" "sequence terminator" 5 :=
  .of (C70_rejected (H := []) (open_dash _ (by decide)) (.node (.seq (lead := []) (.inl rfl) (sp := b!" ") (sepOK_space _ (by decide))
    (.trailing (lead := []) (.inl rfl) quoted_x trailing_y)))) (by rfl) (by rfl)
example : RejectedAt b!"- &a" "sequence item" 2 :=
  .of (C70_rejected (H := []) (open_dash _ (by decide)) (.node (.seq (lead := []) (.inl rfl) (sp := b!" ") (sepOK_space _ (by decide)) (.loose loose_end)))) (by rfl) (by rfl)
example : RejectedAt b!"x: &a" "map value" 3 :=
  .of (C70_rejected (H := []) (opening_x _) (.node (.map (lead := []) (.inl rfl) word_x (sp := b!" ") (sepOK_space _ (by decide)) (.value (.loose loose_end))))) (by rfl) (by rfl)
example : RejectedAt b!"? &a" "map key" 2 :=
  .of (C70_rejected (H := []) (opening_head (by decide) (by decide) (by decide)) (.node (.complex (lead := []) (.inl rfl) (s := b!" ") (sepOK_space _ (by decide))
    (.loose loose_end)))) (by rfl) (by rfl)
example : RejectedAt b!"[&a" "flow sequence item" 1 :=
  .of (C70_rejected (H := []) (opening_head (by decide) (by decide) (by decide)) (.node (.flow (lead := []) (.inl rfl)
    (.seq (ws := []) (xs := []) (by simp [AllWs]) (by simp) (.loose loose_end))))) (by rfl) (by rfl)
example : RejectedAt b!"{!a\"x\"" "flow map key" 1 :=
  .of (C70_rejected (H := []) (opening_head (by decide) (by decide) (by decide)) (.node (.flow (lead := []) (.inl rfl)
    (.map (ws := []) (xs := []) (by simp [AllWs]) (by simp) (.key loose_quote))))) (by rfl) (by rfl)
example : RejectedAt b!"{x: &a" "flow map value" 4 :=
  .of (C70_rejected (H := []) (opening_head (by decide) (by decide) (by decide)) (.node (.flow (lead := []) (.inl rfl)
    (.map (ws := []) (xs := []) (by simp [AllWs]) (by simp) (.value (K := b!"x") (sp := b!" ") ⟨flowText_x, .inl ⟨[], rfl, by simp⟩⟩ (.loose loose_end)))))) (by rfl) (by rfl)
/-- Behind directives and a mark. -/
example : RejectedAt b!"%YAML 1.2\n--- &a &b x" "duplicated anchor definition" 19 :=
  .of (C70_rejected (H := b!"%YAML 1.2\n--- ") (.mark (ds := [.yaml b!" " false b!"\n"]) (G := []) (sp := b!" ")
    (by simp [Dir.is, Blanks]; exact ⟨by decide, idle_lf⟩) (by decide) (.inl rfl) (sepOK_space _ (by decide))) (.node (.twice two_anchors))) (by rfl) (by rfl)

end YamlPeg.Props
