import Verif.Props.Layout
import Verif.Proof.OpenFlow
/-!
# C28: flow collections that are not closed

The claim (a missing bracket is an error) is false of the code.  The file says what the
parser does instead, for all flow collections that are left open behind an item or a value.
-/

namespace YamlPeg.Props
open YamlPeg

mutual
/-- The last part of a flow collection that is not closed; `true`: it ends with a number. -/
inductive LastPart : Bool → Bytes → Prop
  /-- a string or a keyword -/
  | text {T : Bytes} {y : Yaml} : FlowText T y → ScalarText .loose T y → LastPart false T
  /-- a number -/
  | number {T : Bytes} {y : Yaml} : FlowText T y → ScalarText .strict T y → LastPart true T
  /-- a collection that is closed -/
  | flow {f : Flow} : f.ok [] → f.still → f.isAtom = false → LastPart false f.text
  /-- a collection that is not closed either -/
  | unclosed {b : Bool} {T : Bytes} : Unclosed b T → LastPart b T
/-- A flow collection that is not closed: the bracket, white space, items with their commas, and
a last item without one. -/
inductive Unclosed : Bool → Bytes → Prop
  | seq {b : Bool} {ws T : Bytes} {xs : List FItem} : AllWs ws → (∀ x ∈ xs, x.f.ok x.W ∧ x.f.still ∧ AllWs x.ws) → LastPart b T →
      Unclosed b (0x5B :: (ws ++ (fitemsText xs ++ T)))
  | map {b : Bool} {ws K sp T : Bytes} {y : Yaml} {xs : List FEntry} : AllWs ws →
      (∀ x ∈ xs, FlowKey x.T x.y x.sp ∧ x.v.ok [] ∧ x.v.still ∧ AllWs x.ws) → FlowKey K y sp → LastPart b T →
      Unclosed b (0x7B :: (ws ++ (fentriesText xs ++ (K ++ (0x3A :: (sp ++ T))))))
end

/-- What may follow: a number must end its line. -/
def OpenEnd (b : Bool) (E : Bytes) : Prop := OpenRest E ∧ (b = true → nlLen E ≠ 0)

theorem openLast_weaken {P Q : Bytes → Prop} (hPQ : ∀ E, Q E → P E) {T : Bytes}
    (h : OpenLast P T) : OpenLast Q T := by
  refine ⟨h.1, h.2.1, fun k level E hw hE => ?_⟩
  have hE' : LeafEnd (.only P) k level E := by
    rcases hE with ⟨hE, _⟩ | ⟨hE, h2⟩ | ⟨hE, _⟩ | ⟨R, hR, hE, h2⟩
    · exact absurd rfl (hE _)
    · refine .inr (.inl ⟨?_, h2⟩)
      rintro _ ⟨⟩
      exact hPQ _ (hE _ rfl)
    · simp at hE
    · cases hR
      exact .inr (.inr (.inr ⟨_, rfl, hPQ _ hE, h2⟩))
  obtain ⟨k', hk', N, hN⟩ := h.2.2 k level E hw hE'
  exact ⟨k', hk', N, hN⟩

theorem OpenEnd.rest {b : Bool} (E : Bytes) (h : OpenEnd b E) : OpenRest E := h.1

mutual
theorem LastPart.last : ∀ {b : Bool} {T : Bytes}, LastPart b T → OpenLast (OpenEnd b) T
  | _, _, .text h hs => openLast_weaken (fun E h => ⟨h.1, by simp⟩) (openLast_scalar h hs)
  | _, _, .number h hs => openLast_weaken (fun E h => ⟨h.1, fun _ => h.2 rfl⟩) (openLast_scalar h hs)
  | _, _, .flow hf hs ha => openLast_flow (Flow.ok_wf _ _ hf) (Flow.still_spec _ hs).2 ha
  | _, _, .unclosed h => h.last
theorem Unclosed.last : ∀ {b : Bool} {T : Bytes}, Unclosed b T → OpenLast (OpenEnd b) T
  | _, _, .seq hws hx hT =>
    openLast_seq OpenEnd.rest hT.last hws fun x h => ⟨Flow.ok_wf _ _ (hx x h).1, (Flow.still_spec _ (hx x h).2.1).2, (hx x h).2.2⟩
  | _, _, .map hws hx hK hT =>
    openLast_map OpenEnd.rest hK.key hT.last hws fun x h =>
      ⟨(hx x h).1.key, Flow.ok_wf _ _ (hx x h).2.1, (Flow.still_spec _ (hx x h).2.2.1).2, (hx x h).2.2.2⟩
end

theorem Unclosed.leaf {b : Bool} {T : Bytes} (h : Unclosed b T) : LeafOKE (.only (OpenEnd b)) T (fun _ _ => .null) .none := by
  cases h with
  | seq hws hx hT =>
    exact openLeaf_seq OpenEnd.rest hT.last hws fun x h =>
      ⟨Flow.ok_wf _ _ (hx x h).1, (Flow.still_spec _ (hx x h).2.1).2, (hx x h).2.2⟩
  | map hws hx hK hT =>
    exact openLeaf_map OpenEnd.rest hK.key hT.last hws fun x h =>
      ⟨(hx x h).1.key, Flow.ok_wf _ _ (hx x h).2.1, (Flow.still_spec _ (hx x h).2.2.1).2, (hx x h).2.2.2⟩

theorem Unclosed.head {b : Bool} {T : Bytes} (h : Unclosed b T) : ∃ r, T = 0x5B :: r ∨ T = 0x7B :: r := by
  cases h with
  | seq => exact ⟨_, .inl rfl⟩
  | map => exact ⟨_, .inr rfl⟩

/-! ## What follows -/

/-- The text behind white space is empty or begins with a byte that is no `,`, `]`, `}`. -/
def NoClose (E : Bytes) : Prop := ∀ c r, E.dropWhile isAsciiWs = c :: r → c ∉ b!",]}"

theorem NoClose.open {E : Bytes} (h : NoClose E) (hc : ∀ r, E ≠ 0x3A :: r) : OpenRest E :=
  ⟨hc, fun r => ⟨fun he => absurd (h _ _ he) (by simp), fun he => absurd (h _ _ he) (by simp), fun he => absurd (h _ _ he) (by simp)⟩⟩

theorem NoClose.ws {ws : Bytes} (hw : AllWs ws) {E : Bytes} (h : NoClose E) : NoClose (ws ++ E) := by
  induction ws with
  | nil => exact h
  | cons c ws ih =>
    have := ih fun x hx => hw x (by simp [hx])
    intro d r he
    rw [List.cons_append, List.dropWhile_cons_of_pos (hw c (by simp))] at he
    exact this d r he

theorem NoClose.cons {c : UInt8} (r : Bytes) (h : isAsciiWs c = false) (hc : c ∉ b!",]}") : NoClose (c :: r) := by
  intro d s he
  rw [List.dropWhile_cons_of_neg (by simp [h])] at he
  simp only [List.cons.injEq] at he
  rw [← he.1]; exact hc

theorem NoClose.nil : NoClose [] := by rintro _ _ ⟨⟩

theorem LineBreak.ws {nl : Bytes} (h : LineBreak nl) : AllWs nl := by
  rcases h with rfl | rfl <;> simp [AllWs] <;> decide

theorem NoClose.lines {nl : Bytes} (hnl : LineBreak nl) : ∀ (ls : List Bytes), (∀ l ∈ ls, IdleLine l) → NoClose (gapLines nl ls)
  | [], _ => NoClose.nil
  | l :: ls, h => by
    rw [gapLines]
    rcases h l (by simp) with rfl | ⟨b, c, rfl, hb, _⟩
    · exact (NoClose.lines hnl ls fun x hx => h x (by simp [hx])).ws (LineBreak.ws hnl)
    · rw [List.append_assoc]
      refine NoClose.ws (fun x hx => ?_) (NoClose.cons _ (by decide) (by decide))
      have := hb x hx
      simp only [isBlank, Bool.and_eq_true] at this
      exact this.1.1

theorem rest_open {E : Bytes} (h : Rest E) : OpenRest E := by
  rcases h.lines with rfl | ⟨nl, l, ls, hnl, rfl, hls, hl⟩
  · exact NoClose.nil.open (by simp)
  · refine (NoClose.lines hnl _ hls).open ?_
    rcases hl with rfl | ⟨r, rfl⟩
    · rcases hnl with rfl | rfl <;> simp [gapLines]
    · simp [gapLines]

/-- **C28, refutation.** Every flow collection that is left open behind an item or a value
is accepted; the document is null. -/
theorem C28_unclosed_is_null {T : Bytes} {b : Bool} (h : Unclosed b T) (E : Bytes) (hE : Rest E) (hb : b = true → nlLen E ≠ 0) :
    Reads (T ++ E) [.mk 0 [] .null] := by
  obtain ⟨r, hr⟩ := h.head
  refine reads_leafE h.leaf ⟨by simp, by simp⟩ ?_ ?_ ⟨⟨rest_open hE, hb⟩, hE.last.2⟩ hE.last.1
  · rcases hr with rfl | rfl <;> rfl
  · rcases hr with rfl | rfl <;> simp

/-! ## Items and values -/

/-- A scalar, or a collection that is not closed. -/
def WritesOpen (T : Bytes) (y : Yaml) : Prop := Writes T y ∨ (∃ b, Unclosed b T) ∧ y = .null

theorem WritesOpen.leaf {T : Bytes} {y : Yaml} (h : WritesOpen T y) :
    ∃ κ, LeafOKE κ T (fun _ _ => y) .none ∧ (∀ σ, KindFits σ κ) ∧
      ∀ E, OpenRest E → nlLen E ≠ 0 → Fits κ E := by
  rcases h with ⟨κ, hκ⟩ | ⟨⟨b, hb⟩, rfl⟩
  · have hl : LeafIs κ T (fun _ _ => y) .none := .inl ⟨_, hκ, rfl, rfl⟩
    refine ⟨κ, hl.ok, fun σ => ?_, fun E _ hn => ?_⟩
    · rintro w rfl; rcases hl.kind with h | h <;> cases h
    · rcases hl.kind with rfl | rfl
      · exact .inl hn
      · exact hn
  · refine ⟨_, hb.leaf, fun σ => ?_, fun E hE hn => ⟨⟨hE, fun _ => hn⟩, .inl hn⟩⟩
    rintro w ⟨⟩

theorem open_sep {T : Bytes} (h : LeafText T) {κ : EndKind} {y : Nat → Env → Yaml} {pc : Known} :
    (Blk.leaf [] T κ y pc).sepOf b!" " := by
  obtain ⟨c, r, rfl, hc, _⟩ := h.head
  refine .inl ⟨by simp; decide, ⟨c, r, rfl, tokHead_blank hc⟩, .inl ⟨[], rfl⟩⟩

theorem openRest_lf {c : UInt8} (r : Bytes) (h : isAsciiWs c = false) (hc : c ∉ b!",]}") : OpenRest (b!"\n" ++ c :: r) :=
  ((NoClose.cons r h hc).ws (by simp [AllWs]; decide)).open (by simp)

theorem openRest_end : OpenRest b!"\n" := ((NoClose.nil).ws (ws := b!"\n") (by simp [AllWs]; decide)).open (by simp)

/-- The items, at the level of the parser. -/
theorem open_items_of : ∀ (ts : List (Bytes × Yaml)), ts ≠ [] → (∀ t ∈ ts, WritesOpen t.1 t.2) →
    ∃ its : Items, its.wf 0 ∧ its.sp = b!" " ∧ 0x2D :: (its.sp ++ its.body 0) ++ b!"\n" = blockSeq ts ∧
      (∀ p e, its.nodes 0 (p + 2) e = blockSeqNodes p ts) ∧ its.still ∧ Fits its.kind b!"\n"
  | [], h, _ => absurd rfl h
  | [t], _, h => by
    obtain ⟨κ, hl, hk, hf⟩ := (h t (by simp)).leaf
    refine ⟨.one b!" " (.leaf [] t.1 κ (fun _ _ => t.2) .none), ?_, rfl, by simp [blockSeq, Items.sp, Items.body, Blk.text],
      fun p e => ?_, by simp [Items.still, Blk.still], ?_⟩
    · simp only [Items.wf, Blk.wfN]; exact ⟨open_sep hl.2, .inl ⟨.inl rfl, hl, hk _⟩⟩
    · simp [Items.nodes, blockSeqNodes, Blk.data, Blk.off, Blk.tag]
    · simp only [Items.kind, Blk.kind]; exact hf _ openRest_end (by decide)
  | t :: u :: ts, _, h => by
    obtain ⟨κ, hl, hk, hf⟩ := (h t (by simp)).leaf
    obtain ⟨its, h1, h2, h3, h4, hS, h5⟩ := open_items_of (u :: ts) (by simp) (fun x hx => h x (by simp [hx]))
    refine ⟨.cons b!" " (.leaf [] t.1 κ (fun _ _ => t.2) .none) b!"\n" its, ?_, rfl, ?_, fun p e => ?_, by simp [Items.still, Blk.still, hS], ?_⟩
    · simp only [Items.wf, Blk.wfN]
      exact ⟨open_sep hl.2, .inl ⟨.inl rfl, hl, hk _⟩, gapText_newline, fun r => hf _ (openRest_lf _ (by decide) (by decide)) (LineBreak.nlLen (.inl rfl) _), h1⟩
    · have : blockSeq (t :: u :: ts) = b!"- " ++ t.1 ++ b!"\n" ++ blockSeq (u :: ts) := by simp [blockSeq]
      rw [this, ← h3]
      simp [Items.sp, Items.body, Blk.text, spaces]
    · rw [blockSeqNodes, ← h4 (p + 2 + t.1.length + 1) { e with anchors := e.anchors }]
      simp only [Items.nodes, Blk.data, Blk.text, h2, List.nil_append, Blk.off, Blk.tag]
      rfl
    · simpa only [Items.kind] using h5

/-- **C28, refutation.** Nor does the rest of the document show it: in a block sequence every
unclosed item is null, and the items around it are read as usual. -/
theorem C28_items (ts : List (Bytes × Yaml)) (hne : ts ≠ []) (h : ∀ t ∈ ts, WritesOpen t.1 t.2) :
    Reads (blockSeq ts) [.mk 0 [] (.seq (blockSeqNodes 0 ts))] := by
  obtain ⟨its, h1, h2, h3, h4, hS, h5⟩ := open_items_of ts hne h
  have hwf : (Stream.mk none (.seq [] 0 its) (.stop b!"\n") []).wf := by
    refine ⟨?_, ?_, .inr (.inl endGap_newline), rfl, ?_, trivial⟩
    · simp only [Blk.wfN]; exact ⟨.inl rfl, trivial, h1⟩
    · simpa only [Blk.kind, Tail.text] using h5
    · simp only [Blk.text]
      intro c' r' he
      simp only [List.nil_append, List.cons.injEq] at he
      rw [← he.1]; decide
  have := reads_stream hwf ⟨by simpa only [Blk.still] using hS, trivial⟩
  simp only [Stream.text, Stream.head, Blk.text, Stream.values, Blk.value, Blk.node, Blk.off, Blk.tag, Blk.data, List.nil_append, Tail.text, Tail.values,
    List.length_nil, h3] at this
  rw [show 0 + 0 + 1 + its.sp.length = 0 + 2 by rw [h2]; rfl, h4] at this
  exact this

theorem sign_head {sg d r : Bytes} (hsg : IsSign sg) (hd : IsDigits d) {c : UInt8} {q : Bytes} (h : sg ++ d ++ r = c :: q) :
    c ∉ b!",]}" := by
  obtain ⟨x, d', rfl⟩ := List.exists_cons_of_ne_nil hd.1
  have hx := hd.2 x (by simp)
  rcases hsg with rfl | rfl
  · simp only [List.nil_append, List.cons_append, List.cons.injEq] at h
    rw [← h.1]
    simp only [List.mem_cons, List.not_mem_nil, or_false, not_or]
    refine ⟨?_, ?_, ?_⟩ <;> (rintro rfl; revert hx; decide)
  · simp only [List.cons_append, List.cons.injEq] at h
    rw [← h.1]; decide

theorem scalar_head {κ : EndKind} {T : Bytes} {y : Yaml} (h : ScalarText κ T y) :
    ∃ c r, T = c :: r ∧ tokHead c = true ∧ isAsciiWs c = false ∧ c ∉ b!",]}" := by
  obtain ⟨c, r, hT, hc, _⟩ := h.leaf.2.head
  refine ⟨c, r, hT, hc, by simp only [tokHead, Bool.and_eq_true] at hc; simpa using hc.1, ?_⟩
  cases h with
  | plain hp hk =>
    obtain ⟨x, q, hx, hp⟩ := hp.first
    rw [hT] at hx
    obtain ⟨rfl, rfl⟩ := List.cons.inj hx
    simp only [List.mem_cons, List.not_mem_nil, or_false, not_or]
    refine ⟨?_, ?_, ?_⟩ <;> (rintro rfl; revert hp; decide)
  | keyword hk =>
    intro hmem
    have hall : ∀ kv ∈ keywords, ∀ x ∈ kv.1.head?, x ∉ b!",]}" := by decide
    exact hall _ hk c (by rw [hT]; rfl) hmem
  | int hsg hd => exact sign_head (r := []) hsg hd (by rw [List.append_nil]; exact hT)
  | float hsg hd _ => exact sign_head hsg hd hT
  | sci hsg hd _ _ _ =>
    simp only [List.append_assoc] at hT
    exact sign_head hsg hd (by rw [List.append_assoc]; exact hT)
  | hex => rw [← (List.cons.inj hT).1]; decide
  | oct => rw [← (List.cons.inj hT).1]; decide
  | single => rw [singleQuoted] at hT; rw [← (List.cons.inj hT).1]; decide
  | double => rw [doubleQuoted] at hT; rw [← (List.cons.inj hT).1]; decide
  | singleFold => rw [singleFolded] at hT; rw [← (List.cons.inj hT).1]; decide
  | doubleFold => rw [doubleFolded] at hT; rw [← (List.cons.inj hT).1]; decide

/-- The entries, at the level of the parser. -/
theorem open_ents_of : ∀ (es : List Entry), es ≠ [] → (∀ e ∈ es, Writes e.key e.keyData ∧ WritesOpen e.val e.valData) →
    ∃ ts : Ents, ts.wf 0 ∧ ts.sp = b!" " ∧ ts.T ++ 0x3A :: (ts.sp ++ ts.body 0) ++ b!"\n" = blockMap es ∧
      (∀ p e, ts.pairs 0 (.mk p [] ts.y) (p + ts.T.length + 2) e = blockMapNodes p es) ∧ ts.still ∧ Fits ts.kind b!"\n" ∧
      ts.keys = es.map Entry.keyData ∧ ∃ κ y, ScalarText κ ts.T y
  | [], h, _ => absurd rfl h
  | [t], _, h => by
    obtain ⟨⟨κ', hk'⟩, hv⟩ := h t (by simp)
    obtain ⟨κ, hl, hk, hf⟩ := hv.leaf
    refine ⟨.one t.key t.keyData b!" " (.leaf [] t.val κ (fun _ _ => t.valData) .none), ?_, rfl,
      by simp [blockMap, Ents.sp, Ents.T, Ents.body, Blk.text], fun p e => ?_, by simp [Ents.still, Blk.still], ?_, rfl, _, _, hk'⟩
    · simp only [Ents.wf, Blk.wfV]; exact ⟨hk'.key, open_sep hl.2, .inl ⟨trivial, hl, hk _⟩⟩
    · simp [Ents.pairs, blockMapNodes, Blk.data, Ents.y, Ents.T, Blk.off, Blk.tag]
    · simp only [Ents.kind, Blk.kind]
      exact hf _ openRest_end (by decide)
  | t :: u :: ts, _, h => by
    obtain ⟨⟨κ', hk'⟩, hv⟩ := h t (by simp)
    obtain ⟨κ, hl, hk, hf⟩ := hv.leaf
    obtain ⟨its, h1, h2, h3, h4, hS, h5, h6, κ2, y2, hk2⟩ := open_ents_of (u :: ts) (by simp) (fun x hx => h x (by simp [hx]))
    refine ⟨.cons t.key t.keyData b!" " (.leaf [] t.val κ (fun _ _ => t.valData) .none) b!"\n" its, ?_, rfl, ?_, fun p e => ?_,
      by simp [Ents.still, Blk.still, hS], ?_, ?_, _, _, hk'⟩
    · simp only [Ents.wf, Blk.wfV, Blk.kind, Blk.deep]
      obtain ⟨c, r, hT, _, hc1, hc2⟩ := scalar_head hk2
      obtain ⟨c', r', hT', _⟩ := hl.2.head
      exact ⟨hk'.key, open_sep hl.2, ⟨.inl ⟨trivial, hl, hk _⟩, by rw [hT']; simp⟩, gapText_newline,
        fun q => hf _ (by rw [hT]; exact openRest_lf _ hc1 hc2) (LineBreak.nlLen (.inl rfl) _), h1⟩
    · have : blockMap (t :: u :: ts) = t.key ++ b!": " ++ t.val ++ b!"\n" ++ blockMap (u :: ts) := by simp [blockMap]
      rw [this, ← h3]
      simp [Ents.sp, Ents.T, Ents.body, Blk.text, spaces]
    · rw [blockMapNodes, ← h4 (p + t.key.length + 2 + t.val.length + 1) { e with anchors := e.anchors }]
      simp only [Ents.pairs, Blk.data, Blk.text, h2, List.nil_append, Ents.y, Ents.T, Blk.off, Blk.tag]
      rfl
    · simpa only [Ents.kind] using h5
    · simp only [Ents.keys, h6, List.map_cons]

/-- **C28, refutation.** The same in a block map: every unclosed value is null, and the entries
around it are read as usual. -/
theorem C28_values (es : List Entry) (hne : es ≠ []) (h : ∀ e ∈ es, Writes e.key e.keyData ∧ WritesOpen e.val e.valData)
    (hs : ∀ e ∈ es, ∃ s, e.keyData = .str s) (hd : es.Pairwise fun e e' => e.keyData ≠ e'.keyData) :
    Reads (blockMap es) [.mk 0 [] (.map (blockMapNodes 0 es))] := by
  obtain ⟨ts, h1, h2, h3, h4, hS, h5, h6, κ, y, hκ⟩ := open_ents_of es hne h
  obtain ⟨c, r, hT, hc, _⟩ := scalar_head hκ
  have hwf : (Stream.mk none (.map [] 0 ts) (.stop b!"\n") []).wf := by
    refine ⟨?_, ?_, .inr (.inl endGap_newline), rfl, ?_, trivial⟩
    · simp only [Blk.wfN]
      refine ⟨.inl rfl, trivial, h1, fun kp p e => goodKeys_str _ fun k hk => ?_⟩
      have : k.yaml ∈ ts.keys := by rw [← Ents.keys_pairs ts 0 kp p e]; exact List.mem_map_of_mem hk
      rw [h6] at this
      obtain ⟨x, hx, he⟩ := List.mem_map.1 this
      rw [← he]; exact hs x hx
    · simpa only [Blk.kind, Tail.text] using h5
    · simp only [Blk.text]
      intro c' r' he
      rw [hT] at he
      simp only [List.nil_append, List.cons_append, List.cons.injEq] at he
      rw [← he.1]
      exact ⟨(tokHead_ne hc).2.2.2.1, key_head hκ hT⟩
  have := reads_stream hwf ⟨by simpa only [Blk.still] using hS, trivial⟩
  simp only [Stream.text, Stream.head, Blk.text, Stream.values, Blk.value, Blk.node, Blk.off, Blk.tag, Blk.data, List.nil_append, Tail.text, Tail.values,
    List.length_nil, h3] at this
  have hp := h4 0 .none
  obtain ⟨hl1, hl2⟩ := blockMapNodes_distinct (p := 0) hs hd
  rw [show 0 + 0 + ts.T.length + 1 + ts.sp.length = 0 + ts.T.length + 2 by rw [h2]; rfl, hp, mapOf_distinct hl1 hl2] at this
  exact this

/-! ## Examples -/

theorem open_word {w : Bytes} (h : isWord w = true) (hk : ∀ kv ∈ keywords, kv.1 ≠ w) (hc : ∀ c ∈ w, c ∉ b!"[]{},") : LastPart false w :=
  .text (flow_word h hk hc) (word h hk)

/-- `[a, b` is not closed. -/
theorem open_ab : Unclosed false b!"[a, b" :=
  .seq (ws := []) (xs := [⟨.atom b!"a" (fun _ => .str b!"a") fun _ => True, [], b!" "⟩]) AllWs.nil (by
    simp only [List.mem_singleton, forall_eq]
    refine ⟨?_, ?_, by simp [AllWs]; decide⟩
    · simp only [Flow.ok]; exact FlowText.is (flow_word (by decide) (by decide) (by decide))
    · simp [Flow.still]) (open_word (w := b!"b") (by decide) (by decide) (by decide))

/-- `{k: [a, b` neither. -/
theorem open_kab : Unclosed false b!"{k: [a, b" :=
  .map (ws := []) (xs := []) (K := b!"k") (sp := b!" ") (y := .str b!"k") AllWs.nil (by simp)
    ⟨flow_word (by decide) (by decide) (by decide), .inl ⟨[], rfl, by simp⟩⟩ (.unclosed open_ab)

example : Reads b!"[a, b" [.mk 0 [] .null] := by
  simpa using C28_unclosed_is_null open_ab [] ⟨.inl rfl⟩ (by simp)

/-- `- x`, `- {k: [a, b`, `- y`: the sequence `x`, null, `y`. -/
example : Reads b!"- x\n- {k: [a, b\n- y\n" [.mk 0 [] (.seq [.mk 2 [] (.str b!"x"), .mk 6 [] .null, .mk 18 [] (.str b!"y")])] := by
  refine C28_items [(b!"x", .str b!"x"), (b!"{k: [a, b", .null), (b!"y", .str b!"y")] (by simp) ?_
  simp only [List.mem_cons, List.not_mem_nil, or_false]
  rintro t (rfl | rfl | rfl)
  · exact .inl (writes_word (by decide) (by decide))
  · exact .inr ⟨⟨_, open_kab⟩, rfl⟩
  · exact .inl (writes_word (by decide) (by decide))

end YamlPeg.Props
