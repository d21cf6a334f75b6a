import Verif.Props.Layout
import Verif.Props.Anchors
/-!
# Keys that are not one-line scalars: C64

A key behind `?`, keys with anchors and tags, aliases as keys, flow collections as keys.
-/

namespace YamlPeg.Props
open YamlPeg

/-! ## Keys behind `?` -/

theorem goodKeys_one {k : Node} (h : Readable k) : GoodKeys [k] := by
  refine ⟨by simpa using h, ?_⟩
  simp only [List.mem_singleton]
  rintro _ rfl _ rfl _; rfl

theorem scalar_readable {κ : EndKind} {T : Bytes} {y : Yaml} (h : ScalarText κ T y) (hk : KeysOK [y]) (p : Nat) (t : Bytes) :
    Readable (.mk p t y) :=
  (goodKeys_scalars (ks := [.mk p t y]) (by simpa [Node.yaml] using h.scalar) (by simpa [Node.yaml] using hk)).1 _ (by simp)

/-- **C64.** Any node that may be the value of a map may be its key: behind `?`, and the `:`
of its value on the next line. -/
theorem C64_any_key {b : Blk} {s V : Bytes} {v : Yaml} (hs : SepIs s b.lead) (hb : b.okV 0) (hne : b.text ≠ [])
    (hst : b.still) (ha : AfterLines b.kind b!"\n") (hr : ∀ p, Readable (b.value p)) (hV : Writes V v) :
    Reads (b!"?" ++ s ++ b.text ++ b!"\n: " ++ V ++ b!"\n")
      [.mk 0 [] (.map [(b.value (1 + s.length), .mk (1 + s.length + b.text.length + 3) [] v)])] := by
  obtain ⟨κ, hκ⟩ := hV
  have hl : LeafIs κ V (fun _ _ => v) .none := .inl ⟨_, hκ, rfl, rfl⟩
  have hd : ∀ p e, b.data p e = b.data p .none := fun p e => (Blk.still_spec b hst p).1 _ _
  have := C52_layout_still (s := ⟨none, .cmap [] 0 (.one (some (s, b!"\n")) b b!" "
      (.leaf [] V κ (fun _ _ => v) .none)), .stop b!"\n", []⟩)
    ⟨by
      simp only [Blk.okN, CEnts.ok, Blk.okV, CEnts.c, Blk.kind]
      exact ⟨.inl trivial, trivial, ⟨⟨hs, hb, hne, ha⟩, .inl (sep_space _), .inl ⟨trivial, .inl hl⟩⟩, fun _ => .inl (by simp)⟩,
    .inr (.inl (by simp only [Blk.kind, CEnts.kind]; exact after_lf (hl.kind.imp id fun h => .inl h))), rfl⟩
    ⟨by
      simp only [Blk.still, CEnts.still, CEnts.pairs, List.map_cons, List.map_nil]
      refine ⟨⟨hst, by simp, by simp⟩, fun p e => goodKeys_one ?_⟩
      rw [hd]; exact hr _, trivial⟩
  rw [show 1 + s.length + b.text.length + 3 = 1 + s.length + b.text.length + 1 + 1 + 1 from rfl]
  simpa [Stream.text, Stream.head, Blk.text, Stream.values, Blk.value, Blk.node, Blk.off, Blk.tag, Blk.data, Tail.text, Tail.values,
    CEnts.body, CEnts.pairs, CEnts.K, CEnts.sp, ktext, koff, mapOf, insertSpec, spaces, hd, Nat.add_assoc, Nat.add_comm, Nat.add_left_comm] using this

/-- A block map whose entries are written `? key` and `: value`. -/
def explicitMap (es : List Entry) : Bytes := es.flatMap fun e => b!"? " ++ e.key ++ b!"\n: " ++ e.val ++ b!"\n"

/-- The entries of `explicitMap es`, its text beginning at `p`. -/
def explicitMapNodes : Nat → List Entry → List (Node × Node)
  | _, [] => []
  | p, e :: es => (.mk (p + 2) [] e.keyData, .mk (p + 2 + e.key.length + 3) [] e.valData) ::
      explicitMapNodes (p + 2 + e.key.length + 3 + e.val.length + 1) es

theorem explicitMapNodes_keys (p : Nat) (es : List Entry) :
    ((explicitMapNodes p es).map Prod.fst).map Node.yaml = es.map Entry.keyData := by
  induction es generalizing p with
  | nil => rfl
  | cons t ts ih => simp only [explicitMapNodes, List.map_cons, ih, Node.yaml]

theorem explicitMapNodes_data (p : Nat) (es : List Entry) :
    (explicitMapNodes p es).map (fun e => (e.1.yaml, e.2.yaml)) = es.map (fun e => (e.keyData, e.valData)) := by
  induction es generalizing p with
  | nil => rfl
  | cons t ts ih => rw [explicitMapNodes, List.map_cons, List.map_cons, ih]; rfl

theorem explicit_of : ∀ (es : List Entry), es ≠ [] → (∀ e ∈ es, Writes e.key e.keyData ∧ Writes e.val e.valData) →
    ∃ ts : CEnts, ts.ok 0 ∧ ts.c ≠ none ∧ ts.K 0 ++ 0x3A :: (ts.sp ++ ts.body 0) ++ b!"\n" = explicitMap es ∧
      (∀ p e, ts.pairs 0 p e = explicitMapNodes p es) ∧ ts.still ∧ AfterLines ts.kind b!"\n"
  | [], h, _ => absurd rfl h
  | [t], _, h => by
    obtain ⟨⟨κ', hκ'⟩, κ, hκ⟩ := h t (by simp)
    have hl : LeafIs κ t.val (fun _ _ => t.valData) .none := .inl ⟨_, hκ, rfl, rfl⟩
    have hl' : LeafIs κ' t.key (fun _ _ => t.keyData) .none := .inl ⟨_, hκ', rfl, rfl⟩
    refine ⟨.one (some (b!" ", b!"\n")) (.leaf [] t.key κ' (fun _ _ => t.keyData) .none) b!" "
        (.leaf [] t.val κ (fun _ _ => t.valData) .none), ?_, by simp [CEnts.c],
      by simp [explicitMap, CEnts.sp, CEnts.K, CEnts.body, Blk.text, ktext, spaces], fun p e => ?_,
      by simp [CEnts.still, Blk.still], ?_⟩
    · simp only [CEnts.ok, Blk.okV, Blk.kind, Blk.lead]
      exact ⟨⟨sep_space _, .inl ⟨trivial, .inl hl'⟩, leaf_ne hκ', after_lf (hl'.kind.imp id fun h => .inl h)⟩,
        .inl (sep_space _), .inl ⟨trivial, .inl hl⟩⟩
    · simp [CEnts.pairs, explicitMapNodes, Blk.data, Blk.off, Blk.tag, ktext, koff, Blk.text, spaces]
      omega
    · simp only [CEnts.kind, Blk.kind]
      exact after_lf (hl.kind.imp id fun h => .inl h)
  | t :: u :: ts, _, h => by
    obtain ⟨⟨κ', hκ'⟩, κ, hκ⟩ := h t (by simp)
    have hl : LeafIs κ t.val (fun _ _ => t.valData) .none := .inl ⟨_, hκ, rfl, rfl⟩
    have hl' : LeafIs κ' t.key (fun _ _ => t.keyData) .none := .inl ⟨_, hκ', rfl, rfl⟩
    obtain ⟨its, h1, h2, h3, h4, hS, h5⟩ := explicit_of (u :: ts) (by simp) (fun x hx => h x (by simp [hx]))
    refine ⟨.cons (some (b!" ", b!"\n")) (.leaf [] t.key κ' (fun _ _ => t.keyData) .none) b!" "
        (.leaf [] t.val κ (fun _ _ => t.valData) .none) b!"\n" its, ?_, by simp [CEnts.c], ?_, fun p e => ?_,
      by simp [CEnts.still, Blk.still, hS], ?_⟩
    · simp only [CEnts.ok, Blk.okV, Blk.kind, Blk.lead]
      exact ⟨⟨sep_space _, .inl ⟨trivial, .inl hl'⟩, leaf_ne hκ', after_lf (hl'.kind.imp id fun h => .inl h)⟩,
        .inl (sep_space _), ⟨.inl ⟨trivial, .inl hl⟩, leaf_ne hκ⟩, after_lf (hl.kind.imp id fun h => .inl h), h1⟩
    · have : explicitMap (t :: u :: ts) = b!"? " ++ t.key ++ b!"\n: " ++ t.val ++ b!"\n" ++ explicitMap (u :: ts) := by
        simp [explicitMap]
      rw [this, ← h3]
      simp [CEnts.sp, CEnts.K, CEnts.body, Blk.text, ktext, spaces]
    · rw [explicitMapNodes, ← h4 (p + 2 + t.key.length + 3 + t.val.length + 1) { e with anchors := e.anchors }]
      simp only [CEnts.pairs, Blk.data, Blk.text, Blk.off, Blk.tag, ktext, koff, Blk.eff, List.nil_append, List.length_cons, List.length_append,
        List.length_nil, spaces, List.replicate_zero]
      congr 1
      · congr 2 <;> omega
      · congr 1; omega
    · simpa only [CEnts.kind] using h5

/-- **C64.** A block map written with `? key` and `: value` on two lines each is read as the map
that results from inserting these entries in order, as if it had been written `key: value`. -/
theorem C64_explicit_map (es : List Entry) (hne : es ≠ [])
    (h : ∀ e ∈ es, Writes e.key e.keyData ∧ Writes e.val e.valData) (hk : KeysOK (es.map Entry.keyData)) :
    ∃ m, Reads (explicitMap es) [.mk 0 [] (.map m)] ∧ ∀ c, entriesCollect c [] (explicitMapNodes 0 es) = .ok m := by
  obtain ⟨ts, h1, h2, h3, h4, hS, h5⟩ := explicit_of es hne h
  have hg : ∀ p, GoodKeys ((explicitMapNodes p es).map Prod.fst) := by
    intro p
    refine goodKeys_scalars (fun k hk' => ?_) (by rw [explicitMapNodes_keys]; exact hk)
    have : k.yaml ∈ es.map Entry.keyData := by rw [← explicitMapNodes_keys p]; exact List.mem_map_of_mem hk'
    obtain ⟨e, he, h'⟩ := List.mem_map.1 this
    obtain ⟨κ, hκ⟩ := (h e he).1
    rw [← h']; exact hκ.scalar
  have := C52_layout_still (s := ⟨none, .cmap [] 0 ts, .stop b!"\n", []⟩) ⟨by
    simp only [Blk.okN]; exact ⟨.inl trivial, trivial, h1, fun _ => .inl h2⟩,
    .inr (.inl (by simpa only [Blk.kind] using h5)), rfl⟩
    ⟨by simp only [Blk.still]; exact ⟨hS, fun p e => by rw [h4]; exact hg p⟩, trivial⟩
  simp only [Stream.text, Stream.head, Blk.text, Stream.values, Blk.value, Blk.node, Blk.off, Blk.tag, Blk.data, List.nil_append, Tail.text, Tail.values,
    List.length_nil, h3, h4] at this
  exact ⟨_, this, fun c => entriesCollect_good (hg _) _ [] (by simp) fun e he => List.mem_map_of_mem he⟩

/-- **C64.** With pairwise different string keys the entries are exactly those written, in order. -/
theorem C64_explicit_distinct (es : List Entry) (hne : es ≠ [])
    (h : ∀ e ∈ es, Writes e.key e.keyData ∧ Writes e.val e.valData) (hs : ∀ e ∈ es, ∃ s, e.keyData = .str s)
    (hd : es.Pairwise fun e e' => e.keyData ≠ e'.keyData) :
    Reads (explicitMap es) [.mk 0 [] (.map (explicitMapNodes 0 es))] := by
  have hys : ∀ y ∈ es.map Entry.keyData, ∃ s, y = .str s := by
    intro y hy; obtain ⟨e, he, rfl⟩ := List.mem_map.1 hy; exact hs e he
  obtain ⟨m, hm, hc⟩ := C64_explicit_map es hne h (keysOK_str _ hys)
  have hstr : ∀ k ∈ (explicitMapNodes 0 es).map Prod.fst, ∃ s, k.yaml = .str s := by
    intro k hk
    refine hys _ ?_
    rw [← explicitMapNodes_keys 0 es]; exact List.mem_map_of_mem hk
  have hg : GoodMapKeys (explicitMapNodes 0 es) [] := by
    rw [GoodMapKeys, List.append_nil]; exact goodKeys_str _ hstr
  have hpw : (explicitMapNodes 0 es).Pairwise fun e e' => Node.eq? e.1 e'.1 = .ok false := by
    have hd2 : (explicitMapNodes 0 es).Pairwise fun e e' => e.1.yaml ≠ e'.1.yaml := by
      have : (es.map Entry.keyData).Pairwise (· ≠ ·) := List.pairwise_map.2 hd
      rw [← explicitMapNodes_keys 0 es] at this
      rw [List.map_map, List.pairwise_map] at this; exact this
    refine hd2.imp_of_mem ?_
    rintro ⟨⟨p, t, y⟩, v⟩ ⟨⟨p', t', y'⟩, v'⟩ he he' hne
    obtain ⟨s, hs⟩ := hstr _ (List.mem_map_of_mem he)
    obtain ⟨s', hs'⟩ := hstr _ (List.mem_map_of_mem he')
    simp only [Node.yaml] at hs hs' hne
    subst hs hs'
    rw [eq?_ok _ (str_readable _ _ _) _ (str_readable _ _ _)]
    simp only [Node.eqb, Yaml.eqb]
    have : s ≠ s' := fun e => hne (by rw [e])
    simp [this]
  have := hc .exact
  rw [C34_order .exact _ hg hpw] at this
  cases this
  exact hm

example : Reads b!"? a\n: x\n? b\n: y\n" [.mk 0 [] (.map [(.mk 2 [] (.str b!"a"), .mk 6 [] (.str b!"x")),
    (.mk 10 [] (.str b!"b"), .mk 14 [] (.str b!"y"))])] := by
  refine C64_explicit_distinct [⟨b!"a", .str b!"a", b!"x", .str b!"x"⟩, ⟨b!"b", .str b!"b", b!"y", .str b!"y"⟩] (by simp) ?_
    (by simp) (by simp)
  simp only [List.mem_cons, List.not_mem_nil, or_false]
  rintro t (rfl | rfl) <;> exact ⟨writes_word (by decide) (by decide), writes_word (by decide) (by decide)⟩

/-! ## Collections and block scalars as keys -/

theorem blockSeqNodes_readable {ts : List (Bytes × Yaml)} (h : ∀ t ∈ ts, ∃ s, t.2 = .str s) (p : Nat) :
    ∀ x ∈ blockSeqNodes p ts, Readable x := by
  intro x hx
  have : x.yaml ∈ ts.map Prod.snd := by rw [← blockSeqNodes_data p]; exact List.mem_map_of_mem hx
  obtain ⟨t, ht, he⟩ := List.mem_map.1 this
  obtain ⟨s, hs⟩ := h t ht
  obtain ⟨q, t', y⟩ := x
  simp only [Node.yaml] at he
  subst he; rw [hs]; exact str_readable _ _ _

/-- **C64.** A block sequence as a key: `?`, the items on lines of their own, `: value`. -/
theorem C64_sequence_key (ts : List (Bytes × Yaml)) (hne : ts ≠ []) (h : ∀ t ∈ ts, Writes t.1 t.2)
    (hstr : ∀ t ∈ ts, ∃ s, t.2 = .str s) (V : Bytes) (v : Yaml) (hV : Writes V v) :
    Reads (b!"?\n" ++ blockSeq ts ++ b!": " ++ V ++ b!"\n")
      [.mk 0 [] (.map [(.mk 1 [] (.seq (blockSeqNodes 2 ts)), .mk (2 + (blockSeq ts).length + 2) [] v)])] := by
  obtain ⟨its, h1, h2, h3, h4, hS, h5⟩ := items_of ts hne fun t ht => .inl (h t ht)
  have hval : ∀ p, (Blk.seq b!"\n" 0 its).value p = .mk p [] (.seq (blockSeqNodes (p + 1) ts)) := by
    intro p
    simp only [Blk.value, Blk.node, Blk.off, Blk.tag, Blk.data, List.length_cons, List.length_nil]
    rw [← h4 (p + 1) .none, show p + (0 + 1) + 1 + its.sp.length = p + 1 + 2 by rw [h2]; rfl]
    rfl
  have htext : (Blk.seq b!"\n" 0 its).text ++ b!"\n" = b!"\n" ++ blockSeq ts := by
    rw [← h3]; simp [Blk.text]
  have hlen : (Blk.seq b!"\n" 0 its).text.length = (blockSeq ts).length := by
    have := congrArg List.length htext
    simp at this; omega
  have := C64_any_key (b := .seq b!"\n" 0 its) (s := []) (V := V) (v := v) (sep_lf [])
    (by simp only [Blk.okV]; exact ⟨lead_lf 0, Nat.le_refl 0, h1⟩) (by simp [Blk.text]) (by simpa only [Blk.still] using hS)
    (by simpa only [Blk.kind] using h5)
    (fun p => by
      rw [hval]
      exact everywhere_mk.2 ⟨trivial, blockSeqNodes_readable hstr _⟩) hV
  rw [hval, hlen] at this
  have e : b!"?" ++ [] ++ (Blk.seq b!"\n" 0 its).text ++ b!"\n: " ++ V ++ b!"\n" = b!"?\n" ++ blockSeq ts ++ b!": " ++ V ++ b!"\n" := by
    have : b!"\n: " = b!"\n" ++ b!": " := rfl
    rw [this]
    simp only [List.append_assoc, List.nil_append]
    rw [← List.append_assoc (Blk.text _), htext]
    simp
  rw [e, show 1 + List.length ([] : Bytes) + (blockSeq ts).length + 3 = 2 + (blockSeq ts).length + 2 by
    simp only [List.length_nil]; omega] at this
  exact this

example : Reads b!"?\n- x\n- y\n: b\n" [.mk 0 [] (.map [(.mk 1 [] (.seq [.mk 4 [] (.str b!"x"), .mk 8 [] (.str b!"y")]),
    .mk 12 [] (.str b!"b"))])] :=
  C64_sequence_key [(b!"x", .str b!"x"), (b!"y", .str b!"y")] (by simp) (by
    simp only [List.mem_cons, List.not_mem_nil, or_false]
    rintro t (rfl | rfl) <;> exact writes_word (by decide) (by decide)) (by simp) b!"b" _ (writes_word (by decide) (by decide))

/-- **C64.** A literal block as a key. -/
theorem C64_literal_key (ls : List Bytes) (hls : BlockScalar ls) (c : Chomp) (V : Bytes) (v : Yaml) (hV : Writes V v) :
    Reads (b!"? |" ++ c.mark ++ blockLines 2 ls ++ b!"\n: " ++ V ++ b!"\n")
      [.mk 0 [] (.map [(.mk 2 [] (.str (literalValue ls ++ c.ends)),
        .mk (3 + c.mark.length + (blockLines 2 ls).length + 3) [] v)])] := by
  have := C64_any_key (b := .lit (0x7C :: (c.mark ++ blockLines 2 ls)) 2 (literalValue ls ++ c.ends)) (s := b!" ") (V := V) (v := v)
    (sep_space _) (by simp only [Blk.okV]; exact ⟨trivial, c, ls, by decide, hls, .inl ⟨rfl, rfl⟩⟩) (by simp [Blk.text])
    (by simp [Blk.still]) (by simp only [Blk.kind]; exact after_lf (by simp))
    (fun p => by simp only [Blk.value, Blk.node, Blk.data]; exact str_readable _ _ _) hV
  simp only [Blk.text, Blk.value, Blk.node, Blk.off, Blk.tag, Blk.data] at this
  rw [show 1 + List.length b!" " + List.length (0x7C :: (c.mark ++ blockLines 2 ls)) + 3 =
    3 + c.mark.length + (blockLines 2 ls).length + 3 by simp; omega] at this
  simpa using this

/-- **C64.** A flow sequence as a key, in front of `:` or behind `?`. -/
theorem C64_flow_key (ts : List (Bytes × Yaml)) (h : ∀ t ∈ ts, FlowText t.1 t.2) (hstr : ∀ t ∈ ts, ∃ s, t.2 = .str s)
    (V : Bytes) (v : Yaml) (hV : Writes V v) :
    Reads (flowSeq ts ++ b!": " ++ V ++ b!"\n")
      [.mk 0 [] (.map [(.mk 0 [] (.seq (flowSeqNodes 1 ts)), .mk ((flowSeq ts).length + 2) [] v)])] ∧
    Reads (b!"? " ++ flowSeq ts ++ b!"\n: " ++ V ++ b!"\n")
      [.mk 0 [] (.map [(.mk 2 [] (.seq (flowSeqNodes 3 ts)), .mk (2 + (flowSeq ts).length + 3) [] v)])] := by
  obtain ⟨its, h1, h0, h2, h3⟩ := fitems_of ts h
  have hread : ∀ p, ∀ x ∈ flowSeqNodes p ts, Readable x := by
    intro p x hx
    have : x.yaml ∈ ts.map Prod.snd := by rw [← flowSeqNodes_data p]; exact List.mem_map_of_mem hx
    obtain ⟨t, ht, he⟩ := List.mem_map.1 this
    obtain ⟨s, hs⟩ := hstr t ht
    obtain ⟨q, t', y⟩ := x
    simp only [Node.yaml] at he
    subst he; rw [hs]; exact str_readable _ _ _
  have hst : (Flow.seq [] its).still := by simp only [Flow.still]; exact h0
  have hleaf : LeafIs .loose (Flow.seq [] its).text (Flow.seq [] its).data (Flow.seq [] its).known :=
    .inr (.inl ⟨.seq [] its, by simp only [Flow.ok]; exact ⟨AllWs.nil, h1, AllWs.nil⟩, rfl, rfl, rfl, rfl, rfl⟩)
  have htext : (Flow.seq [] its).text = flowSeq ts := by simp [Flow.text, flowSeq, h2]
  have hdata : ∀ p e, (Flow.seq [] its).data p e = .seq (flowSeqNodes (p + 1) ts) := by
    intro p e; simp [Flow.data, h3]
  have hbst : (Blk.leaf [] (Flow.seq [] its).text .loose (Flow.seq [] its).data (Flow.seq [] its).known).still := by
    simp only [Blk.still]; exact Flow.still_spec _ hst
  constructor
  · obtain ⟨κ, hκ⟩ := hV
    have hl : LeafIs κ V (fun _ _ => v) .none := .inl ⟨_, hκ, rfl, rfl⟩
    have := C52_layout_still (s := ⟨none, .cmap [] 0 (.one none
        (.leaf [] (Flow.seq [] its).text .loose (Flow.seq [] its).data (Flow.seq [] its).known) b!" "
        (.leaf [] V κ (fun _ _ => v) .none)), .stop b!"\n", []⟩)
      ⟨by
        simp only [Blk.okN, CEnts.ok, Blk.okV, CEnts.c, Blk.flatIs]
        exact ⟨.inl trivial, trivial, ⟨⟨trivial, hleaf⟩, .inl (sep_space _), .inl ⟨trivial, .inl hl⟩⟩, fun _ => .inr rfl⟩,
      .inr (.inl (by simp only [Blk.kind, CEnts.kind]; exact after_lf (hl.kind.imp id fun h => .inl h))), rfl⟩
      ⟨by
        simp only [Blk.still, CEnts.still, CEnts.pairs, List.map_cons, List.map_nil]
        refine ⟨⟨by simpa only [Blk.still] using hbst, by simp, by simp⟩, fun p e => goodKeys_one ?_⟩
        simp only [Blk.data, hdata]
        exact everywhere_mk.2 ⟨trivial, hread _⟩, trivial⟩
    simpa [Stream.text, Stream.head, Blk.text, Stream.values, Blk.value, Blk.node, Blk.off, Blk.tag, Blk.data, Tail.text, Tail.values,
      CEnts.body, CEnts.pairs, CEnts.K, CEnts.sp, ktext, koff, mapOf, insertSpec, spaces, hdata, htext] using this
  · have := C64_any_key (b := .leaf [] (Flow.seq [] its).text .loose (Flow.seq [] its).data (Flow.seq [] its).known) (s := b!" ")
      (V := V) (v := v) (sep_space _) (by simp only [Blk.okV]; exact .inl ⟨trivial, .inl hleaf⟩)
      (by simp [Blk.text, htext, flowSeq]) hbst (by simp only [Blk.kind]; exact after_lf (by simp))
      (fun p => by
        simp only [Blk.value, Blk.node, Blk.data, hdata]
        exact everywhere_mk.2 ⟨trivial, hread _⟩) hV
    simpa [Blk.text, Blk.value, Blk.node, Blk.off, Blk.tag, Blk.data, hdata, htext] using this

example : Reads b!"? |\n  x\n\n  y\n: b\n" [.mk 0 [] (.map [(.mk 2 [] (.str b!"x\n\ny\n"), .mk 15 [] (.str b!"b"))])] :=
  C64_literal_key [b!"x", [], b!"y"] (by
    refine ⟨⟨b!"x", _, rfl, by simp⟩, ⟨b!"y", rfl, by simp, by decide⟩, ?_⟩
    simp only [List.mem_cons, List.not_mem_nil, or_false]
    rintro l (rfl | rfl | rfl) hl
    · exact ⟨utf8_ascii (by decide), by decide, ⟨0x78, by simp, by decide⟩⟩
    · simp at hl
    · exact ⟨utf8_ascii (by decide), by decide, ⟨0x79, by simp, by decide⟩⟩) .clip b!"b" _ (writes_word (by decide) (by decide))

example : Reads b!"[x, y]: b\n" [.mk 0 [] (.map [(.mk 0 [] (.seq [.mk 1 [] (.str b!"x"), .mk 4 [] (.str b!"y")]),
    .mk 8 [] (.str b!"b"))])] :=
  (C64_flow_key [(b!"x", .str b!"x"), (b!"y", .str b!"y")] (by
    simp only [List.mem_cons, List.not_mem_nil, or_false]
    rintro t (rfl | rfl) <;> exact flow_word (by decide) (by decide) (by decide)) (by simp) b!"b" _
    (writes_word (by decide) (by decide))).1

/-! ## Anchors and aliases -/

/-- **C64.** A key with an anchor, used as the value: `? &a K`, `: *a`. -/
theorem C64_anchored_key (a K : Bytes) (y : Yaml) (ha : IsIdent a) (hK : Writes K y) (hk : KeysOK [y]) (hash : HashCfg) :
    Ends (fun n => parse hash n (b!"? &" ++ a ++ b!" " ++ K ++ b!"\n: *" ++ a ++ b!"\n"))
      (.ok [.mk 0 [] (.map [(.mk (4 + a.length) [] y, .mk (4 + a.length + K.length + 3) [] y)])]) := by
  obtain ⟨κ, hκ⟩ := hK
  have hl : LeafIs κ K (fun _ _ => y) .none := .inl ⟨_, hκ, rfl, rfl⟩
  have hne := ha.ne
  have := C52_layout (s := ⟨none, .cmap [] 0 (.one (some (b!" ", b!"\n"))
      (.prop (.anchor a b!" ") (.leaf [] K κ (fun _ _ => y) .none)) b!" "
      (.leaf [] (0x2A :: a) .loose (fun _ e => aliasYaml a e) (.of (aliasFine a)))), .stop b!"\n", []⟩)
    ⟨by
      simp only [Blk.okN, CEnts.ok, Blk.okV, CEnts.c, Blk.kind, Blk.lead]
      exact ⟨.inl trivial, trivial, ⟨⟨sep_space _, ⟨⟨ha, sep_space _⟩, rfl, leaf_ne hκ, .inl ⟨trivial, .inl hl⟩⟩, by simp [Blk.text, Form.text],
          after_lf (hl.kind.imp id fun h => .inl h)⟩,
        .inl (sep_space _), .inl ⟨trivial, .inl (.inr (.inr ⟨a, ha, rfl, rfl, rfl, rfl⟩))⟩⟩, fun _ => .inl (by simp)⟩,
    .inr (.inl (by simp only [Blk.kind, CEnts.kind]; exact after_lf (.inl rfl))), rfl⟩
    ⟨by
      simp only [Blk.fine, CEnts.fine, CEnts.pairs, List.map_cons, List.map_nil, Blk.data]
      refine ⟨⟨⟨?_, ?_, ?_⟩, ?_⟩, goodKeys_one (scalar_readable hκ hk _ _)⟩ <;>
      simp [Form.fine, Blk.eff, Form.name, hne, aliasFine, Env.doc, mapGet, mapGet_mapInsert], trivial⟩ hash
  refine cast ?_ this
  congr 2
  · funext n
    simp [Stream.text, Stream.head, Blk.text, Form.text, CEnts.K, CEnts.sp, CEnts.body, ktext, spaces, Tail.text]
  · simp [Stream.nodes, Stream.head, Blk.node, Blk.off, Blk.tag, Blk.data, CEnts.pairs, Form.text, Form.val, ktext, koff, spaces, mapOf, insertSpec,
      Blk.text, Blk.eff, Form.name, hne, aliasYaml, Env.doc, mapGet_mapInsert, Tail.nodes, Node.yaml]
    omega

/-- **C64.** An alias as a key stands for the key it names: `- &a K`, `- *a: V`. -/
theorem C64_alias_key (a K V : Bytes) (y v : Yaml) (ha : IsIdent a) (hK : Writes K y) (hk : KeysOK [y]) (hV : Writes V v)
    (hash : HashCfg) :
    Ends (fun n => parse hash n (b!"- &" ++ a ++ b!" " ++ K ++ b!"\n- *" ++ a ++ b!": " ++ V ++ b!"\n"))
      (.ok [.mk 0 [] (.seq [.mk (4 + a.length) [] y,
        .mk (4 + a.length + K.length + 3) [] (.map [(.mk (4 + a.length + K.length + 3) [] y,
          .mk (4 + a.length + K.length + 3 + 1 + a.length + 2) [] v)])])]) := by
  obtain ⟨κ, hκ⟩ := hK
  obtain ⟨κ', hκ'⟩ := hV
  have hl : LeafIs κ K (fun _ _ => y) .none := .inl ⟨_, hκ, rfl, rfl⟩
  have hl' : LeafIs κ' V (fun _ _ => v) .none := .inl ⟨_, hκ', rfl, rfl⟩
  have hne := ha.ne
  have := C52_layout (s := ⟨none, .seq [] 0 (.cons b!" " (.prop (.anchor a b!" ") (.leaf [] K κ (fun _ _ => y) .none)) b!"\n"
      (.one b!" " (.cmap [] 2 (.one none (.leaf [] (0x2A :: a) .loose (fun _ e => aliasYaml a e) (.of (aliasFine a))) b!" "
        (.leaf [] V κ' (fun _ _ => v) .none))))), .stop b!"\n", []⟩)
    ⟨by
      simp only [Blk.okN, Items.ok, CEnts.ok, Blk.okV, CEnts.c, Blk.kind, Blk.lead, Blk.flatIs]
      exact ⟨.inl trivial, trivial, .inl (sep_space _), ⟨⟨ha, sep_space _⟩, rfl, leaf_ne hκ, .inl ⟨.inl trivial, .inl hl⟩⟩,
        after_lf (hl.kind.imp id fun h => .inl h), .inl (sep_space _), .inl trivial, trivial,
        ⟨⟨trivial, .inr (.inr ⟨a, ha, rfl, rfl, rfl, rfl⟩)⟩, .inl (sep_space _), .inl ⟨trivial, .inl hl'⟩⟩, fun _ => .inr rfl⟩,
    .inr (.inl (by simp only [Blk.kind, Items.kind, CEnts.kind]; exact after_lf (hl'.kind.imp id fun h => .inl h))), rfl⟩
    ⟨by
      simp only [Blk.fine, Items.fine, CEnts.fine, CEnts.pairs, List.map_cons, List.map_nil, Blk.data]
      refine ⟨⟨?_, ?_, ?_⟩, ⟨?_, ?_⟩, ?_⟩
      iterate 5 simp [Form.fine, Blk.eff, Form.name, hne, aliasFine, Env.doc, mapGet, mapGet_mapInsert]
      refine goodKeys_one ?_
      simp only [Blk.eff, Form.name, hne, aliasYaml, Env.doc, if_false, mapGet_mapInsert, if_true, Bool.false_eq_true, Option.map_some, Option.getD_some, Node.yaml, ne_eq, not_false_iff, Blk.data]
      exact scalar_readable hκ hk _ _, trivial⟩ hash
  refine cast ?_ this
  congr 2
  · funext n
    simp [Stream.text, Stream.head, Blk.text, Form.text, Items.sp, Items.body, CEnts.K, CEnts.sp, CEnts.body, ktext, spaces, Tail.text]
  · simp [Stream.nodes, Stream.head, Blk.node, Blk.off, Blk.tag, Blk.data, Items.nodes, Items.sp, CEnts.pairs, Form.text, Form.val, ktext, koff, spaces, mapOf,
      insertSpec, Blk.text, Blk.eff, Form.name, hne, aliasYaml, Env.doc, mapGet_mapInsert, Tail.nodes, Node.yaml]
    omega

example : Ends (fun n => parse .exact n b!"- &a x\n- *a: y\n")
    (.ok [.mk 0 [] (.seq [.mk 5 [] (.str b!"x"), .mk 9 [] (.map [(.mk 9 [] (.str b!"x"), .mk 13 [] (.str b!"y"))])])]) :=
  C64_alias_key b!"a" b!"x" b!"y" _ _ ⟨by decide, by decide⟩ (writes_word (by decide) (by decide)) (keysOK_str _ (by simp))
    (writes_word (by decide) (by decide)) .exact

example : Ends (fun n => parse .exact n b!"? &a x\n: *a\n")
    (.ok [.mk 0 [] (.map [(.mk 5 [] (.str b!"x"), .mk 9 [] (.str b!"x"))])]) :=
  C64_anchored_key b!"a" b!"x" _ ⟨by decide, by decide⟩ (writes_word (by decide) (by decide)) (keysOK_str _ (by simp)) .exact

/-! ## What does not work -/

/-- **C64, counterexample.** A block sequence on the line of the `?` is no sequence: its
text, dashes included, is taken for a plain scalar. -/
theorem C64_counterexample_inline_sequence : Ends (fun n => parse .exact n b!"? - x\n  - y\n: b\n")
    (.ok [.mk 0 [] (.map [(.mk 2 [] (.str b!"- x - y"), .mk 14 [] (.str b!"b"))])]) :=
  parse_returns_of (n := 30) (by decide +kernel) (by simp)

/-- **C64, counterexample.** A block map on the line of the `?` is not the key: its entry
becomes an entry of the outer map, and the value gets the key null. -/
theorem C64_counterexample_inline_map : Ends (fun n => parse .exact n b!"? a: b\n: c\n")
    (.ok [.mk 0 [] (.map [(.mk 2 [] (.str b!"a"), .mk 5 [] (.str b!"b")), (.mk 7 [] .null, .mk 9 [] (.str b!"c"))])]) :=
  parse_returns_of (n := 30) (by decide +kernel) (by simp)

/-- **C64, counterexample.** A key behind `?` without a value is an error if another entry follows. -/
theorem C64_counterexample_no_value : Ends (fun n => parse .exact n b!"? a\nb: c\n")
    (.err (.terminate "document splitter" b!"1:4\n? a\n   ^")) :=
  parse_returns_of (n := 30) (by decide +kernel) (by simp)

/-- **C64, counterexample.** With a blank in front of the `:` an alias is not accepted as a key. -/
theorem C64_counterexample_alias_blank : Ends (fun n => parse .exact n b!"- &a x\n- *a : y\n")
    (.err (.terminate "sequence terminator" b!"2:5\n- *a : y\n    ^")) :=
  parse_returns_of (n := 30) (by decide +kernel) (by simp)

/-- **C64, counterexample.** In a flow map `?` gives null for the whole collection. -/
theorem C64_counterexample_flow : Ends (fun n => parse .exact n b!"{? a : b}\n") (.ok [.mk 0 [] .null]) :=
  parse_returns_of (n := 30) (by decide +kernel) (by simp)

/-- **C64, counterexample.** A tag in front of the first key of a map belongs to the map. -/
theorem C64_counterexample_tag : Ends (fun n => parse .exact n b!"!!str 1: x\n")
    (.ok [.mk 6 b!"tag:yaml.org,2002:str" (.map [(.mk 6 [] (.int b!"1"), .mk 9 [] (.str b!"x"))])]) :=
  parse_returns_of (n := 30) (by decide +kernel) (by simp)

end YamlPeg.Props
