import Verif.Proof.Layout
import Verif.Props.Nodes
/-!
# Collections, block scalars, streams: C23–C26, C29, C52

`Reads doc nodes` (Proof/Reads.lean): for every hash seed, `parse` and
`parse_cyclic` both return `Ok(nodes)`, and no anchors.
-/

namespace YamlPeg.Props
open YamlPeg

/-- `T` is one of the usual ways to write the scalar `y`: plain text on one line,
keywords, numbers, quoted strings, the latter also over several lines. -/
def Writes (T : Bytes) (y : Yaml) : Prop := ∃ κ, ScalarText κ T y

/-! ## C52: every layout -/

/-- **C52.** Every stream of documents built from block sequences, block maps,
flow collections, block scalars, plain and quoted scalars (also over several lines),
aliases, anchors and tags, with any
nesting, any number of documents, `%YAML`, `%TAG` and unknown directives in front,
empty lines and comments between the lines, comments and blanks behind `-` and `:`, is
read as the tree it depicts (`Stream.nodes`), with the exact positions and tags, aliases
replaced by the node bound to their anchor.  `Stream.fine`: the handles of the tags are
declared, no anchor is bound twice in a document, aliases refer to known anchors. -/
theorem C52_layout {s : Stream} (h : s.ok) (hf : s.fine false) (hash : HashCfg) :
    Ends (fun n => parse hash n s.text) (.ok (s.nodes false)) := parse_stream (Stream.ok_wf h) hf hash

/-- **C52.** The same for `parse_cyclic`: aliases stay aliases (of any name), and the
anchors of each document are returned. -/
theorem C52_layout_cyclic {s : Stream} (h : s.ok) (hf : s.fine true) (hash : HashCfg) :
    Ends (fun n => parseCyclic hash n s.text) (.ok (s.nodes true, s.tables true)) :=
  parseCyclic_stream (Stream.ok_wf h) hf hash

/-- **C52.** Without anchors and aliases both parsers read the same. -/
theorem C52_layout_still {s : Stream} (h : s.ok) (hs : s.still) : Reads s.text s.values := reads_ok h hs

/-- An item or a value that is not there. -/
abbrev _root_.YamlPeg.Blk.nothing : Blk := .leaf [] [] .empty (fun _ _ => .null) .none

/-- A document with every construct. -/
def sample : Stream where
  mark := some (b!"# top\n", [])
  first := .map b!"\n" 0
    (.cons b!"a" (.str b!"a") b!" " (.leaf [] b!"-5" .strict (fun _ _ => .int b!"-5") .none) b!"\n"
    (.cons b!"'b'" (.str b!"b") [] (.seq b!"\n" 0 (.cons [] .nothing b!"\n"
      (.cons b!" " (.leaf [] b!"[x, y ]" .loose (Flow.data (.seq [] (.cons (.one b!"x" (.str b!"x")) [] b!" "
          (.last (.one b!"y" (.str b!"y")) b!" ")))) (Flow.known (.seq [] (.cons (.one b!"x" (.str b!"x")) [] b!" "
          (.last (.one b!"y" (.str b!"y")) b!" "))))) b!" # rem\n\n"
      (.cons b!" " (.map [] 2 (.cons b!"k" (.str b!"k") b!" " (.lit b!"|\n    L1\n\n     L2" 4 b!"L1\n\n L2\n") b!"\n"
        (.one b!"m" (.str b!"m") b!" " (.leaf [] b!"true" .loose (fun _ _ => .bool true) .none)))) b!"\n"
      (.one b!"  " (.seq [] 2 (.one b!" " (.leaf [] b!"z" .loose (fun _ _ => .str b!"z") .none)))))))) b!"\n"
    (.one b!"c" (.str b!"c") b!"  " (.map b!"# to c\n " 1
      (.cons b!"d" (.str b!"d") b!" " (.leaf [] b!"\"x\\ty\"" .loose (fun _ _ => .str b!"x\ty") .none) b!"\n"
      (.one b!"e" (.str b!"e") b!" " .nothing))))))
  tail := .next b!"\n" [] (.leaf b!"\n" b!"end" .loose (fun _ _ => .str b!"end") .none) (.stop b!"\n...\n")

theorem word {w : Bytes} (h : isWord w = true) (hk : ∀ kv ∈ keywords, kv.1 ≠ w) : ScalarText .loose w (.str w) :=
  .plain (isWord_plainLine h) hk

theorem after_lf {κ : EndKind} (h : κ = .loose ∨ κ = .strict ∨ (∃ τ, κ = .lit τ) ∨ κ = .empty) : AfterLines κ b!"\n" := by
  refine ⟨[0x0A], [], [], .inl rfl, rfl, .inl rfl, by simp, ?_⟩
  rcases h with rfl | rfl | ⟨τ, rfl⟩ | rfl <;> simp

theorem lead_lf (σ : Nat) : LeadLines σ (0x0A :: spaces σ) :=
  ⟨[0x0A], [], [], .inl rfl, .inl rfl, by simp, by simp, rfl⟩

theorem sep_space (lead : Bytes) : SepIs b!" " lead := ⟨by simp; decide, .inl ⟨[], rfl⟩⟩

theorem sep_lf (r : Bytes) : SepIs [] (0x0A :: r) := ⟨by simp, .inr ⟨rfl, [0x0A], r, .inl rfl, rfl⟩⟩

theorem keysOK_str (ys : List Yaml) (h : ∀ y ∈ ys, ∃ s, y = .str s) : KeysOK ys := by
  constructor
  · intro s hs; obtain ⟨_, h⟩ := h _ hs; simp at h
  · intro s _ hs; obtain ⟨_, h⟩ := h _ hs; simp at h
  · intro s hs; obtain ⟨_, h⟩ := h _ hs; simp at h
  · intro s _ _ _ hs; obtain ⟨_, h⟩ := h _ hs; simp at h

/-- The sample meets the conditions. -/
theorem sample_ok : sample.ok := by
  have w : ∀ T : Bytes, isWord T = true → (∀ kv ∈ keywords, kv.1 ≠ T) → ∃ κ, ScalarText κ T (.str T) :=
    fun T h hk => ⟨_, word h hk⟩
  have sp : ∀ b : Blk, b.sepIs b!" " := fun b => .inl (sep_space _)
  have leaf : ∀ {σ κ T v}, ScalarText κ T v → LeafAt σ κ T (fun _ _ => v) .none := fun h => .inl (.inl ⟨_, h, rfl, rfl⟩)
  refine ⟨?_, ?_, by simp [sample], by simp [sample], .inr ⟨rfl, [0x0A], [b!"# top"], .inl rfl, by simp, ?_, rfl⟩, sep_lf []⟩
  · simp only [sample, Blk.okN, Ents.ok, Blk.okV, Items.ok, Blk.lead, Blk.kind, Items.kind, Ents.kind, Ents.keys]
    refine ⟨.inr (lead_lf 0), trivial, ⟨w _ (by decide) (by decide), sp _, ⟨.inl ⟨trivial, ?_⟩, by simp [Blk.text]⟩, after_lf (by simp),
      ⟨.loose, ?_⟩, .inl (sep_lf []), ⟨⟨lead_lf 0, Nat.le_refl 0, ⟨.inr ⟨rfl, rfl⟩, .inr ⟨⟨rfl, rfl, rfl, rfl, rfl⟩, by decide⟩,
        after_lf (by simp), sp _, .inl ⟨.inl trivial, ?_⟩, ?_, sp _,
        ⟨.inl trivial, trivial, ⟨w _ (by decide) (by decide), sp _, ⟨⟨trivial, ?_⟩, by simp [Blk.text]⟩, after_lf (by simp),
          w _ (by decide) (by decide), sp _, .inl ⟨trivial, leaf (.keyword (by simp [keywords]))⟩⟩, ?_⟩,
        after_lf (by simp), .inl ⟨by decide, .inl ⟨[0x20], rfl⟩⟩, .inl trivial, trivial, sp _, .inl ⟨.inl trivial,
          leaf (word (by decide) (by decide))⟩⟩⟩, by simp [Blk.text]⟩, after_lf (by simp),
      w _ (by decide) (by decide), .inl ⟨by decide, .inl ⟨[0x20], rfl⟩⟩, ⟨?_, by decide,
        ⟨w _ (by decide) (by decide), sp _, ⟨.inl ⟨trivial, ?_⟩, by simp [Blk.text]⟩, after_lf (by simp),
          w _ (by decide) (by decide), sp _, .inr ⟨⟨rfl, rfl, rfl, rfl, rfl⟩, by decide⟩⟩, ?_⟩⟩, ?_⟩
    · exact leaf (.int (sg := b!"-") (d := b!"5") (.inr rfl) ⟨by simp, by decide⟩)
    · exact .single (s := b!"b") (utf8_ascii (by decide)) (by decide)
    · refine .inl (.inr (.inl ⟨.seq [] (.cons (.one b!"x" (.str b!"x")) [] b!" " (.last (.one b!"y" (.str b!"y")) b!" ")), ?_, rfl, rfl, ?_, rfl, rfl⟩))
      · simp only [Flow.ok, FItems.ok]
        have hsp : AllWs b!" " := by simp [AllWs]; decide
        exact ⟨AllWs.nil, ⟨.inl ⟨_, _, ⟨⟨_, word (by decide) (by decide)⟩, .inr (by decide)⟩, word (by decide) (by decide),
            Behind.nil _, rfl, rfl⟩, hsp,
          .inl ⟨_, _, ⟨⟨_, word (by decide) (by decide)⟩, .inr (by decide)⟩, word (by decide) (by decide), ⟨hsp, by simp⟩, rfl, rfl⟩⟩, AllWs.nil⟩
      · simp [Flow.text, FItems.text]
    · exact ⟨[0x0A], b!" # rem", [[]], .inl rfl, rfl, .inr ⟨[0x20], b!" rem", rfl, by decide, by decide⟩,
        by simp [IdleLine], .inr ⟨b!" rem", rfl⟩⟩
    · refine ⟨.clip, [b!"L1", [], b!" L2"], by decide, ⟨⟨b!"L1", _, rfl, by simp⟩, ⟨b!" L2", rfl, by simp, by decide⟩, ?_⟩,
        .inl ⟨by decide, by decide⟩⟩
      simp only [List.mem_cons, List.not_mem_nil, or_false]
      rintro l (rfl | rfl | rfl) hl
      · exact ⟨utf8_ascii (by decide), by decide, ⟨0x4C, by simp, by decide⟩⟩
      · simp at hl
      · exact ⟨utf8_ascii (by decide), by decide, ⟨0x4C, by simp, by decide⟩⟩
    · exact keysOK_str _ (by simp)
    · exact ⟨[0x0A], b!"# to c", [], .inl rfl, .inr ⟨[], b!" to c", rfl, by simp, by decide⟩,
        by rintro c r ⟨⟩; decide, by simp, rfl⟩
    · exact leaf (.double (s := b!"x\ty") (utf8_ascii (by decide)) (by decide))
    · exact keysOK_str _ (by simp)
    · exact keysOK_str _ (by simp)
  · simp only [sample, Blk.kind, Ents.kind, Tail.ok, Blk.okN, Blk.lead]
    refine ⟨.inl (after_lf (by simp)), sep_lf [], .inl ⟨.inr (lead_lf 0), leaf (word (by decide) (by decide))⟩, .inl (by simp [Blk.inner, Blk.lead]),
      .inr (.inr ⟨b!"\n", b!"\n", after_lf (by simp), rfl, .inr ⟨[0x0A], [[]], .inl rfl, by simp, by simp [IdleLine], rfl⟩⟩)⟩
  · simp only [List.mem_singleton, forall_eq]
    exact .inr ⟨[], b!" top", rfl, by simp, by decide⟩

theorem sample_still : sample.still := by
  simp [sample, Stream.still, Tail.still, Blk.still, Items.still, Ents.still]
  exact Flow.still_spec _ (by simp [Flow.still, FItems.still])

example : Reads sample.text sample.values := C52_layout_still sample_ok sample_still

/-! ## C25: block sequences -/

/-- An item: a scalar, or nothing. -/
def WritesItem (T : Bytes) (y : Yaml) : Prop := Writes T y ∨ (T = [] ∧ y = .null)

/-- A block sequence, one item per line. -/
def blockSeq (ts : List (Bytes × Yaml)) : Bytes := ts.flatMap fun t => b!"- " ++ t.1 ++ b!"\n"

/-- The items of `blockSeq ts`, its text beginning at `p`. -/
def blockSeqNodes : Nat → List (Bytes × Yaml) → List Node
  | _, [] => []
  | p, t :: ts => .mk (p + 2) [] t.2 :: blockSeqNodes (p + 2 + t.1.length + 1) ts

theorem blockSeqNodes_data (p : Nat) (ts : List (Bytes × Yaml)) :
    (blockSeqNodes p ts).map Node.yaml = ts.map Prod.snd := by
  induction ts generalizing p with
  | nil => rfl
  | cons t ts ih => simp [blockSeqNodes, ih, Node.yaml]

theorem WritesItem.leaf {T : Bytes} {y : Yaml} (h : WritesItem T y) :
    ∃ κ, (∀ σ, (Blk.leaf [] T κ (fun _ _ => y) .none).okN (σ + 2)) ∧ AfterLines κ b!"\n" := by
  rcases h with ⟨κ, hκ⟩ | ⟨rfl, rfl⟩
  · have hl : LeafIs κ T (fun _ _ => y) .none := .inl ⟨_, hκ, rfl, rfl⟩
    exact ⟨κ, fun σ => by simp only [Blk.okN]; exact .inl ⟨.inl trivial, .inl hl⟩, after_lf (hl.kind.imp id fun h => .inl h)⟩
  · exact ⟨.empty, fun σ => by simp only [Blk.okN]; exact .inr ⟨⟨rfl, rfl, rfl, rfl, rfl⟩, by omega⟩, after_lf (by simp)⟩

theorem items_of : ∀ (ts : List (Bytes × Yaml)), ts ≠ [] → (∀ t ∈ ts, WritesItem t.1 t.2) →
    ∃ its : Items, its.ok 0 ∧ its.sp = b!" " ∧ 0x2D :: (its.sp ++ its.body 0) ++ b!"\n" = blockSeq ts ∧
      (∀ p e, its.nodes 0 (p + 2) e = blockSeqNodes p ts) ∧ its.still ∧ AfterLines its.kind b!"\n"
  | [], h, _ => absurd rfl h
  | [t], _, h => by
    obtain ⟨κ, hl, ha⟩ := (h t (by simp)).leaf
    refine ⟨.one b!" " (.leaf [] t.1 κ (fun _ _ => t.2) .none), ?_, rfl, by simp [blockSeq, Items.sp, Items.body, Blk.text],
      fun p e => ?_, by simp [Items.still, Blk.still], ?_⟩
    · simp only [Items.ok]; exact ⟨.inl (sep_space _), hl 0⟩
    · simp [Items.nodes, blockSeqNodes, Blk.data, Blk.off, Blk.tag]
    · simpa only [Items.kind, Blk.kind] using ha
  | t :: u :: ts, _, h => by
    obtain ⟨κ, hl, ha⟩ := (h t (by simp)).leaf
    obtain ⟨its, h1, h2, h3, h4, hS, h5⟩ := items_of (u :: ts) (by simp) (fun x hx => h x (by simp [hx]))
    refine ⟨.cons b!" " (.leaf [] t.1 κ (fun _ _ => t.2) .none) b!"\n" its, ?_, rfl, ?_, fun p e => ?_, by simp [Items.still, Blk.still, hS], ?_⟩
    · simp only [Items.ok]
      exact ⟨.inl (sep_space _), hl 0, ha, h1⟩
    · have : blockSeq (t :: u :: ts) = b!"- " ++ t.1 ++ b!"\n" ++ blockSeq (u :: ts) := by simp [blockSeq]
      rw [this, ← h3]
      simp [Items.sp, Items.body, Blk.text, spaces]
    · rw [blockSeqNodes, ← h4 (p + 2 + t.1.length + 1) { e with anchors := e.anchors }]
      simp only [Items.nodes, Blk.data, Blk.text, h2, List.nil_append, Blk.off, Blk.tag]
      rfl
    · simpa only [Items.kind] using h5

/-- **C25.** A block sequence of one-line scalars and empty items, one per line, is
read as the sequence of these scalars (null for the empty items), in order, each at
its position. -/
theorem C25_block_sequence (ts : List (Bytes × Yaml)) (hne : ts ≠ []) (h : ∀ t ∈ ts, WritesItem t.1 t.2) :
    Reads (blockSeq ts) [.mk 0 [] (.seq (blockSeqNodes 0 ts))] := by
  obtain ⟨its, h1, h2, h3, h4, hS, h5⟩ := items_of ts hne h
  have := C52_layout_still (s := ⟨none, .seq [] 0 its, .stop b!"\n", []⟩) ⟨by simp only [Blk.okN]; exact ⟨.inl trivial, trivial, h1⟩,
    .inr (.inl (by simpa only [Blk.kind] using h5)), rfl⟩ ⟨hS, trivial⟩
  simp only [Stream.text, Stream.head, Blk.text, Stream.values, Blk.value, Blk.node, Blk.off, Blk.tag, Blk.data, List.nil_append, Tail.text, Tail.values,
    List.length_nil, h3] at this
  rw [show 0 + 0 + 1 + its.sp.length = 0 + 2 by rw [h2]; rfl, h4] at this
  exact this

/-- **C25.** As many items as lines, with these values. -/
theorem C25_length_and_order (ts : List (Bytes × Yaml)) (hne : ts ≠ []) (h : ∀ t ∈ ts, WritesItem t.1 t.2) :
    ∃ ns, Reads (blockSeq ts) [.mk 0 [] (.seq ns)] ∧ ns.length = ts.length ∧ ns.map Node.yaml = ts.map Prod.snd := by
  refine ⟨_, C25_block_sequence ts hne h, ?_, blockSeqNodes_data 0 ts⟩
  simpa using congrArg List.length (blockSeqNodes_data 0 ts)

theorem writes_word {w : Bytes} (h : isWord w = true) (hk : ∀ kv ∈ keywords, kv.1 ≠ w) : Writes w (.str w) :=
  ⟨_, word h hk⟩

example : Reads b!"- a\n- b\n- \n- 'c: d'\n" [.mk 0 [] (.seq [.mk 2 [] (.str b!"a"), .mk 6 [] (.str b!"b"),
    .mk 10 [] .null, .mk 13 [] (.str b!"c: d")])] :=
  C25_block_sequence [(b!"a", .str b!"a"), (b!"b", .str b!"b"), ([], .null), (b!"'c: d'", .str b!"c: d")] (by simp) (by
    simp only [List.mem_cons, List.not_mem_nil, or_false]
    rintro t (rfl | rfl | rfl | rfl)
    · exact .inl (writes_word (by decide) (by decide))
    · exact .inl (writes_word (by decide) (by decide))
    · exact .inr ⟨rfl, rfl⟩
    · exact .inl ⟨_, .single (s := b!"c: d") (utf8_ascii (by decide)) (by decide)⟩)

/-- **C25.** A comment behind the dash is not an empty item: it is read as the text of the item. -/
theorem C25_comment_item : Ends (fun n => parse .exact n b!"- # c\n- b\n")
    (.ok [.mk 0 [] (.seq [.mk 2 [] (.str b!"# c"), .mk 8 [] (.str b!"b")])]) :=
  parse_returns_of (n := 30) (by decide +kernel) (by simp)

/-! ## C26: block maps -/

/-- One line `key: value`. -/
structure Entry where
  key : Bytes
  keyData : Yaml
  val : Bytes
  valData : Yaml

/-- A block map, one entry per line. -/
def blockMap (es : List Entry) : Bytes := es.flatMap fun e => e.key ++ b!": " ++ e.val ++ b!"\n"

/-- The entries of `blockMap es`, its text beginning at `p`. -/
def blockMapNodes : Nat → List Entry → List (Node × Node)
  | _, [] => []
  | p, e :: es => (.mk p [] e.keyData, .mk (p + e.key.length + 2) [] e.valData) ::
      blockMapNodes (p + e.key.length + 2 + e.val.length + 1) es

theorem leaf_ne {κ : EndKind} {T : Bytes} {v : Yaml} (h : ScalarText κ T v) {lead : Bytes} {y : Nat → Env → Yaml} {pc : Known} :
    (Blk.leaf lead T κ y pc).text ≠ [] := by
  obtain ⟨c, r, rfl, _⟩ := h.leaf.2.head
  simp [Blk.text]

theorem blockMapNodes_data (p : Nat) (es : List Entry) :
    (blockMapNodes p es).map (fun e => (e.1.yaml, e.2.yaml)) = es.map (fun e => (e.keyData, e.valData)) := by
  induction es generalizing p with
  | nil => rfl
  | cons t ts ih => rw [blockMapNodes, List.map_cons, List.map_cons, ih]; rfl

theorem blockMapNodes_keys (p : Nat) (es : List Entry) :
    ((blockMapNodes p es).map Prod.fst).map Node.yaml = es.map Entry.keyData := by
  induction es generalizing p with
  | nil => rfl
  | cons t ts ih => simp only [blockMapNodes, List.map_cons, ih, Node.yaml]

theorem ents_of : ∀ (es : List Entry), es ≠ [] → (∀ e ∈ es, Writes e.key e.keyData ∧ Writes e.val e.valData) →
    ∃ ts : Ents, ts.ok 0 ∧ ts.sp = b!" " ∧ ts.T ++ 0x3A :: (ts.sp ++ ts.body 0) ++ b!"\n" = blockMap es ∧
      (∀ p e, ts.pairs 0 (.mk p [] ts.y) (p + ts.T.length + 2) e = blockMapNodes p es) ∧ ts.still ∧ AfterLines ts.kind b!"\n" ∧
      ts.keys = es.map Entry.keyData
  | [], h, _ => absurd rfl h
  | [t], _, h => by
    obtain ⟨hk, κ, hκ⟩ := h t (by simp)
    have hl : LeafIs κ t.val (fun _ _ => t.valData) .none := .inl ⟨_, hκ, rfl, rfl⟩
    refine ⟨.one t.key t.keyData b!" " (.leaf [] t.val κ (fun _ _ => t.valData) .none), ?_, rfl,
      by simp [blockMap, Ents.sp, Ents.T, Ents.body, Blk.text], fun p e => ?_, by simp [Ents.still, Blk.still], ?_, rfl⟩
    · simp only [Ents.ok, Blk.okV]; exact ⟨hk, .inl (sep_space _), .inl ⟨trivial, .inl hl⟩⟩
    · simp [Ents.pairs, blockMapNodes, Blk.data, Ents.y, Ents.T, Blk.off, Blk.tag]
    · simp only [Ents.kind, Blk.kind]
      exact after_lf (hl.kind.imp id fun h => .inl h)
  | t :: u :: ts, _, h => by
    obtain ⟨hk, κ, hκ⟩ := h t (by simp)
    have hl : LeafIs κ t.val (fun _ _ => t.valData) .none := .inl ⟨_, hκ, rfl, rfl⟩
    obtain ⟨its, h1, h2, h3, h4, hS, h5, h6⟩ := ents_of (u :: ts) (by simp) (fun x hx => h x (by simp [hx]))
    refine ⟨.cons t.key t.keyData b!" " (.leaf [] t.val κ (fun _ _ => t.valData) .none) b!"\n" its, ?_, rfl, ?_, fun p e => ?_,
      by simp [Ents.still, Blk.still, hS], ?_, ?_⟩
    · simp only [Ents.ok, Blk.okV, Blk.kind]
      exact ⟨hk, .inl (sep_space _), ⟨.inl ⟨trivial, .inl hl⟩, leaf_ne hκ⟩, after_lf (hl.kind.imp id fun h => .inl h), h1⟩
    · have : blockMap (t :: u :: ts) = t.key ++ b!": " ++ t.val ++ b!"\n" ++ blockMap (u :: ts) := by simp [blockMap]
      rw [this, ← h3]
      simp [Ents.sp, Ents.T, Ents.body, Blk.text, spaces]
    · rw [blockMapNodes, ← h4 (p + t.key.length + 2 + t.val.length + 1) { e with anchors := e.anchors }]
      simp only [Ents.pairs, Blk.data, Blk.text, h2, List.nil_append, Ents.y, Ents.T, Blk.off, Blk.tag]
      rfl
    · simpa only [Ents.kind] using h5
    · simp only [Ents.keys, h6, List.map_cons]

theorem str_readable (p : Nat) (t s : Bytes) : Readable (.mk p t (.str s)) :=
  everywhere_mk.2 ⟨trivial, trivial⟩

/-- **C26.** A block map with one line `key: value` per entry is read as the map
that results from inserting these entries in order: this is the map
`LinkedHashMap` collects, whatever the hash seed. -/
theorem C26_block_map (es : List Entry) (hne : es ≠ [])
    (h : ∀ e ∈ es, Writes e.key e.keyData ∧ Writes e.val e.valData) (hk : KeysOK (es.map Entry.keyData)) :
    ∃ m, Reads (blockMap es) [.mk 0 [] (.map m)] ∧ ∀ c, entriesCollect c [] (blockMapNodes 0 es) = .ok m := by
  obtain ⟨ts, h1, h2, h3, h4, hS, h5, h6⟩ := ents_of es hne h
  rw [← h6] at hk
  have := C52_layout_still (s := ⟨none, .map [] 0 ts, .stop b!"\n", []⟩) ⟨by
    simp only [Blk.okN]; exact ⟨.inl trivial, trivial, h1, hk⟩,
    .inr (.inl (by simpa only [Blk.kind] using h5)), rfl⟩ ⟨hS, trivial⟩
  simp only [Stream.text, Stream.head, Blk.text, Stream.values, Blk.value, Blk.node, Blk.off, Blk.tag, Blk.data, List.nil_append, Tail.text, Tail.values,
    List.length_nil, h3] at this
  have hp := h4 0 .none
  rw [show 0 + 0 + ts.T.length + 1 + ts.sp.length = 0 + ts.T.length + 2 by rw [h2]; rfl, hp] at this
  refine ⟨_, this, fun c => ?_⟩
  have hg : GoodKeys ((blockMapNodes 0 es).map Prod.fst) := by
    rw [← hp]; exact Ents.good h1 hk 0 _ _
  exact entriesCollect_good hg _ [] (by simp) fun e he => List.mem_map_of_mem he

/-- **C26.** With pairwise different keys, the entries are exactly the lines, in order. -/
theorem C26_distinct_keys (es : List Entry) (hne : es ≠ [])
    (h : ∀ e ∈ es, Writes e.key e.keyData ∧ Writes e.val e.valData) (hs : ∀ e ∈ es, ∃ s, e.keyData = .str s)
    (hd : es.Pairwise fun e e' => e.keyData ≠ e'.keyData) :
    Reads (blockMap es) [.mk 0 [] (.map (blockMapNodes 0 es))] := by
  have hys : ∀ y ∈ es.map Entry.keyData, ∃ s, y = .str s := by
    intro y hy; obtain ⟨e, he, rfl⟩ := List.mem_map.1 hy; exact hs e he
  obtain ⟨m, hm, hc⟩ := C26_block_map es hne h (keysOK_str _ hys)
  have hstr : ∀ k ∈ (blockMapNodes 0 es).map Prod.fst, ∃ s, k.yaml = .str s := by
    intro k hk
    refine hys _ ?_
    rw [← blockMapNodes_keys 0 es]; exact List.mem_map_of_mem hk
  have hg : GoodMapKeys (blockMapNodes 0 es) [] := by
    rw [GoodMapKeys, List.append_nil]; exact goodKeys_str _ hstr
  have hpw : (blockMapNodes 0 es).Pairwise fun e e' => Node.eq? e.1 e'.1 = .ok false := by
    have hd2 : (blockMapNodes 0 es).Pairwise fun e e' => e.1.yaml ≠ e'.1.yaml := by
      have : (es.map Entry.keyData).Pairwise (· ≠ ·) := List.pairwise_map.2 hd
      rw [← blockMapNodes_keys 0 es] at this
      rw [List.map_map, List.pairwise_map] at this; exact this
    refine hd2.imp_of_mem ?_
    rintro ⟨⟨p, t, y⟩, v⟩ ⟨⟨p', t', y'⟩, v'⟩ he he' hne
    obtain ⟨s, hs⟩ := hstr _ (List.mem_map_of_mem he)
    obtain ⟨s', hs'⟩ := hstr _ (List.mem_map_of_mem he')
    simp only [Node.yaml] at hs hs' hne
    subst hs hs'
    rw [eq?_ok _ (str_readable _ _ _) _ (str_readable _ _ _)]
    simp only [Node.eqb, Yaml.eqb]
    have : s ≠ s' := fun e => hne (by rw [e])
    simp [this]
  have := hc .exact
  rw [C34_order .exact _ hg hpw] at this
  cases this
  exact hm

/-- **C26.** For equal keys the last value wins: looking up a string key gives the
value of the last line with this key. -/
theorem C26_last_value_wins (es : List Entry) (hne : es ≠ [])
    (h : ∀ e ∈ es, Writes e.key e.keyData ∧ Writes e.val e.valData) (hs : ∀ e ∈ es, ∃ s, e.keyData = .str s)
    (c : HashCfg) (q : Bytes) (qp : Nat) :
    ∃ m, Reads (blockMap es) [.mk 0 [] (.map m)] ∧
      ∀ v, entriesGet c (.mk qp [] (.str q)) m = .ok (some v) ↔
        ∃ l1 k l2, blockMapNodes 0 es = l1 ++ (k, v) :: l2 ∧ k.yaml = .str q ∧ ∀ e ∈ l2, e.1.yaml ≠ .str q := by
  have hys : ∀ y ∈ es.map Entry.keyData, ∃ s, y = .str s := by
    intro y hy; obtain ⟨e, he, rfl⟩ := List.mem_map.1 hy; exact hs e he
  obtain ⟨m, hm, hc⟩ := C26_block_map es hne h (keysOK_str _ hys)
  have hstr : ∀ k ∈ (blockMapNodes 0 es).map Prod.fst, ∃ s, k.yaml = .str s := by
    intro k hk
    refine hys _ ?_
    rw [← blockMapNodes_keys 0 es]; exact List.mem_map_of_mem hk
  have hg : GoodMapKeys (blockMapNodes 0 es) [.mk qp [] (.str q)] := by
    rw [GoodMapKeys]
    refine goodKeys_str _ fun k hk => ?_
    simp only [List.mem_append, List.mem_singleton] at hk
    rcases hk with hk | rfl
    · exact hstr k hk
    · exact ⟨q, rfl⟩
  obtain ⟨m', hm', hlast⟩ := C34_last_value_wins c (blockMapNodes 0 es) (.mk qp [] (.str q)) hg
  rw [hc c] at hm'; cases hm'
  refine ⟨m, hm, fun v => ?_⟩
  rw [hlast v]
  have key : ∀ e ∈ blockMapNodes 0 es, ∀ b, Node.eq? (.mk qp [] (.str q)) e.1 = .ok b ↔ (b = true ↔ e.1.yaml = .str q) := by
    rintro ⟨⟨p, t, y⟩, v⟩ he b
    obtain ⟨s, hs⟩ := hstr _ (List.mem_map_of_mem he)
    simp only [Node.yaml] at hs
    subst hs
    rw [eq?_ok _ (str_readable _ _ _) _ (str_readable _ _ _)]
    simp only [Node.eqb, Yaml.eqb, Out.ok.injEq, Node.yaml, Yaml.str.injEq]
    by_cases h : q = s
    · subst h; cases b <;> simp
    · have h' : ¬ s = q := fun e => h e.symm
      cases b <;> simp [h, h']
  constructor
  · rintro ⟨l1, k, l2, he, h1, h2⟩
    refine ⟨l1, k, l2, he, ?_, fun e hm => ?_⟩
    · have := (key (k, v) (by rw [he]; simp) true).1 h1; simpa using this
    · have := (key e (by rw [he]; simp [hm]) false).1 (h2 e hm); simpa using this
  · rintro ⟨l1, k, l2, he, h1, h2⟩
    refine ⟨l1, k, l2, he, ?_, fun e hm => ?_⟩
    · exact (key (k, v) (by rw [he]; simp) true).2 (by simpa using h1)
    · exact (key e (by rw [he]; simp [hm]) false).2 (by simpa using h2 e hm)

example : Reads b!"a: x\nb: y\n" [.mk 0 [] (.map [(.mk 0 [] (.str b!"a"), .mk 3 [] (.str b!"x")),
    (.mk 5 [] (.str b!"b"), .mk 8 [] (.str b!"y"))])] := by
  refine C26_distinct_keys [⟨b!"a", .str b!"a", b!"x", .str b!"x"⟩, ⟨b!"b", .str b!"b", b!"y", .str b!"y"⟩] (by simp) ?_
    (by simp) (by simp)
  simp only [List.mem_cons, List.not_mem_nil, or_false]
  rintro t (rfl | rfl) <;> exact ⟨writes_word (by decide) (by decide), writes_word (by decide) (by decide)⟩

/-! ## C24: flow collections -/

/-- **C24.** Every flow collection (nested sequences and maps of scalars, any
white space behind the opening bracket, behind commas and in front of the closing
bracket, in sequences also in front of commas, an optional comma at the end, tags
in front of the items and values) is read as the tree it depicts.  For anchors and aliases
inside flow collections see `C52_layout` and `C14_flow_define_then_use`. -/
theorem C24_flow (f : Flow) (hf : f.ok []) (hs : f.still) (ha : f.isAtom = false) (E : Bytes) (hE : Rest E) :
    Reads (f.text ++ E) [.mk 0 [] (f.value 0)] := by
  obtain ⟨h1, h2⟩ := LeafIs.noMark (.inr (.inl ⟨f, hf, ha, rfl, rfl, rfl, rfl⟩))
  exact reads_leafE (Flow.leaf (Flow.ok_wf f [] hf) ha) (Flow.still_spec f hs) h1 h2 hE.last.2 hE.last.1

/-- A flow sequence `[a, b, c]`. -/
def flowSeqTail : List (Bytes × Yaml) → Bytes
  | [] => b!"]"
  | [t] => t.1 ++ b!"]"
  | t :: u :: ts => t.1 ++ b!", " ++ flowSeqTail (u :: ts)

def flowSeq (ts : List (Bytes × Yaml)) : Bytes := b!"[" ++ flowSeqTail ts

/-- Its items, the first at position `p`. -/
def flowSeqNodes : Nat → List (Bytes × Yaml) → List Node
  | _, [] => []
  | p, t :: ts => .mk p [] t.2 :: flowSeqNodes (p + t.1.length + 2) ts

theorem flowSeqNodes_data (p : Nat) (ts : List (Bytes × Yaml)) :
    (flowSeqNodes p ts).map Node.yaml = ts.map Prod.snd := by
  induction ts generalizing p with
  | nil => rfl
  | cons t ts ih => simp only [flowSeqNodes, List.map_cons, ih, Node.yaml]

theorem FlowText.is {T : Bytes} {y : Yaml} (h : FlowText T y) : AtomIs T (fun _ => y) (fun _ => True) [] := by
  obtain ⟨κ, hκ⟩ := h.1
  exact .inl ⟨κ, y, h, hκ, Behind.nil κ, rfl, rfl⟩

theorem fitems_of : ∀ (ts : List (Bytes × Yaml)), (∀ t ∈ ts, FlowText t.1 t.2) →
    ∃ its : FItems, its.ok ∧ its.still ∧ its.text = flowSeqTail ts ∧ ∀ p e, its.nodes p e = flowSeqNodes p ts
  | [], _ => ⟨.nil, by simp [FItems.ok], by simp [FItems.still], by simp [FItems.text, flowSeqTail],
      by simp [FItems.nodes, flowSeqNodes]⟩
  | [t], h => ⟨.last (.one t.1 t.2) [], by simp only [FItems.ok, Flow.ok]; exact FlowText.is (h t (by simp)),
      by simp [FItems.still, Flow.still], by simp [FItems.text, flowSeqTail, Flow.text],
      by simp [FItems.nodes, flowSeqNodes, Flow.data, Flow.off, Flow.tag]⟩
  | t :: u :: ts, h => by
    obtain ⟨its, h1, h0, h2, h3⟩ := fitems_of (u :: ts) fun x hx => h x (by simp [hx])
    refine ⟨.cons (.one t.1 t.2) [] b!" " its, ?_, ?_, ?_, fun p e => ?_⟩
    · simp only [FItems.ok, Flow.ok]; exact ⟨FlowText.is (h t (by simp)), by simp [AllWs]; decide, h1⟩
    · simpa [FItems.still, Flow.still] using h0
    · simp [FItems.text, Flow.text, flowSeqTail, h2]
    · simp only [FItems.nodes, Flow.data, flowSeqNodes, Flow.text, h3]; rfl

/-- **C24.** A flow sequence of `n` scalars is read as the sequence of these `n`
scalars, in order, each at its position. -/
theorem C24_flow_sequence (ts : List (Bytes × Yaml)) (h : ∀ t ∈ ts, FlowText t.1 t.2) (E : Bytes) (hE : Rest E) :
    Reads (flowSeq ts ++ E) [.mk 0 [] (.seq (flowSeqNodes 1 ts))] := by
  obtain ⟨its, h1, h0, h2, h3⟩ := fitems_of ts h
  have := C24_flow (.seq [] its) (by simp only [Flow.ok]; exact ⟨AllWs.nil, h1, AllWs.nil⟩)
    (by simp only [Flow.still]; exact h0) rfl E hE
  simpa [Flow.text, Flow.value, Flow.data, h2, h3, flowSeq] using this

/-- **C24.** As many items as were written, with these values. -/
theorem C24_length_and_order (ts : List (Bytes × Yaml)) (h : ∀ t ∈ ts, FlowText t.1 t.2) :
    ∃ ns, Reads (flowSeq ts) [.mk 0 [] (.seq ns)] ∧ ns.length = ts.length ∧ ns.map Node.yaml = ts.map Prod.snd := by
  refine ⟨_, by simpa using C24_flow_sequence ts h [] ⟨.inl rfl⟩, ?_, flowSeqNodes_data 1 ts⟩
  simpa using congrArg List.length (flowSeqNodes_data 1 ts)

theorem flow_word {w : Bytes} (h : isWord w = true) (hk : ∀ kv ∈ keywords, kv.1 ≠ w) (hc : ∀ c ∈ w, c ∉ b!"[]{},") :
    FlowText w (.str w) := ⟨⟨_, word h hk⟩, .inr hc⟩

example : Reads b!"[a, true, b]" [.mk 0 [] (.seq [.mk 1 [] (.str b!"a"), .mk 4 [] (.bool true), .mk 10 [] (.str b!"b")])] :=
  C24_flow_sequence [(b!"a", .str b!"a"), (b!"true", .bool true), (b!"b", .str b!"b")] (by
    simp only [List.mem_cons, List.not_mem_nil, or_false]
    rintro t (rfl | rfl | rfl)
    · exact flow_word (by decide) (by decide) (by decide)
    · exact ⟨⟨_, .keyword (by simp [keywords])⟩, .inr (by decide)⟩
    · exact flow_word (by decide) (by decide) (by decide)) [] ⟨.inl rfl⟩

/-! ## C23: block scalars -/

/-- A map with one key, whose value is a block scalar. -/
theorem blockScalar_doc {K : Bytes} {y : Yaml} (hK : Writes K y) {T s : Bytes} (hT : LitIs 2 T s)
    (hk : KeysOK [y]) :
    Reads (K ++ b!": " ++ T ++ b!"\n") [.mk 0 [] (.map [(.mk 0 [] y, .mk (K.length + 2) [] (.str s))])] := by
  have := C52_layout_still (s := ⟨none, .map [] 0 (.one K y b!" " (.lit T 2 s)), .stop b!"\n", []⟩) ⟨by
    simp only [Blk.okN, Ents.ok, Blk.okV, Ents.keys]
    exact ⟨.inl trivial, trivial, ⟨hK, .inl (sep_space _), trivial, hT⟩, hk⟩,
    .inr (.inl (by simp only [Blk.kind, Ents.kind]; exact after_lf (by simp))), rfl⟩ ⟨by simp [Blk.still, Ents.still], trivial⟩
  simpa [Stream.text, Stream.head, Blk.text, Stream.values, Blk.value, Blk.node, Blk.off, Blk.tag, Blk.data, Tail.text, Tail.values, Ents.body, Ents.pairs,
    Ents.T, Ents.y, Ents.sp, mapOf, insertSpec, Nat.add_assoc] using this

/-- **C23.** A literal block (`|`, `|-`, `|+`) keeps every line, blanks at the
beginning of a line and empty lines included; it ends with one line feed, or none
with `|-`. -/
theorem C23_literal (k : Bytes) (hk : Writes k (.str k)) (ls : List Bytes) (hls : BlockScalar ls) (c : Chomp) :
    Reads (k ++ b!": |" ++ c.mark ++ blockLines 2 ls ++ b!"\n")
      [.mk 0 [] (.map [(.mk 0 [] (.str k), .mk (k.length + 2) [] (.str (literalValue ls ++ c.ends)))])] := by
  have := blockScalar_doc hk (T := 0x7C :: (c.mark ++ blockLines 2 ls)) ⟨c, ls, by decide, hls, .inl ⟨rfl, rfl⟩⟩
    (keysOK_str _ (by simp))
  simpa using this

/-- **C23.** A folded block (`>`, `>-`, `>+`) joins its lines by blanks; empty
lines turn into line feeds. -/
theorem C23_folded (k : Bytes) (hk : Writes k (.str k)) (ls : List Bytes) (hls : BlockScalar ls) (hf : FoldedLines ls)
    (c : Chomp) :
    Reads (k ++ b!": >" ++ c.mark ++ blockLines 2 ls ++ b!"\n")
      [.mk 0 [] (.map [(.mk 0 [] (.str k), .mk (k.length + 2) [] (.str (foldedValue ls ++ c.ends)))])] := by
  have := blockScalar_doc hk (T := 0x3E :: (c.mark ++ blockLines 2 ls)) ⟨c, ls, by decide, hls, .inr ⟨hf, rfl, rfl⟩⟩
    (keysOK_str _ (by simp))
  simpa using this

/-- The specification functions on an example: four lines, one of them empty. -/
example : blockLines 2 [b!"if", b!"  x", [], b!"fi"] = b!"\n  if\n    x\n\n  fi" ∧
    literalValue [b!"if", b!"  x", [], b!"fi"] = b!"if\n  x\n\nfi" ∧
    foldedValue [b!"if", b!"x", [], [], b!"fi"] = b!"if x\n\nfi" := by decide

example : BlockScalar [b!"if", b!"  x", [], b!"fi"] where
  first := ⟨b!"if", _, rfl, by simp⟩
  last := ⟨b!"fi", rfl, by simp, by decide⟩
  lines := by
    simp only [List.mem_cons, List.not_mem_nil, or_false]
    rintro l (rfl | rfl | rfl | rfl) hl
    · exact ⟨utf8_ascii (by decide), by decide, ⟨0x66, by simp, by decide⟩⟩
    · exact ⟨utf8_ascii (by decide), by decide, ⟨0x78, by simp, by decide⟩⟩
    · simp at hl
    · exact ⟨utf8_ascii (by decide), by decide, ⟨0x66, by simp, by decide⟩⟩

/-- **C23, counterexample.** An empty line in front of the first line of a literal
block gives two line feeds. -/
theorem C23_counterexample_leading_empty_line : Ends (fun n => parse .exact n b!"a: |\n\n  x\n")
    (.ok [.mk 0 [] (.map [(.mk 0 [] (.str b!"a"), .mk 3 [] (.str b!"\n\nx\n"))])]) :=
  parse_returns_of (n := 30) (by decide +kernel) (by simp)

/-- **C23, counterexample.** Without a line break behind its last line, a literal
block is no literal block: the header is part of the string. -/
theorem C23_counterexample_no_final_newline : Ends (fun n => parse .exact n b!"a: |\n  x")
    (.ok [.mk 0 [] (.map [(.mk 0 [] (.str b!"a"), .mk 3 [] (.str b!"| x"))])]) :=
  parse_returns_of (n := 30) (by decide +kernel) (by simp)

/-! ## C29: streams -/

/-- A document of a stream: what is between its `---` and its text, the text (one
line), and the data. -/
structure MarkedDoc where
  gap : Bytes
  text : Bytes
  data : Yaml

/-- The text is on the line after the `---`, or behind blanks on the same line. -/
def MarkedDoc.ok (d : MarkedDoc) : Prop :=
  Writes d.text d.data ∧ (d.gap = b!"\n" ∨ ∃ bl, (∀ x ∈ bl, isBlank x = true) ∧ d.gap = 0x20 :: bl)

/-- The node of a document on the line of its `---` begins with the text, any other
right behind the `---`. -/
def MarkedDoc.pos (d : MarkedDoc) : Nat := if d.gap = b!"\n" then 3 else 3 + d.gap.length

/-- Further documents, each behind `---`. -/
def moreDocs : List MarkedDoc → Bytes
  | [] => b!"\n"
  | d :: ds => b!"\n---" ++ d.gap ++ d.text ++ moreDocs ds

/-- Their nodes, `p` the end of the document in front. -/
def moreDocNodes : Nat → List MarkedDoc → List Node
  | _, [] => []
  | p, d :: ds => .mk (p + 1 + d.pos) [] d.data :: moreDocNodes (p + 4 + d.gap.length + d.text.length) ds

theorem moreDocNodes_data (p : Nat) (ds : List MarkedDoc) :
    (moreDocNodes p ds).map Node.yaml = ds.map MarkedDoc.data := by
  induction ds generalizing p with
  | nil => rfl
  | cons t ts ih => simp only [moreDocNodes, List.map_cons, ih, Node.yaml]

/-- Blanks and line break, as the parser sees them. -/
theorem MarkedDoc.split {d : MarkedDoc} (h : d.ok) : ∃ sp lead, d.gap = sp ++ lead ∧ SepIs sp lead ∧
    (lead = [] ∨ LeadLines 0 lead) ∧ 3 + sp.length = d.pos := by
  rcases h.2 with h | ⟨bl, hb, h⟩
  · exact ⟨[], b!"\n", h, sep_lf [], .inr (lead_lf 0), by rw [MarkedDoc.pos, if_pos h]; rfl⟩
  · refine ⟨0x20 :: bl, [], by simp [h], ⟨by simp; exact ⟨by decide, hb⟩, .inl ⟨bl, rfl⟩⟩, .inl rfl, ?_⟩
    rw [MarkedDoc.pos, if_neg (by rw [h]; simp), h]

theorem tail_of : ∀ (ts : List MarkedDoc) (κ : EndKind) (c : Prop), c → (κ = .loose ∨ κ = .strict ∨ (∃ τ, κ = .lit τ) ∨ κ = .empty) →
    (∀ t ∈ ts, t.ok) →
    ∃ tl : Tail, tl.ok κ c ∧ tl.text = moreDocs ts ∧ tl.still ∧ ∀ p, tl.values p = moreDocNodes p ts
  | [], κ, c, hc, hκ, _ => ⟨.stop b!"\n", .inr (.inl (after_lf hκ)), rfl, trivial, fun _ => rfl⟩
  | t :: ts, κ, c, hc, hκ, h => by
    have ht := h t (by simp)
    obtain ⟨κ', hk'⟩ := ht.1
    obtain ⟨sp, lead, hg, hs, hlead, hpos⟩ := MarkedDoc.split ht
    have hl : LeafIs κ' t.text (fun _ _ => t.data) .none := .inl ⟨_, hk', rfl, rfl⟩
    obtain ⟨tl, h1, h2, hS, h3⟩ := tail_of ts κ' (Blk.leaf lead t.text κ' (fun _ _ => t.data) .none).calm
      (by simp [Blk.calm]) (hl.kind.imp id fun h => .inl h) fun x hx => h x (by simp [hx])
    refine ⟨.next b!"\n" sp (.leaf lead t.text κ' (fun _ _ => t.data) .none) tl, ?_, ?_, ⟨by simp [Blk.still], hS⟩, fun p => ?_⟩
    · simp only [Tail.ok, Blk.lead, Blk.okN, Blk.kind]
      refine ⟨.inl (after_lf hκ), hs, .inl ⟨hlead.imp (by rintro rfl; trivial) id, .inl hl⟩, .inr ⟨?_, hc⟩, h1⟩
      simp only [Blk.short]
      rintro w rfl
      rcases hl.kind with h | h <;> simp at h
    · simp [Tail.text, moreDocs, Blk.text, h2, hg]
    · simp only [Tail.values, moreDocNodes, Blk.value, Blk.node, Blk.off, Blk.tag, Blk.data, Blk.text, h3]
      rw [← hpos, hg]
      congr 2
      · simp; omega
      · simp; omega

/-- **C29.** Documents separated by `---`, their text on the line of the marker or on
the line after it, are read as exactly these documents, in order. -/
theorem C29_documents (t : Bytes × Yaml) (ts : List MarkedDoc) (h0 : Writes t.1 t.2) (h : ∀ x ∈ ts, x.ok) :
    Reads (t.1 ++ moreDocs ts) (.mk 0 [] t.2 :: moreDocNodes t.1.length ts) := by
  obtain ⟨κ, hκ⟩ := h0
  have hl : LeafIs κ t.1 (fun _ _ => t.2) .none := .inl ⟨_, hκ, rfl, rfl⟩
  obtain ⟨tl, h1, h2, hS, h3⟩ := tail_of ts κ (Blk.leaf [] t.1 κ (fun _ _ => t.2) .none).calm
    (by simp [Blk.calm]) (hl.kind.imp id fun h => .inl h) h
  have := C52_layout_still (s := ⟨none, .leaf [] t.1 κ (fun _ _ => t.2) .none, tl, []⟩)
    ⟨by simp only [Blk.okN]; exact .inl ⟨.inl trivial, .inl hl⟩, h1, rfl⟩ ⟨by simp [Blk.still], hS⟩
  simpa [Stream.text, Stream.head, Stream.values, Blk.value, Blk.node, Blk.off, Blk.tag, Blk.text, Blk.data, h2, h3] using this

/-- **C29.** The same, the first document behind a marker, too. -/
theorem C29_marked (t : MarkedDoc) (ts : List MarkedDoc) (h : ∀ x ∈ t :: ts, x.ok) :
    Reads (b!"---" ++ t.gap ++ t.text ++ moreDocs ts)
      (.mk t.pos [] t.data :: moreDocNodes (3 + t.gap.length + t.text.length) ts) := by
  have ht := h t (by simp)
  obtain ⟨κ, hκ⟩ := ht.1
  obtain ⟨sp, lead, hg, hs, hlead, hpos⟩ := MarkedDoc.split ht
  have hl : LeafIs κ t.text (fun _ _ => t.data) .none := .inl ⟨_, hκ, rfl, rfl⟩
  obtain ⟨tl, h1, h2, hS, h3⟩ := tail_of ts κ (Blk.leaf lead t.text κ (fun _ _ => t.data) .none).calm
    (by simp [Blk.calm]) (hl.kind.imp id fun h => .inl h) fun x hx => h x (by simp [hx])
  have := C52_layout_still (s := ⟨some ([], sp), .leaf lead t.text κ (fun _ _ => t.data) .none, tl, []⟩)
    ⟨by simp only [Blk.okN]; exact .inl ⟨hlead.imp (by rintro rfl; trivial) id, .inl hl⟩, h1,
      by simp, by simp, .inl rfl, hs⟩ ⟨by simp [Blk.still], hS⟩
  rw [← hpos, hg]
  have e : 3 + (sp ++ lead).length + t.text.length = sp.length + 1 + 1 + 1 + (lead.length + t.text.length) := by simp; omega
  rw [e, Nat.add_comm 3]
  simpa [Stream.text, Stream.head, Stream.values, Blk.value, Blk.node, Blk.off, Blk.tag, Blk.text, Blk.data, h2, h3, dirsText] using this

/-- **C29.** As many nodes as documents, in order. -/
theorem C29_count (t : Bytes × Yaml) (ts : List MarkedDoc) (h0 : Writes t.1 t.2) (h : ∀ x ∈ ts, x.ok) :
    ∃ ns, Reads (t.1 ++ moreDocs ts) ns ∧ ns.length = ts.length + 1 ∧ ns.map Node.yaml = t.2 :: ts.map MarkedDoc.data := by
  refine ⟨_, C29_documents t ts h0 h, ?_, ?_⟩
  · simpa using congrArg List.length (moreDocNodes_data t.1.length ts)
  · simp only [List.map_cons, moreDocNodes_data, Node.yaml]

theorem someDocs_ok : ∀ d ∈ [MarkedDoc.mk b!"\n" b!"'two'" (.str b!"two"), ⟨b!" ", b!"three", .str b!"three"⟩,
    ⟨b!" \t", b!"4", .int b!"4"⟩], d.ok := by
  simp only [List.mem_cons, List.not_mem_nil, or_false]
  rintro t (rfl | rfl | rfl)
  · exact ⟨⟨_, .single (s := b!"two") (utf8_ascii (by decide)) (by decide)⟩, .inl rfl⟩
  · exact ⟨writes_word (by decide) (by decide), .inr ⟨[], by simp, rfl⟩⟩
  · exact ⟨⟨_, .int (sg := []) (d := b!"4") (.inl rfl) ⟨by simp, by decide⟩⟩, .inr ⟨b!"\t", by simp; decide, rfl⟩⟩

example : Reads b!"one\n---\n'two'\n--- three\n--- \t4\n" [.mk 0 [] (.str b!"one"), .mk 7 [] (.str b!"two"),
    .mk 18 [] (.str b!"three"), .mk 29 [] (.int b!"4")] :=
  C29_documents (b!"one", .str b!"one") _ (writes_word (by decide) (by decide)) someDocs_ok

example : Reads b!"---\n'two'\n--- three\n--- \t4\n" [.mk 3 [] (.str b!"two"),
    .mk 14 [] (.str b!"three"), .mk 25 [] (.int b!"4")] := C29_marked _ _ someDocs_ok

/-- **C29, counterexample.** An empty document between two markers swallows the
marker: it is read as the string `---`. -/
theorem C29_counterexample_empty_document : Ends (fun n => parse .exact n b!"---\n---\n")
    (.ok [.mk 3 [] (.str b!"---")]) :=
  parse_returns_of (n := 30) (by decide +kernel) (by simp)

/-! ## C27: a key without a value -/

/-- Maps with different string keys are built as they are written. -/
theorem mapOf_distinct {l : List (Node × Node)} (hs : ∀ k ∈ l.map Prod.fst, ∃ s, k.yaml = .str s)
    (hd : l.Pairwise fun e e' => e.1.yaml ≠ e'.1.yaml) : mapOf l = l := by
  have hg : GoodMapKeys l [] := by
    rw [GoodMapKeys, List.append_nil]; exact goodKeys_str _ hs
  have hpw : l.Pairwise fun e e' => Node.eq? e.1 e'.1 = .ok false := by
    refine hd.imp_of_mem ?_
    rintro ⟨⟨p, t, y⟩, v⟩ ⟨⟨p', t', y'⟩, v'⟩ he he' hne
    obtain ⟨s, hs1⟩ := hs _ (List.mem_map_of_mem he)
    obtain ⟨s', hs'⟩ := hs _ (List.mem_map_of_mem he')
    simp only [Node.yaml] at hs1 hs' hne
    subst hs1 hs'
    rw [eq?_ok _ (str_readable _ _ _) _ (str_readable _ _ _)]
    simp only [Node.eqb, Yaml.eqb]
    have : s ≠ s' := fun e => hne (by rw [e])
    simp [this]
  have h1 := C34_order .exact l hg hpw
  rw [entriesCollect_good hg l [] (by simp) (fun e he => List.mem_append_left _ (List.mem_map_of_mem he))] at h1
  simpa [mapOf] using h1

theorem blockMapNodes_distinct {p : Nat} {es : List Entry} (hs : ∀ e ∈ es, ∃ s, e.keyData = .str s)
    (hd : es.Pairwise fun e e' => e.keyData ≠ e'.keyData) :
    (∀ k ∈ (blockMapNodes p es).map Prod.fst, ∃ s, k.yaml = .str s) ∧
      (blockMapNodes p es).Pairwise fun e e' => e.1.yaml ≠ e'.1.yaml := by
  refine ⟨fun k hk => ?_, ?_⟩
  · have : k.yaml ∈ es.map Entry.keyData := by
      rw [← blockMapNodes_keys p es]; exact List.mem_map_of_mem hk
    obtain ⟨e, he, h⟩ := List.mem_map.1 this
    obtain ⟨s, hs⟩ := hs e he
    exact ⟨s, by rw [← h, hs]⟩
  · have : (es.map Entry.keyData).Pairwise (· ≠ ·) := List.pairwise_map.2 hd
    rw [← blockMapNodes_keys p es] at this
    rw [List.map_map, List.pairwise_map] at this; exact this

theorem key_head {κ : EndKind} {T : Bytes} {y : Yaml} (h : ScalarText κ T y) {c : UInt8} {r : Bytes} (hT : T = c :: r) : c ≠ 0x25 := by
  rintro rfl
  exact (LeafIs.noMark (.inl ⟨_, h, rfl, rfl⟩)).2 r hT

/-- Entries in front of others. -/
theorem ents_onto (t : Ents) (ht : t.wf 0) (hS : t.still) {c : UInt8} {r : Bytes} (hT : t.T = c :: r) (hc : tokHead c = true ∧ c ≠ 0x25) :
    ∀ (es : List Entry), (∀ e ∈ es, Writes e.key e.keyData ∧ Writes e.val e.valData) →
    ∃ ts : Ents, ts.wf 0 ∧ ts.T ++ 0x3A :: (ts.sp ++ ts.body 0) = blockMap es ++ (t.T ++ 0x3A :: (t.sp ++ t.body 0)) ∧
      (∀ p e, ts.pairs 0 (.mk p [] ts.y) (p + ts.T.length + 1 + ts.sp.length) e = blockMapNodes p es ++
        t.pairs 0 (.mk (p + (blockMap es).length) [] t.y) (p + (blockMap es).length + t.T.length + 1 + t.sp.length) e) ∧
      ts.still ∧ ts.kind = t.kind ∧ ∃ c r, ts.T = c :: r ∧ tokHead c = true ∧ c ≠ 0x25
  | [], _ => ⟨t, ht, by simp [blockMap], fun p e => by simp [blockMap, blockMapNodes], hS, rfl, c, r, hT, hc⟩
  | x :: es, h => by
    obtain ⟨⟨κ', hk⟩, κ, hκ⟩ := h x (by simp)
    have hl : LeafIs κ x.val (fun _ _ => x.valData) .none := .inl ⟨_, hκ, rfl, rfl⟩
    obtain ⟨ts, h1, h2, h3, h4, h5, c', r', h6, h7⟩ := ents_onto t ht hS hT hc es (fun y hy => h y (by simp [hy]))
    have hV : (Blk.leaf [] x.val κ (fun _ _ => x.valData) .none).okV 0 := by
      simp only [Blk.okV]; exact .inl ⟨trivial, .inl hl⟩
    have hA : AfterLines κ b!"\n" := after_lf (hl.kind.imp id fun h => .inl h)
    refine ⟨.cons x.key x.keyData b!" " (.leaf [] x.val κ (fun _ _ => x.valData) .none) b!"\n" ts, ?_, ?_, fun p e => ?_, ?_, ?_, ?_⟩
    · simp only [Ents.wf]
      refine ⟨hk.key, (Blk.sepIs.of (.inl (sep_space _)) (Blk.okV_notBlank hV) (Blk.okV_empty hV)),
        ⟨Blk.okV_wf _ _ hV, Blk.okV_deep _ _ hV (leaf_ne hκ)⟩, hA.gap, fun q => ?_, h1⟩
      simp only [Blk.kind]
      refine hA.fits (Blk.okV_kind _ 0 hV) (.inr ⟨c', r' ++ q, ?_, h7.1⟩)
      rw [h6]; rfl
    · have : blockMap (x :: es) = x.key ++ b!": " ++ x.val ++ b!"\n" ++ blockMap es := by simp [blockMap]
      rw [this, List.append_assoc, ← h2]
      change x.key ++ 0x3A :: (b!" " ++ Ents.body 0 _) = _
      simp [Ents.body, Blk.text, spaces]
    · have hb : (blockMap (x :: es)).length = x.key.length + 2 + x.val.length + 1 + (blockMap es).length := by
        simp [blockMap]; omega
      change Ents.pairs 0 _ (.mk p [] x.keyData) (p + x.key.length + 1 + (b!" " : Bytes).length) e = _
      simp only [Ents.pairs, Blk.text, List.nil_append, Blk.data, Blk.off, Blk.tag, Blk.eff]
      have := h3 (p + x.key.length + 2 + x.val.length + 1) e
      rw [blockMapNodes, List.cons_append, hb]
      have e1 : p + x.key.length + 1 + (b!" " : Bytes).length + x.val.length + (b!"\n" : Bytes).length + 0 =
          p + x.key.length + 2 + x.val.length + 1 := by simp
      have e2 : p + (x.key.length + 2 + x.val.length + 1 + (blockMap es).length) =
        p + x.key.length + 2 + x.val.length + 1 + (blockMap es).length := by omega
      rw [e1, e2, ← this]
      simp
    · simp only [Ents.still, Blk.still]; exact ⟨⟨by simp, by simp⟩, h4⟩
    · simp only [Ents.kind, h5]
    · obtain ⟨q, s, hq, hc', _⟩ := hk.leaf.2.head
      exact ⟨q, s, hq, hc', key_head hk hq⟩

/-- **C27, refutation.** For all keys and values: a key without a value takes *all* the
entries below it, although they are not indented, as its value.  (`pre`: the entries above.) -/
theorem C27_takes_siblings (pre post : List Entry) (hne : post ≠ []) (K k : Bytes) (hK : Writes K (.str k))
    (h : ∀ e ∈ pre ++ post, Writes e.key e.keyData ∧ Writes e.val e.valData)
    (hs : ∀ e ∈ pre ++ post, ∃ s, e.keyData = .str s)
    (hd : pre.Pairwise fun e e' => e.keyData ≠ e'.keyData) (hdk : ∀ e ∈ pre, e.keyData ≠ .str k)
    (hd' : post.Pairwise fun e e' => e.keyData ≠ e'.keyData) :
    Reads (blockMap pre ++ K ++ b!":\n" ++ blockMap post) [.mk 0 [] (.map (blockMapNodes 0 pre ++
      [(.mk (blockMap pre).length [] (.str k), .mk ((blockMap pre).length + K.length + 1) []
        (.map (blockMapNodes ((blockMap pre).length + K.length + 2) post)))]))] := by
  obtain ⟨ts, h1, h2, h3, h4, hS, h5, h6⟩ := ents_of post hne fun e he => h e (by simp [he])
  obtain ⟨κ, hκ⟩ := hK
  have hlead : LeadLines 0 b!"\n" := lead_lf 0
  have hkeys : KeysOK ts.keys := by
    rw [h6]
    refine keysOK_str _ fun y hy => ?_
    obtain ⟨e, he, rfl⟩ := List.mem_map.1 hy; exact hs e (by simp [he])
  have hone : (Ents.one K (.str k) [] (.map b!"\n" 0 ts)).wf 0 := by
    simp only [Ents.wf, Blk.wfV]
    exact ⟨hκ.key, .inl (sepOK (sep_lf []) ⟨0x0A, _, rfl, by decide⟩), hlead.lead, Nat.le_refl 0, Ents.ok_wf ts 0 h1,
      Ents.good h1 hkeys⟩
  obtain ⟨q, s, hq, hc, _⟩ := hκ.leaf.2.head
  obtain ⟨es, g1, g2, g3, g4, g5, c, r, g6, g7⟩ := ents_onto (.one K (.str k) [] (.map b!"\n" 0 ts)) hone (by
    simp only [Ents.still, Blk.still]; exact hS) hq ⟨hc, key_head hκ hq⟩ pre (fun e he => h e (by simp [he]))
  have hA : AfterLines (Ents.one K (.str k) [] (.map b!"\n" 0 ts)).kind b!"\n" := by
    simpa only [Ents.kind, Blk.kind] using h5
  have hp : ∀ p e, es.pairs 0 (.mk p [] es.y) (p + es.T.length + 1 + es.sp.length) e = blockMapNodes p pre ++
      [(.mk (p + (blockMap pre).length) [] (.str k), .mk (p + (blockMap pre).length + K.length + 1) []
        (.map (blockMapNodes (p + (blockMap pre).length + K.length + 2) post)))] := by
    intro p e
    rw [g3]
    have hl := blockMapNodes_distinct (p := p + (blockMap pre).length + K.length + 2) (fun e he => hs e (by simp [he])) hd'
    have := h4 (p + (blockMap pre).length + K.length + 2) e
    change _ ++ Ents.pairs 0 _ _ (p + (blockMap pre).length + K.length + 1 + 0) e = _
    simp only [Ents.pairs, Blk.data, Blk.off, Blk.tag]
    rw [h2]
    change _ ++ [(_, Node.mk (_ + 0 + 0) _ (Yaml.map (mapOf (Ents.pairs 0 ts (.mk (_ + 0 + 1) [] ts.y) (_ + 0 + 1 + ts.T.length + 1 + 1) e))))] = _
    rw [show p + (blockMap pre).length + K.length + 1 + 0 + 1 + ts.T.length + 1 + 1 =
      p + (blockMap pre).length + K.length + 2 + ts.T.length + 2 by omega,
      show p + (blockMap pre).length + K.length + 1 + 0 + 1 = p + (blockMap pre).length + K.length + 2 by omega, this,
      mapOf_distinct hl.1 hl.2]
    rfl
  have hpl := blockMapNodes_distinct (p := 0) (fun e he => hs e (by simp [he])) hd
  have hkk : (∀ n ∈ (blockMapNodes 0 pre ++ [(Node.mk (blockMap pre).length [] (.str k),
      Node.mk ((blockMap pre).length + K.length + 1) [] (.map (blockMapNodes ((blockMap pre).length + K.length + 2) post)))]).map Prod.fst,
      ∃ s, n.yaml = .str s) := by
    intro n hn
    simp only [List.map_append, List.mem_append, List.map_cons, List.map_nil, List.mem_singleton] at hn
    rcases hn with hn | rfl
    · exact hpl.1 n hn
    · exact ⟨k, rfl⟩
  have hcol : mapOf (blockMapNodes 0 pre ++ [(Node.mk (blockMap pre).length [] (.str k),
      Node.mk ((blockMap pre).length + K.length + 1) [] (.map (blockMapNodes ((blockMap pre).length + K.length + 2) post)))]) =
      blockMapNodes 0 pre ++ [(Node.mk (blockMap pre).length [] (.str k),
      Node.mk ((blockMap pre).length + K.length + 1) [] (.map (blockMapNodes ((blockMap pre).length + K.length + 2) post)))] := by
    refine mapOf_distinct hkk (List.pairwise_append.2 ⟨hpl.2, by simp, fun a ha b hb => ?_⟩)
    simp only [List.mem_singleton] at hb
    subst hb
    have : a.1.yaml ∈ pre.map Entry.keyData := by
      rw [← blockMapNodes_keys 0 pre]; exact List.mem_map_of_mem (List.mem_map_of_mem ha)
    obtain ⟨e, he, h⟩ := List.mem_map.1 this
    rw [← h]; exact hdk e he
  have hall : ∀ kp p e, ∀ n ∈ (es.pairs 0 (.mk kp [] es.y) p e).map Prod.fst, ∃ s, n.yaml = .str s := by
    intro kp p e n hn
    have : n.yaml ∈ es.keys := by
      rw [← Ents.keys_pairs es 0 kp p e]; exact List.mem_map_of_mem hn
    rw [← Ents.keys_pairs es 0 0 (0 + es.T.length + 1 + es.sp.length) e, hp 0 e] at this
    obtain ⟨n', hn', he⟩ := List.mem_map.1 this
    rw [← he]
    simp only [Nat.zero_add] at hn'
    exact hkk n' hn'
  have hend := Tail.ok_wf (.stop b!"\n") es.kind (Blk.map [] 0 es).calm (by rw [g5]; simp only [Ents.kind, Blk.kind]; exact Ents.ok_kind ts 0 h1)
    (.inr (.inl (by rw [g5]; exact hA)))
  have hwf : (Stream.mk none (.map [] 0 es) (.stop b!"\n") []).wf := by
    refine ⟨?_, ?_, hend.1, rfl, ?_, trivial⟩
    · simp only [Blk.wfN]
      exact ⟨.inl rfl, trivial, g1, fun kp p e => goodKeys_str _ (hall kp p e)⟩
    · simpa only [Blk.kind] using hend.2
    · simp only [Blk.text]
      intro c' r' he
      rw [g6] at he
      simp only [List.nil_append, List.cons_append, List.cons.injEq] at he
      rw [← he.1]
      exact ⟨(tokHead_ne g7.1).2.2.2.1, g7.2⟩
  have := reads_stream hwf ⟨by simpa only [Blk.still] using g4, trivial⟩
  have hv := hp 0 .none
  rw [Nat.zero_add, Nat.zero_add] at hv
  simp only [Stream.text, Stream.head, Blk.text, Stream.values, Blk.value, Blk.node, Blk.off, Blk.tag, Blk.data, List.nil_append,
    Tail.text, Tail.values, List.length_nil, Nat.zero_add] at this
  rw [hv, hcol, g2] at this
  refine cast (congrArg (fun d => Reads d _) ?_) this
  change (_ ++ (K ++ 0x3A :: ([] ++ Ents.body 0 _))) ++ _ = _
  simp only [Ents.body, Blk.text]
  rw [← h3]
  simp

/-- **C27, refutation.** There are no keys and values for which the claim holds: `k1:` followed by
`k2: v` is never the map with the two entries `k1: null` and `k2: v`. -/
theorem C27_never (K1 k1 K2 k2 V : Bytes) (v : Yaml) (h1 : Writes K1 (.str k1)) (h2 : Writes K2 (.str k2)) (hv : Writes V v)
    (hash : HashCfg) :
    ∃ m, Ends (fun n => parse hash n (K1 ++ b!":\n" ++ (K2 ++ b!": " ++ V ++ b!"\n"))) (.ok [m]) ∧
      ∀ e1 e2, e1.2.yaml = .null → m.yaml ≠ .map [e1, e2] := by
  have := C27_takes_siblings [] [⟨K2, .str k2, V, v⟩] (by simp) K1 k1 h1 (by simpa using ⟨h2, hv⟩) (by simp) (by simp) (by simp) (by simp)
  refine ⟨_, by simpa [blockMap] using (this hash).1, fun e1 e2 _ => ?_⟩
  simp [Node.yaml, blockMapNodes]

/-- `a: x`, `b:`, `c: y`, `d: z`: the last two are the value of `b`. -/
example : Reads b!"a: x\nb:\nc: y\nd: z\n" [.mk 0 [] (.map [(.mk 0 [] (.str b!"a"), .mk 3 [] (.str b!"x")),
    (.mk 5 [] (.str b!"b"), .mk 7 [] (.map [(.mk 8 [] (.str b!"c"), .mk 11 [] (.str b!"y")), (.mk 13 [] (.str b!"d"), .mk 16 [] (.str b!"z"))]))])] := by
  have w : ∀ c, c ∈ [0x61, 0x62, 0x63, 0x64, 0x78, 0x79, 0x7A] → Writes [c] (.str [c]) := by
    intro c hc
    simp only [List.mem_cons, List.not_mem_nil, or_false] at hc
    rcases hc with rfl | rfl | rfl | rfl | rfl | rfl | rfl <;> exact writes_word (by decide) (by decide)
  refine C27_takes_siblings [⟨b!"a", .str b!"a", b!"x", .str b!"x"⟩] [⟨b!"c", .str b!"c", b!"y", .str b!"y"⟩, ⟨b!"d", .str b!"d", b!"z", .str b!"z"⟩]
    (by simp) b!"b" b!"b" (w _ (by simp)) ?_ (by simp) (by simp) (by simp) (by simp)
  simp only [List.cons_append, List.nil_append, List.mem_cons, List.not_mem_nil, or_false]
  rintro t (rfl | rfl | rfl) <;> exact ⟨w _ (by simp), w _ (by simp)⟩

end YamlPeg.Props
