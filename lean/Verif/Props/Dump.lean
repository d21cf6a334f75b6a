import Verif.Proof.Dump
import Verif.Proof.DumpEnds
import Verif.Props.Layout
/-!
# Dumping and parsing back: C39, C40, C41

`Node.dumpable cfg false x` (Proof/Dump.lean) describes the nodes that come back:
no collection is empty, keys are scalars or collections and differ pairwise, there are no aliases,
a tag is empty, a core tag (`tag:yaml.org,2002:…`, not printed) or a custom tag that is an
identifier or prints as `!<…>` (`CustomTag`), keys and collections in entry values have
no custom tag, floats are written the way the parser writes them, strings are
either plain lines (`LineStr`) or text lines that all end in a line feed
(`MultiStr`, not at the root).
-/

namespace YamlPeg.Props
open YamlPeg

mutual
theorem erase_meta : ∀ x : Node, eraseMeta x.erase = eraseMeta x
  | .mk _ _ y => by rw [Node.erase, eraseMeta, eraseMeta, erase_metaY y]
theorem erase_metaY : ∀ y : Yaml, eraseMetaY y.erase = eraseMetaY y
  | .null => rfl
  | .bool _ => rfl
  | .int _ => rfl
  | .float _ => rfl
  | .str _ => rfl
  | .alias _ => rfl
  | .seq l => by rw [Yaml.erase, eraseMetaY, eraseMetaY, erase_metaL l]
  | .map m => by rw [Yaml.erase, eraseMetaY, eraseMetaY, erase_metaM m]
theorem erase_metaL : ∀ l : List Node, eraseMetaL (eraseNodes l) = eraseMetaL l
  | [] => rfl
  | x :: xs => by rw [eraseNodes, eraseMetaL, eraseMetaL, erase_meta x, erase_metaL xs]
theorem erase_metaM : ∀ l : List (Node × Node), eraseMetaM (eraseEntries l) = eraseMetaM l
  | [] => rfl
  | e :: es => by rw [eraseEntries, eraseMetaM, eraseMetaM, erase_metaE e, erase_metaM es]
theorem erase_metaE : ∀ e : Node × Node, eraseMetaE (eraseEntry e) = eraseMetaE e
  | (k, v) => by rw [eraseEntry, eraseMetaE, eraseMetaE, erase_meta k, erase_meta v]
end

/-- Read back without positions the node is the given one without positions and core tags:
then the two are equal in the sense of `==`. -/
theorem equal_of_noPos {x x' : Node} (hr : Readable x) (h : x'.noPos = x.erase) : Node.eq? x x' = .ok true := by
  have he : eraseMeta x' = eraseMeta x := by
    rw [← erase_meta x', ← Node.noPos_erase x', h, Node.erase_erase, erase_meta]
  rw [C32_ignores_pos_and_tag x x' x x rfl he, C32_refl x hr]

/-- **C40, partial.** A dumpable node is printed without hang or panic, and the
text reads back, with both parsers and any hash seed, as one document that carries
the same data and the same custom tags (`noPos`/`erase`: nothing but the positions, and
the tags of core types, differ) and is equal to the node.  Missing: the nodes that are not dumpable,
for most of which the claim is false, see the counterexamples below. -/
theorem C40_round_trip_partial (cfg : DumpCfg) (x : Node) (hr : Readable x) (hd : x.dumpable cfg false) :
    ∃ text x', Ends (fun n => dump cfg n [x] []) (.ok text) ∧ Reads text [x'] ∧
      x'.noPos = x.erase ∧ Node.eq? x x' = .ok true := by
  obtain ⟨text, ns', h1, h2, h3⟩ := dump_reads (cfg := cfg) (anchors := []) (by simp) (ns := [x]) (by simp) (by simpa using hd) (by simp)
  obtain ⟨x', rfl⟩ : ∃ x', ns' = [x'] := List.length_eq_one_iff.1 (by simpa using congrArg List.length h3)
  simp only [List.map_cons, List.map_nil, List.cons.injEq, and_true] at h3
  exact ⟨text, x', h1, h2, h3, equal_of_noPos hr h3⟩

/-- **C41, partial.** The same for any non-empty list of nodes: as many documents
are read, in the same order, each equal to its node, with the same custom tags.  The root
of a later document must not carry a custom tag (see `C41_counterexample_tag`). -/
theorem C41_documents_partial (cfg : DumpCfg) (ns : List Node) (hne : ns ≠ []) (hr : ∀ x ∈ ns, Readable x)
    (hd : ∀ x ∈ ns, x.dumpable cfg false) (htg : ∀ x ∈ ns.tail, PlainTag x.rawTag) :
    ∃ (text : Bytes) (ns' : List Node), Ends (fun n => dump cfg n ns []) (.ok text) ∧ Reads text ns' ∧
      ns'.map Node.noPos = ns.map Node.erase ∧ ns'.length = ns.length ∧
      ∀ (i : Nat) x x', ns[i]? = some x → ns'[i]? = some x' → Node.eq? x x' = .ok true := by
  obtain ⟨text, ns', h1, h2, h3⟩ := dump_reads (cfg := cfg) (anchors := []) (by simp) hne hd htg
  refine ⟨text, ns', h1, h2, h3, ?_, ?_⟩
  · simpa using congrArg List.length h3
  · intro i x x' hx hx'
    refine equal_of_noPos (hr x (List.mem_of_getElem? hx)) ?_
    have := congrArg (·[i]?) h3
    simpa [hx, hx'] using this

/-- **C40/C41, partial.** `dump` is stable: dumping what was read back gives the same text again. -/
theorem C41_dump_stable_partial (cfg : DumpCfg) (ns : List Node) (hne : ns ≠ []) (hd : ∀ x ∈ ns, x.dumpable cfg false)
    (htg : ∀ x ∈ ns.tail, PlainTag x.rawTag) :
    ∃ text ns', Ends (fun n => dump cfg n ns []) (.ok text) ∧ Reads text ns' ∧
      Ends (fun n => dump cfg n ns' []) (.ok text) := by
  obtain ⟨text, ns', h1, h2, h3⟩ := dump_reads (cfg := cfg) (anchors := []) (by simp) hne hd htg
  refine ⟨text, ns', h1, h2, ?_⟩
  have : (fun n => dump cfg n ns' []) = fun n => dump cfg n ns [] := funext fun n => dump_again h3 n
  rw [this]; exact h1

/-- The dumper on a platform with `\n` line breaks. -/
def unix : DumpCfg := { windows := false, escNonAscii := id }

theorem dump_returns_of {cfg : DumpCfg} {ns : List Node} {o : Out Bytes} {n : Nat}
    (e : dump cfg n ns [] = o) (ho : o ≠ .diverge) : Ends (fun n => dump cfg n ns []) o :=
  ⟨ho, n, fun m hm => by subst e; exact C49_dump_stable cfg ns [] n m hm ho⟩

/-! ### The hypotheses are met -/

/-- `{a: [-1, !pt x, !<!m> {b: "L1\n\n L2\n", c: ""}], 2: {d: [y]}, [x, {2: z}]: w}` -/
def dumpSample : Node :=
  .mk 7 b!"tag:yaml.org,2002:map" (.map
    [(.ofYaml (.str b!"a"), .ofYaml (.seq [.ofYaml (.int b!"-1"), .mk 0 b!"pt" (.str b!"x"),
      .mk 0 b!"!m" (.map [(.ofYaml (.str b!"b"), .ofYaml (.str b!"L1\n\n L2\n")),
        (.ofYaml (.str b!"c"), .ofYaml (.str []))])])),
     (.ofYaml (.int b!"2"), .ofYaml (.map [(.ofYaml (.str b!"d"), .ofYaml (.seq [.ofYaml (.str b!"y")]))])),
     (.ofYaml (.seq [.ofYaml (.str b!"x"), .ofYaml (.map [(.ofYaml (.int b!"2"), .ofYaml (.str b!"z"))])]), .ofYaml (.str b!"w"))])

theorem lineStr_word {w : Bytes} (h : isWord w = true) (hk : ∀ kv ∈ keywords, kv.1 ≠ w) : LineStr w := by
  refine .plain (isWord_plainLine h) hk ?_
  obtain ⟨c, r, rfl, hc⟩ := (isWord_plainLine h).first
  obtain ⟨h1, h2, h3⟩ := isWord_byte h c (by simp)
  exact trimStart_ascii (by assumption) (by assumption) r

theorem keysDiffer_two {k k' v v' : Node} (h : Node.eqb k k' = false) : KeysDiffer [(k, v), (k', v')] := by
  refine .cons ?_ (.cons (by simp) .nil)
  intro e he
  obtain rfl := List.mem_singleton.1 he
  exact h

theorem keysDiffer_three {k k' k'' v v' v'' : Node} (h1 : Node.eqb k k' = false) (h2 : Node.eqb k k'' = false)
    (h3 : Node.eqb k' k'' = false) : KeysDiffer [(k, v), (k', v'), (k'', v'')] := by
  refine .cons ?_ (keysDiffer_two h3)
  intro e he
  simp only [List.mem_cons, List.not_mem_nil, or_false] at he
  rcases he with rfl | rfl
  · exact h1
  · exact h2

theorem readable_str {p : Nat} {t s : Bytes} : Readable (.mk p t (.str s)) := str_readable p t s
theorem readable_int {p : Nat} {t s : Bytes} (h : (toI64 s).isSome) : Readable (.mk p t (.int s)) := readable_leaf h trivial
theorem readable_seq {p : Nat} {t : Bytes} {l : List Node} (h : ∀ x ∈ l, Readable x) : Readable (.mk p t (.seq l)) :=
  readable_leaf trivial h
theorem readable_map {p : Nat} {t : Bytes} {l : List (Node × Node)} (h : ∀ x ∈ l, Readable x.1 ∧ Readable x.2) :
    Readable (.mk p t (.map l)) := readable_leaf trivial fun k v hx => h (k, v) hx

/-- The key `[x, {2: z}]` can be read. -/
theorem readable_key : Readable (.ofYaml (.seq [.ofYaml (.str b!"x"), .ofYaml (.map [(.ofYaml (.int b!"2"), .ofYaml (.str b!"z"))])])) :=
  readable_seq (List.forall_mem_cons.2 ⟨readable_str, List.forall_mem_cons.2 ⟨readable_map
    (List.forall_mem_cons.2 ⟨⟨readable_int (by decide), readable_str⟩, by simp⟩), by simp⟩⟩)

theorem multiStr_sample : MultiStr b!"L1\n\n L2\n" := by
  refine ⟨[b!"L1", [], b!" L2"], by simp, ⟨⟨_, _, rfl, by simp⟩, ⟨_, rfl, by simp, by decide⟩, ?_⟩, by decide, by decide, ?_⟩
  · intro l hl hne
    simp only [List.mem_cons, List.not_mem_nil, or_false] at hl
    rcases hl with rfl | rfl | rfl
    · exact ⟨utf8_ascii (by decide), by decide, by decide⟩
    · exact absurd rfl hne
    · exact ⟨utf8_ascii (by decide), by decide, by decide⟩
  · intro l hl; simp at hl; subst hl; decide

theorem dumpable_str {cfg : DumpCfg} {inner : Bool} {p : Nat} {t s : Bytes} (ht : PlainTag t ∨ CustomTag t) (h : LineStr s) :
    (Node.mk p t (.str s)).dumpable cfg inner := by
  simp only [Node.dumpable, Yaml.dumpable]; exact ⟨ht, .inl h⟩

theorem dumpSample_dumpable : dumpSample.dumpable unix false := by
  have w : ∀ {inner : Bool} (T : Bytes), isWord T = true → (∀ kv ∈ keywords, kv.1 ≠ T) →
    (Node.mk 0 [] (.str T)).dumpable unix inner := fun T h hk => dumpable_str (.inl (.inl rfl)) (lineStr_word h hk)
  have e : LineStr [] := .quoted (B := []) (E := []) (by simp) (.inl rfl) (by simp) (by simp)
  have key : ∀ {T : Bytes}, isWord T = true → (∀ kv ∈ keywords, kv.1 ≠ T) →
      (Node.mk 0 [] (.str T)).dumpable unix false ∧ PlainTag (Node.mk 0 [] (.str T)).rawTag := fun h hk => ⟨w _ h hk, .inl rfl⟩
  have int : ∀ {inner : Bool} {n sg d : Bytes}, n = sg ++ d → IsSign sg → IsDigits d →
      (Node.mk 0 [] (.int n)).dumpable unix inner := by
    rintro inner n sg d rfl hs hd
    simp only [Node.dumpable, Yaml.dumpable]; exact ⟨.inl (.inl rfl), _, .int hs hd⟩
  have plain : ∀ {y : Yaml}, y.isColl = true → PlainTag (Node.mk 0 [] y).rawTag := fun _ => .inl rfl
  have seq : ∀ {inner : Bool} {l : List Node}, l ≠ [] → itemsDumpable unix l →
      (Node.mk 0 [] (.seq l)).dumpable unix inner := by
    intro inner l h h'; simp only [Node.dumpable, Yaml.dumpable]; exact ⟨.inl (.inl rfl), h, h'⟩
  have map : ∀ {inner : Bool} {p : Nat} {t : Bytes} {l : List (Node × Node)}, PlainTag t ∨ CustomTag t → l ≠ [] →
      (∀ e ∈ l, Readable e.1) → KeysDiffer l → entriesDumpable unix l →
      (Node.mk p t (.map l)).dumpable unix inner := by
    intro inner p t l ht h h' h2 h3; simp only [Node.dumpable, Yaml.dumpable]; exact ⟨ht, h, h', h2, h3⟩
  have two : (Node.mk 0 [] (.int b!"2")).dumpable unix false := int (sg := []) (d := b!"2") rfl (.inl rfl) ⟨by simp, by decide⟩
  refine map (.inl (.inr (by decide))) (by simp)
    (List.forall_mem_cons.2 ⟨readable_str, List.forall_mem_cons.2 ⟨readable_int (by decide),
      List.forall_mem_cons.2 ⟨readable_key, by simp⟩⟩⟩) (keysDiffer_three rfl rfl rfl) ?_
  simp only [entriesDumpable, entryDumpable]
  refine ⟨⟨key (by decide) (by decide), seq (by simp) ?_, plain⟩,
    ⟨⟨two, .inl rfl⟩, map (.inl (.inl rfl)) (by simp)
      (List.forall_mem_cons.2 ⟨readable_str, by simp⟩) (.cons (by simp) .nil) ?_, plain⟩,
    ⟨⟨seq (by simp) ?_, .inl rfl⟩, w _ (by decide) (by decide), by simp [Node.ofYaml, Node.yaml, Yaml.isColl]⟩, trivial⟩
  · simp only [itemsDumpable]
    refine ⟨int (sg := b!"-") (d := b!"1") rfl (.inr rfl) ⟨by simp, by decide⟩,
      dumpable_str (.inr (.inl ⟨by decide, by decide⟩)) (lineStr_word (by decide) (by decide)),
      map (.inr (.inr ⟨by simp, by decide, utf8_ascii (by decide), by decide⟩)) (by simp)
        (List.forall_mem_cons.2 ⟨readable_str, List.forall_mem_cons.2 ⟨readable_str, by simp⟩⟩) (keysDiffer_two rfl) ?_, trivial⟩
    simp only [entriesDumpable, entryDumpable]
    refine ⟨⟨key (by decide) (by decide), ?_, by simp [Node.ofYaml, Node.yaml, Yaml.isColl]⟩,
      ⟨key (by decide) (by decide), dumpable_str (.inl (.inl rfl)) e, by simp [Node.ofYaml, Node.yaml, Yaml.isColl]⟩, trivial⟩
    simp only [Node.ofYaml, Node.dumpable, Yaml.dumpable]
    exact ⟨.inl (.inl rfl), .inr ⟨trivial, rfl, multiStr_sample⟩⟩
  · simp only [entriesDumpable, entryDumpable]
    refine ⟨⟨key (by decide) (by decide), seq (by simp) ?_, plain⟩, trivial⟩
    simp only [itemsDumpable]
    exact ⟨w _ (by decide) (by decide), trivial⟩
  · simp only [itemsDumpable]
    refine ⟨w _ (by decide) (by decide), map (.inl (.inl rfl)) (by simp)
      (List.forall_mem_cons.2 ⟨readable_int (by decide), by simp⟩) (.cons (by simp) .nil) ?_, trivial⟩
    simp only [entriesDumpable, entryDumpable]
    exact ⟨⟨⟨two, .inl rfl⟩, w _ (by decide) (by decide), by simp [Node.ofYaml, Node.yaml, Yaml.isColl]⟩, trivial⟩

theorem dumpSample_readable : Readable dumpSample := by
  refine readable_map (List.forall_mem_cons.2 ⟨⟨readable_str, readable_seq (List.forall_mem_cons.2 ⟨readable_int (by decide),
    List.forall_mem_cons.2 ⟨readable_str, List.forall_mem_cons.2 ⟨readable_map (List.forall_mem_cons.2 ⟨⟨readable_str, readable_str⟩,
      List.forall_mem_cons.2 ⟨⟨readable_str, readable_str⟩, by simp⟩⟩), by simp⟩⟩⟩)⟩,
    List.forall_mem_cons.2 ⟨⟨readable_int (by decide), readable_map (List.forall_mem_cons.2
      ⟨⟨readable_str, readable_seq (List.forall_mem_cons.2 ⟨readable_str, by simp⟩)⟩, by simp⟩)⟩,
    List.forall_mem_cons.2 ⟨⟨readable_key, readable_str⟩, by simp⟩⟩⟩)

/-- The sample is printed and read back. -/
example : ∃ text x', Ends (fun n => dump unix n [dumpSample] []) (.ok text) ∧
    Reads text [x'] ∧ x'.noPos = dumpSample.erase ∧ Node.eq? dumpSample x' = .ok true :=
  C40_round_trip_partial _ _ dumpSample_readable dumpSample_dumpable

/-- Its text. -/
example : dump unix 30 [dumpSample] [] =
    .ok b!"a:\n  - -1\n  - !pt x\n  - !<!m> b: |\n      L1\n\n       L2\n    c: \"\"\n2:\n  d:\n    - y\n?  \n\n  - x\n  - 2: z\n: w\n" := by decide +kernel

/-! ### What does not come back -/

theorem plain_accepts' {s : Bytes} (hu : Utf8 s) (hne : s ≠ []) (hb : plainBody false [] false s = true)
    (htrim : trimEnd s = s) (n : Nat) (hn : s.length < n) : (stringPlain n 0 false (Parser.new s)).1 = .ok s := by
  have := stringPlain_read .start [] [] (level := 0) (inner := false) (T := s) (E := []) (.stop rfl) hb hu hne htrim n hn
  rw [List.append_nil] at this
  rw [new_state, this]

/-- The dump of a single string that `string_plain` takes. -/
theorem dump_plain (cfg : DumpCfg) {T : Bytes} (hu : Utf8 T) (hne : T ≠ []) (hb : plainBody false [] false T = true)
    (htrim : trimEnd T = T) :
    Ends (fun n => dump cfg n [.ofYaml (.str T)] []) (.ok (T ++ cfg.nl)) := by
  refine ⟨by simp, T.length + 1, fun n hn => ?_⟩
  have hl : (lines T).length < 2 := lines_short fun c hc => (plainBody_facts hb).1 c hc |>.1
  have hs : dumpStr cfg n 0 T = .ok T := by
    rw [dumpStr, if_neg (by omega), plain_accepts' hu hne hb htrim n (by omega)]
  show dumpDocs cfg n [] 0 [.ofYaml (.str T)] = _
  rw [dumpDocs, dumperDump, Node.ofYaml, List.getD_nil, dumpNode_eq (.inl rfl), dumpYaml, hs, dumpDocs]
  show Out.ok _ = _
  simp

/-- **C40, counterexample.** Every string that spells a keyword is dumped as the bare
keyword and comes back as null, a Boolean or a special float. -/
theorem C40_counterexample_keywords (cfg : DumpCfg) (T : Bytes) (y : Yaml) (hk : (T, y) ∈ keywords) :
    Ends (fun n => dump cfg n [.ofYaml (.str T)] []) (.ok (T ++ cfg.nl)) ∧ Reads (T ++ cfg.nl) [.mk 0 [] y] ∧
      y ≠ .str T := by
  have hp := keyword_plain hk
  refine ⟨dump_plain cfg hp.utf8 hp.ne hp.body hp.trim, C15_keyword T y cfg.nl ?_ hk, ?_⟩
  · exact ⟨.inr ⟨cfg.nl, [], [], cfg.nl_break, by simp [gapLines], by simp [IdleLine], .inl rfl⟩⟩
  · rintro rfl
    have : ∀ kv ∈ keywords, kv.2 ≠ .str kv.1 := by decide +kernel
    exact this _ hk rfl

/-- **C40, counterexample.** Every string of decimal digits comes back as an integer. -/
theorem C40_counterexample_digits (cfg : DumpCfg) (sg d : Bytes) (hsg : IsSign sg) (hd : IsDigits d) :
    Ends (fun n => dump cfg n [.ofYaml (.str (sg ++ d))] []) (.ok (sg ++ d ++ cfg.nl)) ∧
      Reads (sg ++ d ++ cfg.nl) [.mk 0 [] (.int (sg ++ d))] := by
  obtain ⟨h1, h2, _, _⟩ := numText_plain (f := []) hsg hd (.inl rfl)
  simp only [List.append_nil] at h1 h2
  refine ⟨dump_plain cfg (utf8_ascii fun x hx => (h1 x hx).1) ?_ (plainBody_mem fun x hx => ?_) h2,
    (C17_decimal_integer_partial sg d cfg.nl hsg hd
      ⟨cfg.nl, [], cfg.nl_break, by simp [gapLines], by simp⟩).1⟩
  · have := hd.1
    simp [this]
  · have := (h1 x hx).2
    simp at this ⊢
    simp [this]

/-- **C40, counterexamples.** An empty sequence comes back as null, the string `a: b`
as a map, the float `1` as an integer. -/
theorem C40_counterexample_empty_seq : Ends (fun n => dump unix n [.ofYaml (.seq [])] []) (.ok b!"\n") ∧
    Ends (fun n => parse .exact n b!"\n") (.ok [.mk 0 [] .null]) :=
  ⟨dump_returns_of (n := 30) (by decide +kernel) (by simp), parse_returns_of (n := 30) (by decide +kernel) (by simp)⟩

theorem C40_counterexample_colon : Ends (fun n => dump unix n [.ofYaml (.str b!"a: b")] []) (.ok b!"a: b\n") ∧
    Ends (fun n => parse .exact n b!"a: b\n") (.ok [.mk 0 [] (.map [(.mk 0 [] (.str b!"a"), .mk 3 [] (.str b!"b"))])]) :=
  ⟨dump_returns_of (n := 30) (by decide +kernel) (by simp), parse_returns_of (n := 30) (by decide +kernel) (by simp)⟩

theorem C40_counterexample_float : Ends (fun n => dump unix n [.ofYaml (.float b!"1")] []) (.ok b!"1\n") ∧
    Ends (fun n => parse .exact n b!"1\n") (.ok [.mk 0 [] (.int b!"1")]) :=
  ⟨dump_returns_of (n := 30) (by decide +kernel) (by simp), parse_returns_of (n := 30) (by decide +kernel) (by simp)⟩

/-- The tag of a collection that is the value of a map is printed without a blank:
the collection comes back as a string. -/
theorem C40_counterexample_value_tag :
    Ends (fun n => dump unix n [.ofYaml (.map [(.ofYaml (.str b!"k"), .mk 0 b!"t" (.seq [.ofYaml (.str b!"a")]))])] [])
      (.ok b!"k:!t \n  - a\n") ∧
    Ends (fun n => parse .exact n b!"k:!t \n  - a\n") (.ok [.mk 0 [] (.str b!"k:!t  - a")]) :=
  ⟨dump_returns_of (n := 30) (by decide +kernel) (by simp), parse_returns_of (n := 30) (by decide +kernel) (by simp)⟩

/-- A tag that begins like an identifier, but is none, is printed as if it were one. -/
theorem C40_counterexample_tag_text :
    Ends (fun n => dump unix n [.mk 0 b!"t:x" (.str b!"a")] []) (.ok b!"!t:x a\n") ∧
    Ends (fun n => parse .exact n b!"!t:x a\n") (.ok [.mk 2 b!"t" (.str b!":x a")]) :=
  ⟨dump_returns_of (n := 30) (by decide +kernel) (by simp), parse_returns_of (n := 30) (by decide +kernel) (by simp)⟩

/-- A key of several lines is printed as a block scalar without `?`: it comes back as
another key. -/
theorem C40_counterexample_multi_line_key :
    Ends (fun n => dump unix n [.ofYaml (.map [(.ofYaml (.str b!"t\nu\n"), .ofYaml (.str b!"b"))])] [])
      (.ok b!"|\n  t\n  u: b\n") ∧
    Ends (fun n => parse .exact n b!"|\n  t\n  u: b\n")
      (.ok [.mk 0 [] (.map [(.mk 0 [] (.str b!"| t u"), .mk 11 [] (.str b!"b"))])]) :=
  ⟨dump_returns_of (n := 30) (by decide +kernel) (by simp), parse_returns_of (n := 30) (by decide +kernel) (by simp)⟩

/-- The tag of the root of a later document stands on a line of its own and is lost. -/
theorem C41_counterexample_tag :
    Ends (fun n => dump unix n [.ofYaml (.str b!"a"), .mk 0 b!"t" (.str b!"b")] []) (.ok b!"a\n---\n!t b\n") ∧
    Ends (fun n => parse .exact n b!"a\n---\n!t b\n") (.ok [.mk 0 [] (.str b!"a"), .mk 5 [] (.str b!"b")]) :=
  ⟨dump_returns_of (n := 30) (by decide +kernel) (by simp), parse_returns_of (n := 30) (by decide +kernel) (by simp)⟩

/-! ## C39: dump returns -/

/-- **C39, partial: exactly when it is true.**  For nodes and anchor tables whose
numbers can be read (for any nodes, if the tables are empty), `dump` returns a text
if and only if no document is an empty map, no sequence holds an empty map, and no
string is `Hanging`: a string that counts as one line (`str::lines`) and either begins
with one of `[]{}` or holds a line break (a final `\n`, or a `\r`) in front of the
first `: `, `:\n`, `:\r` or ` #`.  (Missing: unreadable numbers together with anchors.) -/
theorem C39_returns_iff_partial (cfg : DumpCfg) (ns : List Node) (anchors : List Anchors) (ht : ∀ x ∈ ns, TextOk x)
    (ha : (∀ a ∈ anchors, a = []) ∨ (∀ x ∈ ns, Readable x) ∧ ∀ a ∈ anchors, ∀ kv ∈ a, Readable kv.2) :
    (∃ text, Ends (fun n => dump cfg n ns anchors) (.ok text)) ↔
      ∀ x ∈ ns, x.yaml ≠ .map [] ∧ NoEmptyItem x ∧ ∀ m, Occurs m x → ∀ s, m.yaml = .str s → ¬ Hanging s :=
  dump_iff cfg ns anchors ht ha

/-- **C39, counterexample.** With a hanging string anywhere and no misplaced empty map
`dump` runs forever. -/
theorem C39_counterexample_hang (cfg : DumpCfg) (ns : List Node) (anchors : List Anchors) (ht : ∀ x ∈ ns, TextOk x)
    (ha : (∀ a ∈ anchors, a = []) ∨ (∀ x ∈ ns, Readable x) ∧ ∀ a ∈ anchors, ∀ kv ∈ a, Readable kv.2)
    (he : ∀ x ∈ ns, x.yaml ≠ .map [] ∧ NoEmptyItem x)
    (hs : ∃ x ∈ ns, ∃ m, Occurs m x ∧ ∃ s, m.yaml = .str s ∧ Hanging s) :
    Hangs (fun n => dump cfg n ns anchors) := by
  rcases C49_dump_outcome cfg ns anchors with h | ⟨_, o, ho, _⟩
  · exact h.1
  · exfalso
    obtain ⟨x, hx, m, hm, s, hs, hh⟩ := hs
    obtain ⟨hd, N, hN⟩ := ho
    have hf := dump_fate cfg ns anchors ht ha (max N (sizeOf ns)) (by omega)
    rw [show dump cfg (max N (sizeOf ns)) ns anchors = o from hN _ (by omega)] at hf
    cases o with
    | ok t =>
      exact ((dump_iff cfg ns anchors ht ha).1 ⟨t, hd, N, hN⟩ x hx).2.2 m hm s hs hh
    | err e => exact hf
    | panic p =>
      obtain ⟨_, y, hy, h⟩ := hf
      rcases h with h | h
      · exact (he y hy).1 h
      · exact h (he y hy).2
    | diverge => exact hd rfl

/-- **C39, counterexample.** With a misplaced empty map and no hanging string `dump` panics. -/
theorem C39_counterexample_panic (cfg : DumpCfg) (ns : List Node) (anchors : List Anchors) (ht : ∀ x ∈ ns, TextOk x)
    (ha : (∀ a ∈ anchors, a = []) ∨ (∀ x ∈ ns, Readable x) ∧ ∀ a ∈ anchors, ∀ kv ∈ a, Readable kv.2)
    (he : ∃ x ∈ ns, x.yaml = .map [] ∨ ¬ NoEmptyItem x)
    (hs : ∀ x ∈ ns, ∀ m, Occurs m x → ∀ s, m.yaml = .str s → ¬ Hanging s) :
    Ends (fun n => dump cfg n ns anchors) (.panic .underflow) := by
  have key : ∀ n, sizeOf ns ≤ n → dump cfg n ns anchors = .panic .underflow := by
    intro n hn
    have hf := dump_fate cfg ns anchors ht ha n hn
    cases ho : dump cfg n ns anchors with
    | ok t =>
      exfalso
      obtain ⟨x, hx, h⟩ := he
      have := (dump_iff cfg ns anchors ht ha).1 ⟨t, by simp, n, fun m hm => by
        rw [← ho]; exact C49_dump_stable cfg ns anchors n m hm (by rw [ho]; simp)⟩ x hx
      rcases h with h | h
      · exact this.1 h
      · exact h this.2.1
    | err e => rw [ho] at hf; exact absurd hf id
    | panic p => rw [ho] at hf; rw [hf.1]
    | diverge =>
      rw [ho] at hf
      obtain ⟨x, hx, m, hm, s, h1, h2⟩ := hf
      exact absurd h2 (hs x hx m hm s h1)
  exact ⟨by simp, _, key⟩

/-- Words followed by a line feed, and everything that begins with a bracket and has no
line feed, hangs. -/
theorem hanging_word {w : Bytes} (h : PlainLine w) : Hanging (w ++ b!"\n") := by
  refine ⟨?_, w, 0x0A, [], rfl, .inl rfl, ?_⟩
  · have : ∀ {l : Bytes}, (∀ c ∈ l, c ≠ 0x0A) → splitInclNl (l ++ [0x0A]) = [l ++ [0x0A]] := by
      intro l
      induction l with
      | nil => intro _; rfl
      | cons c r ih =>
        intro hl
        have hc : (c == 0x0A) = false := by simpa using hl c (by simp)
        rw [List.cons_append, splitInclNl, hc, ih fun x hx => hl x (by simp [hx])]
        simp
    simp [lines, this fun c hc => (h.noBreak c hc).1]
  · intro A1 A2 hA hne hs
    have hsplit : ∀ {a c : UInt8}, [a, c] <+: A2 ++ b!"\n" → [a, c] <:+: w ∨ (A2 = [a] ∧ c = 0x0A) := by
      intro a c hp
      match A2, hne, hp with
      | [x], _, hp => simp [List.cons_prefix_cons] at hp; exact .inr ⟨by rw [hp.1], hp.2⟩
      | x :: y :: r, _, hp =>
        simp [List.cons_prefix_cons] at hp
        refine .inl ⟨A1, r, ?_⟩
        rw [hA, hp.1, hp.2]; simp
    rcases hs with hs | hs | hs | hs
    · rcases hsplit hs with h' | h'
      · exact h.noColon h'
      · exact absurd h'.2 (by decide)
    · rcases hsplit hs with h' | h'
      · exact (h.noBreak 0x0A (h'.subset (by simp))).1 rfl
      · exact h.last.2 (by rw [hA, h'.1]; simp)
    · rcases hsplit hs with h' | h'
      · exact (h.noBreak 0x0D (h'.subset (by simp))).2 rfl
      · exact absurd h'.2 (by decide)
    · rcases hsplit hs with h' | h'
      · exact h.noComment h'
      · exact absurd h'.2 (by decide)

theorem hanging_bracket {c : UInt8} {r : Bytes} (hc : c ∈ b!"[]{}") (hr : 0x0A ∉ r) : Hanging (c :: r) := by
  refine ⟨lines_short fun x hx => ?_, [], c, r, rfl, .inr (.inr ⟨rfl, hc⟩), ?_⟩
  · rintro rfl
    rcases List.mem_cons.1 hx with rfl | hx
    · revert hc; decide
    · exact hr hx
  · intro A1 A2 h h'
    simp at h; exact absurd h.2 h'

/-- The hypotheses of the two counterexamples are met: `{k: "end\n"}` hangs, `[{}]` panics,
and a nested node of the kind that is printed. -/
example : Hangs (fun n => dump unix n [.ofYaml (.map [(.ofYaml (.str b!"k"), .ofYaml (.str b!"end\n"))])] []) := by
  have hw : PlainLine b!"end" := isWord_plainLine (by decide)
  have hE : Everywhere (fun m => ∀ s, m.yaml = .str s → Utf8 s)
      (.ofYaml (.map [(.ofYaml (.str b!"k"), .ofYaml (.str b!"end\n"))])) := by
    refine everywhere_mk.2 ⟨by simp [Node.yaml], fun k v hm => ?_⟩
    simp only [List.mem_singleton, Prod.mk.injEq] at hm
    obtain ⟨rfl, rfl⟩ := hm
    refine ⟨everywhere_mk.2 ⟨?_, trivial⟩, everywhere_mk.2 ⟨?_, trivial⟩⟩
    · rintro s hs; cases hs; exact utf8_ascii (by decide)
    · rintro s hs; cases hs; exact utf8_ascii (by decide)
  refine C39_counterexample_hang unix _ [] (fun x hx => by rw [List.mem_singleton.1 hx]; exact hE) (.inl (by simp)) ?_ ?_
  · intro x hx
    obtain rfl := List.mem_singleton.1 hx
    refine ⟨by simp [Node.ofYaml, Node.yaml], everywhere_mk.2 ⟨by simp [Node.yaml], fun k v hm => ?_⟩⟩
    simp only [List.mem_singleton, Prod.mk.injEq] at hm
    obtain ⟨rfl, rfl⟩ := hm
    exact ⟨everywhere_mk.2 ⟨by simp [Node.yaml], trivial⟩, everywhere_mk.2 ⟨by simp [Node.yaml], trivial⟩⟩
  · exact ⟨_, List.mem_singleton.2 rfl, _, .value (List.mem_singleton.2 rfl) .self, _, rfl, hanging_word hw⟩

example : Ends (fun n => dump unix n [.ofYaml (.seq [.ofYaml (.map [])])] []) (.panic .underflow) :=
  dump_returns_of (n := 30) (by decide +kernel) (by simp)

end YamlPeg.Props
