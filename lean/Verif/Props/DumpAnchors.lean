import Verif.Proof.DumpAnchors
import Verif.Props.Dump
/-!
# Dumping with anchors: C58

`dump` gets, beside each root, a table of anchors, the way `parse_cyclic` returns them.

* `mark A x` (Proof/DumpAnchors.lean): the first name of the table `A` whose node equals `x`.
* `x.marks A`: the nodes of the tree `x` that have such a name, with it, inner nodes first.
* `look l k`: the node with the name `k` in the list `l`, without positions and core tags.
* `sees t k`: the node with the name `k` in the table `t`, without positions.
* `x.dumpableA cfg A false`: like `dumpable` (C40), but there may be aliases and anchors, both with
  identifiers as names; keys, and collections in entry values, have no anchor.
-/

namespace YamlPeg.Props
open YamlPeg

/-- **C58.** Roots with their tables of anchors are printed without hang or panic, and
`parse_cyclic` reads the text, with any hash seed, as the same documents (data, custom tags and
aliases), and the table of each document has exactly the names in front of its nodes, each bound
to the node it stands in front of.  No name is in front of two nodes, and the root of a later document
has neither a custom tag nor an anchor: without that it is false, see the counterexamples. -/
theorem C58_anchors_round_trip (cfg : DumpCfg) (docs : List (Node × Anchors)) (hne : docs ≠ [])
    (hr : ∀ d ∈ docs, Readable d.1 ∧ ∀ kv ∈ d.2, Readable kv.2) (hd : ∀ d ∈ docs, d.1.dumpableA cfg d.2 false)
    (hn : ∀ d ∈ docs, ((d.1.marks d.2).map Prod.fst).Nodup)
    (hl : ∀ d ∈ docs.tail, PlainTag d.1.rawTag ∧ mark d.2 d.1 = none) :
    ∃ text, Ends (fun n => dump cfg n (docs.map Prod.fst) (docs.map Prod.snd)) (.ok text) ∧ ∃ ns' tables',
      (∀ h, Ends (fun n => parseCyclic h n text) (.ok (ns', tables'))) ∧
      ns'.map Node.noPos = docs.map (fun d => d.1.erase) ∧
      tables'.map sees = docs.map fun d => look (d.1.marks d.2) :=
  dump_readsA hne (fun d h => ⟨hd d h, fun m hm => found_readable (hr d h).2 fun a ha => (hr d h).1 a (ha.trans hm), hn d h⟩) hl

/-- A name in front of a node comes from the table, and its node equals that node. -/
theorem mark_some {A : Anchors} {x : Node} {a : Bytes} (h : mark A x = some a) : ∃ v, (a, v) ∈ A ∧ Node.eqb v x = true := by
  unfold mark at h
  cases hf : A.find? fun kv => Node.eqb kv.2 x with
  | none => simp [hf] at h
  | some kv =>
    simp only [hf, Option.map_some, Option.some.injEq] at h
    subst h
    exact ⟨kv.2, List.mem_of_find?_eq_some hf, by simpa using List.find?_some hf⟩

mutual
theorem marks_mark {A : Anchors} : ∀ (x : Node) {kv : Bytes × Node}, kv ∈ x.marks A → mark A kv.2 = some kv.1
  | .mk p t y, kv, h => by
    rw [Node.marks, List.mem_append] at h
    rcases h with h | h
    · exact marks_markY y h
    · cases hm : mark A (.mk p t y) with
      | none => simp [hm] at h
      | some a => simp only [hm, List.mem_singleton] at h; subst h; exact hm
theorem marks_markY {A : Anchors} : ∀ (y : Yaml) {kv : Bytes × Node}, kv ∈ y.marks A → mark A kv.2 = some kv.1
  | .seq l, kv, h => marks_markL l (by rwa [Yaml.marks] at h)
  | .map m, kv, h => marks_markM m (by rwa [Yaml.marks] at h)
  | .null, _, h => by simp [Yaml.marks] at h
  | .bool _, _, h => by simp [Yaml.marks] at h
  | .int _, _, h => by simp [Yaml.marks] at h
  | .float _, _, h => by simp [Yaml.marks] at h
  | .str _, _, h => by simp [Yaml.marks] at h
  | .alias _, _, h => by simp [Yaml.marks] at h
theorem marks_markL {A : Anchors} : ∀ (l : List Node) {kv : Bytes × Node}, kv ∈ itemsMarks A l → mark A kv.2 = some kv.1
  | [], _, h => by simp [itemsMarks] at h
  | x :: xs, kv, h => by
    rw [itemsMarks, List.mem_append] at h
    exact h.elim (marks_mark x) (marks_markL xs)
theorem marks_markM {A : Anchors} : ∀ (l : List (Node × Node)) {kv : Bytes × Node}, kv ∈ entriesMarks A l → mark A kv.2 = some kv.1
  | [], _, h => by simp [entriesMarks] at h
  | e :: es, kv, h => by
    rw [entriesMarks, List.mem_append] at h
    exact h.elim (marks_markE e) (marks_markM es)
theorem marks_markE {A : Anchors} : ∀ (e : Node × Node) {kv : Bytes × Node}, kv ∈ entryMarks A e → mark A kv.2 = some kv.1
  | (k, v), kv, h => by
    rw [entryMarks, List.mem_append] at h
    exact h.elim (marks_mark k) (marks_mark v)
end

theorem anchors_get_mem {A : Anchors} {k : Bytes} {v : Node} (hnd : (A.map Prod.fst).Nodup) (h : (k, v) ∈ A) : mapGet k A = some v := by
  induction A with
  | nil => simp at h
  | cons e r ih =>
    obtain ⟨k', v'⟩ := e
    rw [List.map_cons, List.nodup_cons] at hnd
    rw [mapGet]
    rcases List.mem_cons.1 h with h | hr
    · cases h; simp
    · have : k ≠ k' := by rintro rfl; replace h := hr; exact hnd.1 (List.mem_map.2 ⟨_, h, rfl⟩)
      simp only [this, if_false, beq_iff_eq]
      exact ih hnd.2 hr

theorem anchors_get_some {A : Anchors} {k : Bytes} {v : Node} (h : mapGet k A = some v) : (k, v) ∈ A := by
  induction A with
  | nil => simp [mapGet] at h
  | cons e r ih =>
    obtain ⟨k', v'⟩ := e
    rw [mapGet] at h
    split at h
    · next hk => simp only [beq_iff_eq] at hk; cases h; subst hk; simp
    · exact List.mem_cons_of_mem _ (ih h)

theorem itemsMarks_mem {A : Anchors} {l : List Node} {x : Node} (hx : x ∈ l) {kv : Bytes × Node} (h : kv ∈ x.marks A) :
    kv ∈ itemsMarks A l := by
  induction l with
  | nil => simp at hx
  | cons y r ih =>
    rw [itemsMarks, List.mem_append]
    rcases List.mem_cons.1 hx with rfl | hx
    · exact .inl h
    · exact .inr (ih hx)

theorem entriesMarks_mem {A : Anchors} {l : List (Node × Node)} {k v : Node} (hx : (k, v) ∈ l) {kv : Bytes × Node}
    (h : kv ∈ k.marks A ∨ kv ∈ v.marks A) : kv ∈ entriesMarks A l := by
  induction l with
  | nil => simp at hx
  | cons y r ih =>
    rw [entriesMarks, List.mem_append]
    rcases List.mem_cons.1 hx with hx | hx
    · subst hx; rw [entryMarks, List.mem_append]; exact .inl h
    · exact .inr (ih hx)

/-- Every node of the tree that has a name is among `marks`. -/
theorem occurs_marks {A : Anchors} {m x : Node} (h : Occurs m x) {a : Bytes} (hm : mark A m = some a) : (a, m) ∈ x.marks A := by
  induction h with
  | self => obtain ⟨p, t, y⟩ := m; rw [Node.marks, hm]; simp
  | item hx _ ih => rw [Node.marks, List.mem_append, Yaml.marks]; exact .inl (itemsMarks_mem hx ih)
  | key hx _ ih => rw [Node.marks, List.mem_append, Yaml.marks]; exact .inl (entriesMarks_mem hx (.inl ih))
  | value hx _ ih => rw [Node.marks, List.mem_append, Yaml.marks]; exact .inl (entriesMarks_mem hx (.inr ih))

theorem look_of_mem {l : List (Bytes × Node)} (hn : (l.map Prod.fst).Nodup) {k : Bytes} {m : Node} (h : (k, m) ∈ l) :
    look l k = some m.erase := by
  induction l with
  | nil => simp at h
  | cons e r ih =>
    obtain ⟨k', m'⟩ := e
    rw [List.map_cons, List.nodup_cons] at hn
    unfold look
    rw [List.find?_cons]
    rcases List.mem_cons.1 h with h | h
    · cases h; simp
    · have : (k' == k) = false := by
        rw [beq_eq_false_iff_ne]; rintro rfl; exact hn.1 (List.mem_map.2 ⟨_, h, rfl⟩)
      simp only [this]
      exact ih hn.2 h

/-- **C58.** If moreover each name of the tables is in front of a node, the tables come back: the
same names, each bound to a node equal to the one it was bound to. -/
theorem C58_tables_come_back (cfg : DumpCfg) (docs : List (Node × Anchors)) (hne : docs ≠ [])
    (hr : ∀ d ∈ docs, Readable d.1 ∧ ∀ kv ∈ d.2, Readable kv.2) (hd : ∀ d ∈ docs, d.1.dumpableA cfg d.2 false)
    (hn : ∀ d ∈ docs, ((d.1.marks d.2).map Prod.fst).Nodup)
    (hl : ∀ d ∈ docs.tail, PlainTag d.1.rawTag ∧ mark d.2 d.1 = none)
    (hA : ∀ d ∈ docs, (d.2.map Prod.fst).Nodup ∧ ∀ kv ∈ d.2, ∃ m, Occurs m d.1 ∧ mark d.2 m = some kv.1) :
    ∃ text, Ends (fun n => dump cfg n (docs.map Prod.fst) (docs.map Prod.snd)) (.ok text) ∧ ∃ ns' tables',
      (∀ h, Ends (fun n => parseCyclic h n text) (.ok (ns', tables'))) ∧ tables'.length = docs.length ∧
      ∀ (i : Nat) d t, docs[i]? = some d → tables'[i]? = some t → ∀ k,
        match mapGet k d.2 with
        | none => mapGet k t = none
        | some v => ∃ v', mapGet k t = some v' ∧ Node.eq? v v' = .ok true := by
  obtain ⟨text, h1, ns', tables', h2, h3, h4⟩ := C58_anchors_round_trip cfg docs hne hr hd hn hl
  refine ⟨text, h1, ns', tables', h2, by simpa using congrArg List.length h4, fun i d t hdi hti k => ?_⟩
  have hs : sees t = look (d.1.marks d.2) := by
    have := congrArg (·[i]?) h4
    simpa [hdi, hti] using this
  have hmem := List.mem_of_getElem? hdi
  obtain ⟨hnd, hcov⟩ := hA d hmem
  have hk := congrFun hs k
  cases hg : mapGet k d.2 with
  | none =>
    show mapGet k t = none
    rw [← sees_none, hk, look_none]
    intro hc
    obtain ⟨kv, hkv, rfl⟩ := List.mem_map.1 hc
    obtain ⟨v, hv, _⟩ := mark_some (marks_mark d.1 hkv)
    rw [anchors_get_mem hnd hv] at hg; cases hg
  | some v =>
    obtain ⟨m, hm, hmm⟩ := hcov (k, v) (anchors_get_some hg)
    have hin : (k, m) ∈ d.1.marks d.2 := occurs_marks hm hmm
    have hlook : look (d.1.marks d.2) k = some m.erase := look_of_mem (hn d hmem) hin
    rw [hlook] at hk
    unfold sees at hk
    cases hv' : mapGet k t with
    | none => rw [hv'] at hk; cases hk
    | some v' =>
      simp only [hv', Option.map_some, Option.some.injEq] at hk
      refine ⟨v', rfl, ?_⟩
      obtain ⟨w, hw, he⟩ := mark_some hmm
      have : w = v := by have := anchors_get_mem hnd hw; rw [hg] at this; exact (Option.some.inj this).symm
      subst this
      have hmr : Readable m := fun a ha => (hr d hmem).1 a (ha.trans hm)
      have hwr : Readable w := (hr d hmem).2 _ hw
      have hmw : Node.eq? w m = .ok true := by rw [eq?_ok w hwr m hmr, he]
      have he : eraseMeta v' = eraseMeta m := by
        rw [← erase_meta v', ← Node.noPos_erase v', hk, Node.erase_erase, erase_meta]
      rw [← hmw]
      exact C32_ignores_pos_and_tag w v' w m rfl he

/-! ### The hypotheses are met -/

/-- `{k: &a v, l: *a, m: [&b !t [q], *b]}` -/
def anchorRoot : Node :=
  .ofYaml (.map [(.ofYaml (.str b!"k"), .ofYaml (.str b!"v")), (.ofYaml (.str b!"l"), .ofYaml (.alias b!"a")),
    (.ofYaml (.str b!"m"), .ofYaml (.seq [.mk 0 b!"t" (.seq [.ofYaml (.str b!"q")]), .ofYaml (.alias b!"b")]))])

def anchorTable : Anchors := [(b!"a", .ofYaml (.str b!"v")), (b!"b", .ofYaml (.seq [.ofYaml (.str b!"q")]))]

theorem anchorRoot_dumpable : anchorRoot.dumpableA unix anchorTable false := by
  have w : ∀ {inner : Bool} (T : Bytes), isWord T = true → (∀ kv ∈ keywords, kv.1 ≠ T) →
      (∀ a, mark anchorTable (Node.mk 0 [] (.str T)) = some a → IsIdent a) →
      (Node.mk 0 [] (.str T)).dumpableA unix anchorTable inner := by
    intro inner T h hk hm
    simp only [Node.dumpableA, Yaml.dumpableA]
    exact ⟨.inl (.inl rfl), hm, .inl (lineStr_word h hk)⟩
  have none' : ∀ {y : Yaml}, mark anchorTable (Node.mk 0 [] y) = none →
      ∀ a, mark anchorTable (Node.mk 0 [] y) = some a → IsIdent a := by intro y h a h'; rw [h] at h'; cases h'
  have key : ∀ {T : Bytes}, isWord T = true → (∀ kv ∈ keywords, kv.1 ≠ T) → mark anchorTable (Node.mk 0 [] (.str T)) = none →
      (Node.mk 0 [] (.str T)).dumpableA unix anchorTable false ∧ (Node.mk 0 [] (.str T)).yaml.isScalar = true ∧
        PlainTag (Node.mk 0 [] (.str T)).rawTag ∧ mark anchorTable (Node.mk 0 [] (.str T)) = none :=
    fun h hk hm => ⟨w _ h hk (none' hm), rfl, .inl rfl, hm⟩
  have al : ∀ {a : Bytes} {inner : Bool}, IsIdent a → mark anchorTable (Node.mk 0 [] (.alias a)) = none →
      (Node.mk 0 [] (.alias a)).dumpableA unix anchorTable inner := by
    intro a inner h hm
    simp only [Node.dumpableA, Yaml.dumpableA]; exact ⟨.inl (.inl rfl), none' hm, h⟩
  have ia : IsIdent b!"a" := ⟨rfl, by decide⟩
  have ib : IsIdent b!"b" := ⟨rfl, by decide⟩
  simp only [anchorRoot, Node.ofYaml, Node.dumpableA, Yaml.dumpableA]
  refine ⟨.inl (.inl rfl), none' rfl, by simp, keysOK_str _ (by simp [Node.yaml]), ?_, ?_⟩
  · refine .cons ?_ (.cons ?_ (.cons (by simp) .nil))
    · intro e he; simp at he; rcases he with rfl | rfl <;> rfl
    · intro e he; simp at he; subst he; rfl
  · simp only [entriesDumpableA, entryDumpableA]
    refine ⟨⟨key (by decide) (by decide) rfl, w _ (by decide) (by decide) ?_, by simp [Node.yaml, Yaml.isColl]⟩,
      ⟨key (by decide) (by decide) rfl, al ia rfl, by simp [Node.yaml, Yaml.isColl]⟩,
      ⟨key (by decide) (by decide) rfl, ?_, fun _ => ⟨.inl rfl, rfl⟩⟩, trivial⟩
    · intro a h
      obtain rfl : b!"a" = a := Option.some.inj (by rw [← h]; rfl)
      exact ia
    · simp only [Node.dumpableA, Yaml.dumpableA, itemsDumpableA]
      refine ⟨.inl (.inl rfl), none' rfl, by simp, ⟨.inr (.inl ⟨by decide, by decide⟩), ?_, by simp,
        ⟨.inl (.inl rfl), none' rfl, .inl (lineStr_word (by decide) (by decide))⟩, trivial⟩, ⟨.inl (.inl rfl), none' rfl, ib⟩, trivial⟩
      intro a h
      obtain rfl : b!"b" = a := Option.some.inj (by rw [← h]; rfl)
      exact ib

theorem readable_of_str {l : List Bytes} {p : Nat} {t : Bytes} :
    Readable (.mk p t (.seq (l.map fun s => .ofYaml (.str s)))) := by
  refine readable_leaf trivial fun x hx => ?_
  obtain ⟨s, _, rfl⟩ := List.mem_map.1 hx
  exact str_readable _ _ _

theorem anchorRoot_readable : Readable anchorRoot ∧ ∀ kv ∈ anchorTable, Readable kv.2 := by
  have al : ∀ {a : Bytes}, Readable (Node.mk 0 [] (.alias a)) := fun {a} => readable_leaf trivial trivial
  constructor
  · refine readable_leaf trivial fun k v h => ?_
    simp only [List.mem_cons, List.not_mem_nil, or_false, Prod.mk.injEq] at h
    rcases h with ⟨rfl, rfl⟩ | ⟨rfl, rfl⟩ | ⟨rfl, rfl⟩
    · exact ⟨str_readable _ _ _, str_readable _ _ _⟩
    · exact ⟨str_readable _ _ _, al⟩
    · refine ⟨str_readable _ _ _, readable_leaf trivial fun x hx => ?_⟩
      simp only [List.mem_cons, List.not_mem_nil, or_false] at hx
      rcases hx with rfl | rfl
      · exact readable_of_str (l := [b!"q"])
      · exact al
  · intro kv h
    simp only [anchorTable, List.mem_cons, List.not_mem_nil, or_false] at h
    rcases h with rfl | rfl
    · exact str_readable _ _ _
    · exact readable_of_str (l := [b!"q"])

/-- The sample, its anchors and its aliases come back. -/
example : ∃ text, Ends (fun n => dump unix n [anchorRoot] [anchorTable]) (.ok text) ∧ ∃ ns' tables',
    (∀ h, Ends (fun n => parseCyclic h n text) (.ok (ns', tables'))) ∧ tables'.length = 1 ∧
    ∀ (i : Nat) d t, [(anchorRoot, anchorTable)][i]? = some d → tables'[i]? = some t → ∀ k,
      match mapGet k d.2 with
      | none => mapGet k t = none
      | some v => ∃ v', mapGet k t = some v' ∧ Node.eq? v v' = .ok true := by
  refine C58_tables_come_back unix [(anchorRoot, anchorTable)] (by simp) ?_ ?_ ?_ (by simp) ?_
  · simpa using anchorRoot_readable
  · simpa using anchorRoot_dumpable
  · have e : anchorRoot.marks anchorTable = [(b!"a", .ofYaml (.str b!"v")), (b!"b", .mk 0 b!"t" (.seq [.ofYaml (.str b!"q")]))] := by
      decide +kernel
    simp [e]
  · simp only [List.mem_singleton, forall_eq]
    refine ⟨by simp [anchorTable], ?_⟩
    intro kv h
    simp only [anchorTable, List.mem_cons, List.not_mem_nil, or_false] at h
    rcases h with rfl | rfl
    · exact ⟨.ofYaml (.str b!"v"), .value (k := .ofYaml (.str b!"k")) (by simp) .self, rfl⟩
    · exact ⟨.mk 0 b!"t" (.seq [.ofYaml (.str b!"q")]), .value (k := .ofYaml (.str b!"m")) (.tail _ (.tail _ (.head _))) (.item (by simp) .self), rfl⟩

/-- Its text. -/
example : dump unix 30 [anchorRoot] [anchorTable] =
    .ok b!"k: &a v\nl: *a\nm:\n  - &b !t \n    - q\n  - *b\n" := by decide +kernel

/-! ### What does not come back -/

theorem dump_anchors_of {cfg : DumpCfg} {ns : List Node} {A : List Anchors} {o : Out Bytes} {n : Nat}
    (e : dump cfg n ns A = o) (ho : o ≠ .diverge) : Ends (fun n => dump cfg n ns A) o :=
  ⟨ho, n, fun m hm => by subst e; exact C49_dump_stable cfg ns A n m hm ho⟩

/-- A node that equals an anchored one gets the anchor too: the text is rejected. -/
theorem C58_counterexample_equal_nodes :
    Ends (fun n => dump unix n [.ofYaml (.seq [.ofYaml (.str b!"w"), .ofYaml (.str b!"w")])] [[(b!"a", .ofYaml (.str b!"w"))]])
      (.ok b!"\n- &a w\n- &a w\n") ∧
    ∃ e, Ends (fun n => parseCyclic .exact n b!"\n- &a w\n- &a w\n") (.err (.terminate "duplicated anchor definition" e)) :=
  ⟨dump_anchors_of (n := 30) (by decide +kernel) (by simp),
    b!"3:7\n- &a w\n      ^", parseCyclic_returns_of (n := 30) (by decide +kernel) (by simp)⟩

/-- The anchor of a collection in an entry value ends up in a string. -/
theorem C58_counterexample_collection :
    Ends (fun n => dump unix n [.ofYaml (.map [(.ofYaml (.str b!"k"), .ofYaml (.seq [.ofYaml (.str b!"x")]))])]
      [[(b!"a", .ofYaml (.seq [.ofYaml (.str b!"x")]))]]) (.ok b!"k:&a \n  - x\n") ∧
    Ends (fun n => parseCyclic .exact n b!"k:&a \n  - x\n") (.ok ([.mk 0 [] (.str b!"k:&a  - x")], [[]])) :=
  ⟨dump_anchors_of (n := 30) (by decide +kernel) (by simp), parseCyclic_returns_of (n := 30) (by decide +kernel) (by simp)⟩

/-- The anchor of the first key of the root becomes that of the map. -/
theorem C58_counterexample_key :
    Ends (fun n => dump unix n [.ofYaml (.map [(.ofYaml (.str b!"k"), .ofYaml (.str b!"v"))])]
      [[(b!"a", .ofYaml (.str b!"k"))]]) (.ok b!"&a k: v\n") ∧
    ∃ m, m.yaml.isColl = true ∧ Ends (fun n => parseCyclic .exact n b!"&a k: v\n") (.ok ([m], [[(b!"a", m)]])) :=
  ⟨dump_anchors_of (n := 30) (by decide +kernel) (by simp),
    .mk 3 [] (.map [(.mk 3 [] (.str b!"k"), .mk 6 [] (.str b!"v"))]), rfl,
    parseCyclic_returns_of (n := 30) (by decide +kernel) (by simp)⟩

/-- An anchored sequence as the root of a later document is rejected. -/
theorem C58_counterexample_later_root :
    Ends (fun n => dump unix n [.ofYaml (.str b!"x"), .ofYaml (.seq [.ofYaml (.str b!"c")])]
      [[], [(b!"y", .ofYaml (.seq [.ofYaml (.str b!"c")]))]]) (.ok b!"x\n---\n&y \n- c\n") ∧
    Ends (fun n => parseCyclic .exact n b!"x\n---\n&y \n- c\n") (.err (.terminate "document splitter" b!"3:4\n&y \n   ^")) :=
  ⟨dump_anchors_of (n := 30) (by decide +kernel) (by simp), parseCyclic_returns_of (n := 30) (by decide +kernel) (by simp)⟩

end YamlPeg.Props
