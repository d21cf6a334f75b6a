import Verif.Proof.SerdeErr
/-! # Nodes through serde -/

namespace YamlPeg

section
variable {h : HashCfg} {f : FloatFmt}

/-- The node contains an alias. -/
def HasAlias (n : Node) : Prop := ∃ m a, Occurs m n ∧ m.yaml = .alias a

/-- In every mapping inside the node the keys are pairwise different. -/
def KeysDistinct (n : Node) : Prop := Everywhere (fun m => ∀ es, m.yaml = .map es → KeysDiffer es) n

theorem HasAlias.of_occurs {m n : Node} (ho : Occurs m n) (hm : HasAlias m) : HasAlias n := by
  obtain ⟨x, a, h1, h2⟩ := hm
  exact ⟨x, a, h1.trans ho, h2⟩

/-- A collection has an alias only if a part has one. -/
theorem hasAlias_seq {p : Nat} {tag : Bytes} {l : List Node} (ha : HasAlias (.mk p tag (.seq l))) :
    ∃ x ∈ l, HasAlias x := by
  obtain ⟨m, a, h1, h2⟩ := ha
  cases h1 with
  | self => cases h2
  | item hx hm => exact ⟨_, hx, m, a, hm, h2⟩

theorem hasAlias_map {p : Nat} {tag : Bytes} {l : List (Node × Node)} (ha : HasAlias (.mk p tag (.map l))) :
    ∃ k v, (k, v) ∈ l ∧ (HasAlias k ∨ HasAlias v) := by
  obtain ⟨m, a, h1, h2⟩ := ha
  cases h1 with
  | self => cases h2
  | key hx hm => exact ⟨_, _, hx, .inl ⟨m, a, hm, h2⟩⟩
  | value hx hm => exact ⟨_, _, hx, .inr ⟨m, a, hm, h2⟩⟩

theorem not_hasAlias_leaf {p : Nat} {tag : Bytes} {y : Yaml} (hy : ∀ a, y ≠ .alias a)
    (hs : ∀ l, y ≠ .seq l) (hm : ∀ l, y ≠ .map l) : ¬ HasAlias (.mk p tag y) := by
  rintro ⟨m, a, h1, h2⟩
  cases h1 with
  | self => exact hy a h2
  | item => exact hs _ rfl
  | key => exact hm _ rfl
  | value => exact hm _ rfl

/-- The result of serializing a node: an error exactly if it has an alias. -/
def SerOutcome (n : Node) (x : SRes Node) : Prop :=
  (HasAlias n ∧ x = .err .anchor 0) ∨ (¬ HasAlias n ∧ ∃ n', x = .ok n' ∧ Readable n')

theorem serNodes_outcome : ∀ l : List Node, (∀ x ∈ l, SerOutcome x (serNode h f x)) →
    ((∃ x ∈ l, HasAlias x) ∧ serNodes h f l = .err .anchor 0) ∨
    ((∀ x ∈ l, ¬ HasAlias x) ∧ ∃ l', serNodes h f l = .ok l' ∧ ∀ x ∈ l', Readable x)
  | [], _ => .inr ⟨by simp, [], rfl, by simp⟩
  | n :: r, hx => by
    simp only [serNodes]
    rcases hx n (by simp) with ⟨h1, h2⟩ | ⟨h1, n', h2, h3⟩
    · rw [h2]; exact .inl ⟨⟨n, by simp, h1⟩, rfl⟩
    · rw [h2, SRes.bind_ok]
      rcases serNodes_outcome r (fun x hx' => hx x (by simp [hx'])) with ⟨⟨x, h4, h5⟩, h6⟩ | ⟨h4, l', h5, h6⟩
      · rw [h6]; exact .inl ⟨⟨x, by simp [h4], h5⟩, rfl⟩
      · rw [h5]
        refine .inr ⟨?_, n' :: l', rfl, ?_⟩
        · intro x hx'
          rcases List.mem_cons.1 hx' with rfl | hx'
          · exact h1
          · exact h4 x hx'
        · intro x hx'
          rcases List.mem_cons.1 hx' with rfl | hx'
          · exact h3
          · exact h6 x hx'

theorem serNodeEntries_outcome : ∀ (l acc : List (Node × Node)),
    (∀ k v, (k, v) ∈ l → SerOutcome k (serNode h f k) ∧ SerOutcome v (serNode h f v)) →
    (∀ e ∈ acc, Readable e.1 ∧ Readable e.2) →
    ((∃ k v, (k, v) ∈ l ∧ (HasAlias k ∨ HasAlias v)) ∧ serNodeEntries h f acc l = .err .anchor 0) ∨
    ((∀ k v, (k, v) ∈ l → ¬ HasAlias k ∧ ¬ HasAlias v) ∧
      ∃ l', serNodeEntries h f acc l = .ok l' ∧ ∀ e ∈ l', Readable e.1 ∧ Readable e.2)
  | [], acc, _, ha => .inr ⟨by simp, acc, rfl, ha⟩
  | (k, v) :: r, acc, hx, ha => by
    simp only [serNodeEntries, serNodeEntry]
    obtain ⟨hk, hv⟩ := hx k v (by simp)
    rcases hk with ⟨h1, h2⟩ | ⟨h1, a, h2, h3⟩
    · rw [h2]; exact .inl ⟨⟨k, v, by simp, .inl h1⟩, rfl⟩
    · rw [h2]
      rcases hv with ⟨h4, h5⟩ | ⟨h4, c, h5, h6⟩
      · rw [h5]; exact .inl ⟨⟨k, v, by simp, .inr h4⟩, rfl⟩
      · rw [h5]
        obtain ⟨m', e1, e2⟩ := serInsert_readable (h := h) (k := a) (v := c) h3 h6 ha
        simp only [SRes.bind_ok, SRes.pure_eq, e1]
        rcases serNodeEntries_outcome r m' (fun k v hkv => hx k v (by simp [hkv])) e2 with
          ⟨⟨k', v', q1, q2⟩, q3⟩ | ⟨q1, l', q2, q3⟩
        · exact .inl ⟨⟨k', v', by simp [q1], q2⟩, q3⟩
        · refine .inr ⟨?_, l', q2, q3⟩
          intro k' v' hkv
          rcases List.mem_cons.1 hkv with e | hkv
          · cases e; exact ⟨h1, h4⟩
          · exact q1 k' v' hkv

theorem serNode_outcome (hf : f.Exact) : ∀ n, Readable n → SerOutcome n (serNode h f n) := by
  refine Node.induct ?_
  intro p tag y hk hr
  have hh := (everywhere_mk.1 hr).1
  cases y with
  | null => exact .inr ⟨not_hasAlias_leaf (by simp) (by simp) (by simp), _, rfl, readable_of trivial trivial⟩
  | bool v => exact .inr ⟨not_hasAlias_leaf (by simp) (by simp) (by simp), _, rfl, readable_of trivial trivial⟩
  | str s => exact .inr ⟨not_hasAlias_leaf (by simp) (by simp) (by simp), _, rfl, readable_of trivial trivial⟩
  | alias a => exact .inl ⟨⟨_, a, .self, rfl⟩, rfl⟩
  | int s =>
    simp only [ReadableHere, Node.yaml] at hh
    obtain ⟨i, hi⟩ := Option.isSome_iff_exists.1 hh
    refine .inr ⟨not_hasAlias_leaf (by simp) (by simp) (by simp), .ofYaml (.int (intDec i)),
      by simp [serNode, serYaml, hi], readable_of ?_ trivial⟩
    simp [ReadableHere, Node.yaml, toI64_intDec, toI64_inI64 hi]
  | float s =>
    simp only [ReadableHere, Node.yaml] at hh
    obtain ⟨x, hx⟩ := Option.isSome_iff_exists.1 hh
    exact .inr ⟨not_hasAlias_leaf (by simp) (by simp) (by simp), .ofYaml (.float (f.fmt x)),
      by simp [serNode, serYaml, hx], readable_of (hf.total x) trivial⟩
  | seq l =>
    simp only [serNode, serYaml]
    rcases serNodes_outcome l (fun x hx => hk x hx (hr.seq x hx)) with ⟨⟨x, h1, h2⟩, h3⟩ | ⟨h1, l', h2, h3⟩
    · exact .inl ⟨h2.of_occurs (.item h1 .self), by rw [h3]; rfl⟩
    · refine .inr ⟨fun ha => ?_, .ofYaml (.seq l'), by rw [h2]; rfl, readable_of trivial h3⟩
      obtain ⟨x, hx, hxa⟩ := hasAlias_seq ha
      exact h1 x hx hxa
  | map l =>
    simp only [serNode, serYaml]
    rcases serNodeEntries_outcome (h := h) (f := f) l [] (fun k v hkv => by
        have q := hr.map k v hkv
        exact ⟨(hk k v hkv).1 q.1, (hk k v hkv).2 q.2⟩) (by simp) with ⟨⟨k, v, h1, h2⟩, h3⟩ | ⟨h1, l', h2, h3⟩
    · refine .inl ⟨?_, by rw [h3]; rfl⟩
      rcases h2 with h2 | h2
      · exact h2.of_occurs (.key h1 .self)
      · exact h2.of_occurs (.value h1 .self)
    · refine .inr ⟨fun ha => ?_, .ofYaml (.map l'), by rw [h2]; rfl,
        readable_of trivial (fun k v hkv => h3 (k, v) hkv)⟩
      obtain ⟨k, v, hkv, hxa⟩ := hasAlias_map ha
      rcases hxa with hxa | hxa
      · exact (h1 k v hkv).1 hxa
      · exact (h1 k v hkv).2 hxa

/-! ## Reading a node as a node -/

/-- The result of reading a node as `Node`: an error with the position of one of
its aliases exactly if it has one. -/
def DeOutcome (n : Node) (x : SRes Node) : Prop :=
  (∃ m a, Occurs m n ∧ m.yaml = .alias a ∧ x = .err .anchor m.pos) ∨
  (¬ HasAlias n ∧ ∃ n', x = .ok n' ∧ Readable n')

theorem deNodes_outcome : ∀ l : List Node, (∀ x ∈ l, DeOutcome x (deNode h f x)) →
    (∃ x ∈ l, ∃ m a, Occurs m x ∧ m.yaml = .alias a ∧ deNodes h f l = .err .anchor m.pos) ∨
    ((∀ x ∈ l, ¬ HasAlias x) ∧ ∃ l', deNodes h f l = .ok l' ∧ ∀ x ∈ l', Readable x)
  | [], _ => .inr ⟨by simp, [], rfl, by simp⟩
  | n :: r, hx => by
    simp only [deNodes]
    rcases hx n (by simp) with ⟨m, a, h1, h2, h3⟩ | ⟨h1, n', h2, h3⟩
    · rw [h3]; exact .inl ⟨n, by simp, m, a, h1, h2, rfl⟩
    · rw [h2, SRes.bind_ok]
      rcases deNodes_outcome r (fun x hx' => hx x (by simp [hx'])) with ⟨x, h4, m, a, h5, h6, h7⟩ | ⟨h4, l', h5, h6⟩
      · rw [h7]; exact .inl ⟨x, by simp [h4], m, a, h5, h6, rfl⟩
      · rw [h5]
        refine .inr ⟨?_, n' :: l', rfl, ?_⟩
        · intro x hx'
          rcases List.mem_cons.1 hx' with rfl | hx'
          · exact h1
          · exact h4 x hx'
        · intro x hx'
          rcases List.mem_cons.1 hx' with rfl | hx'
          · exact h3
          · exact h6 x hx'

theorem deNodeEntries_outcome : ∀ (l acc : List (Node × Node)),
    (∀ k v, (k, v) ∈ l → DeOutcome k (deNode h f k) ∧ DeOutcome v (deNode h f v)) →
    (∀ e ∈ acc, Readable e.1 ∧ Readable e.2) →
    (∃ k v, (k, v) ∈ l ∧ ∃ m a, (Occurs m k ∨ Occurs m v) ∧ m.yaml = .alias a ∧
      deNodeEntries h f acc l = .err .anchor m.pos) ∨
    ((∀ k v, (k, v) ∈ l → ¬ HasAlias k ∧ ¬ HasAlias v) ∧
      ∃ l', deNodeEntries h f acc l = .ok l' ∧ ∀ e ∈ l', Readable e.1 ∧ Readable e.2)
  | [], acc, _, ha => .inr ⟨by simp, acc, rfl, ha⟩
  | (k, v) :: r, acc, hx, ha => by
    simp only [deNodeEntries, deNodeEntry]
    obtain ⟨hk, hv⟩ := hx k v (by simp)
    rcases hk with ⟨m, a, h1, h2, h3⟩ | ⟨h1, a, h2, h3⟩
    · rw [h3]; exact .inl ⟨k, v, by simp, m, a, .inl h1, h2, rfl⟩
    · rw [h2]
      rcases hv with ⟨m, b, h4, h5, h6⟩ | ⟨h4, c, h5, h6⟩
      · rw [h6]; exact .inl ⟨k, v, by simp, m, b, .inr h4, h5, rfl⟩
      · rw [h5]
        obtain ⟨m', e1, e2⟩ := serInsert_readable (h := h) (k := a) (v := c) h3 h6 ha
        simp only [SRes.bind_ok, SRes.pure_eq, e1]
        rcases deNodeEntries_outcome r m' (fun k v hkv => hx k v (by simp [hkv])) e2 with
          ⟨k', v', q1, m, b, q2, q3, q4⟩ | ⟨q1, l', q2, q3⟩
        · exact .inl ⟨k', v', by simp [q1], m, b, q2, q3, q4⟩
        · refine .inr ⟨?_, l', q2, q3⟩
          intro k' v' hkv
          rcases List.mem_cons.1 hkv with e | hkv
          · cases e; exact ⟨h1, h4⟩
          · exact q1 k' v' hkv

theorem deNode_outcome (hf : f.Exact) : ∀ n, Readable n → DeOutcome n (deNode h f n) := by
  refine Node.induct ?_
  intro p tag y hk hr
  have hh := (everywhere_mk.1 hr).1
  cases y with
  | null => exact .inr ⟨not_hasAlias_leaf (by simp) (by simp) (by simp), _, rfl, readable_of trivial trivial⟩
  | bool v => exact .inr ⟨not_hasAlias_leaf (by simp) (by simp) (by simp), _, rfl, readable_of trivial trivial⟩
  | str s => exact .inr ⟨not_hasAlias_leaf (by simp) (by simp) (by simp), _, rfl, readable_of trivial trivial⟩
  | alias a => exact .inl ⟨_, a, .self, rfl, rfl⟩
  | int s =>
    simp only [ReadableHere, Node.yaml] at hh
    obtain ⟨i, hi⟩ := Option.isSome_iff_exists.1 hh
    refine .inr ⟨not_hasAlias_leaf (by simp) (by simp) (by simp), .ofYaml (.int (intDec i)),
      by simp [deNode, deYaml, hi], readable_of ?_ trivial⟩
    simp [ReadableHere, Node.yaml, toI64_intDec, toI64_inI64 hi]
  | float s =>
    simp only [ReadableHere, Node.yaml] at hh
    obtain ⟨x, hx⟩ := Option.isSome_iff_exists.1 hh
    exact .inr ⟨not_hasAlias_leaf (by simp) (by simp) (by simp), .ofYaml (.float (f.fmt x)),
      by simp [deNode, deYaml, hx], readable_of (hf.total x) trivial⟩
  | seq l =>
    simp only [deNode, deYaml]
    rcases deNodes_outcome l (fun x hx => hk x hx (hr.seq x hx)) with ⟨x, h1, m, a, h2, h3, h4⟩ | ⟨h1, l', h2, h3⟩
    · exact .inl ⟨m, a, .item h1 h2, h3, by rw [h4]; rfl⟩
    · refine .inr ⟨fun ha => ?_, .ofYaml (.seq l'), by rw [h2]; rfl, readable_of trivial h3⟩
      obtain ⟨x, hx, hxa⟩ := hasAlias_seq ha
      exact h1 x hx hxa
  | map l =>
    simp only [deNode, deYaml]
    rcases deNodeEntries_outcome (h := h) (f := f) l [] (fun k v hkv => by
        have q := hr.map k v hkv
        exact ⟨(hk k v hkv).1 q.1, (hk k v hkv).2 q.2⟩) (by simp) with
      ⟨k, v, h1, m, a, h2, h3, h4⟩ | ⟨h1, l', h2, h3⟩
    · refine .inl ⟨m, a, ?_, h3, by rw [h4]; rfl⟩
      rcases h2 with h2 | h2
      · exact .key h1 h2
      · exact .value h1 h2
    · obtain ⟨m, e1, e2⟩ := entriesCollect_readable (h := h) l' [] (by simp) h3
      refine .inr ⟨fun ha => ?_, .ofYaml (.map m), by rw [h2, SRes.bind_ok, e1]; rfl,
        readable_of trivial (fun k v hkv => e2 (k, v) hkv)⟩
      obtain ⟨k, v, hkv, hxa⟩ := hasAlias_map ha
      rcases hxa with hxa | hxa
      · exact (h1 k v hkv).1 hxa
      · exact (h1 k v hkv).2 hxa

/-! ## Equality -/

/-- The node is written and read as an equal node. -/
def NodeRT (h : HashCfg) (f : FloatFmt) (n : Node) : Prop :=
  ∃ n', serNode h f n = .ok n' ∧ deNode h f n = .ok n' ∧ Node.eqb n n' = true ∧ Readable n'

theorem nodes_rt : ∀ l : List Node, (∀ x ∈ l, NodeRT h f x) →
    ∃ l', serNodes h f l = .ok l' ∧ deNodes h f l = .ok l' ∧ nodesEqb l l' = true ∧ ∀ x ∈ l', Readable x
  | [], _ => ⟨[], rfl, rfl, rfl, by simp⟩
  | n :: r, hx => by
    obtain ⟨n', h1, h2, h3, h4⟩ := hx n (by simp)
    obtain ⟨l', g1, g2, g3, g4⟩ := nodes_rt r (fun x hx' => hx x (by simp [hx']))
    refine ⟨n' :: l', by simp [serNodes, h1, g1], by simp [deNodes, h2, g2], by simp [nodesEqb, h3, g3], ?_⟩
    intro x hx'
    rcases List.mem_cons.1 hx' with rfl | hx'
    · exact h4
    · exact g4 x hx'

theorem serInsert_differ {m : List (Node × Node)} {k v : Node} (hk : Readable k)
    (hm : ∀ e ∈ m, Readable e.1 ∧ Node.eqb e.1 k = false) : serInsert h m k v = .ok (m ++ [(k, v)]) := by
  rw [serInsert, entriesInsert_new]
  · rfl
  · intro e he
    rw [eq?_ok k hk e.1 (hm e he).1, eqb_comm, (hm e he).2]

/-- Entries, inserted after `acc`. -/
theorem entries_rt : ∀ (l acc : List (Node × Node)),
    (∀ k v, (k, v) ∈ l → NodeRT h f k ∧ NodeRT h f v) → KeysDiffer l →
    (∀ e ∈ acc, Readable e.1 ∧ ∀ e' ∈ l, Node.eqb e.1 e'.1 = false) →
    ∃ l', serNodeEntries h f acc l = .ok (acc ++ l') ∧ deNodeEntries h f acc l = .ok (acc ++ l') ∧
      entriesEqb l l' = true ∧ (∀ e ∈ l', Readable e.1 ∧ Readable e.2) ∧ KeysDiffer l' ∧
      (∀ d : Node, (∀ e ∈ l, Node.eqb d e.1 = false) → ∀ e ∈ l', Node.eqb d e.1 = false)
  | [], acc, _, _, _ => ⟨[], by simp [serNodeEntries], by simp [deNodeEntries], rfl, by simp, .nil, by simp⟩
  | (k, v) :: r, acc, hx, hd, ha => by
    obtain ⟨⟨a, k1, k2, k3, k4⟩, ⟨c, v1, v2, v3, v4⟩⟩ := hx k v (by simp)
    obtain ⟨hd1, hd2⟩ := List.pairwise_cons.1 hd
    have hins : serInsert h acc a c = .ok (acc ++ [(a, c)]) := serInsert_differ k4 fun e he => by
      refine ⟨(ha e he).1, ?_⟩
      rw [← eqb_congr_right k3]
      exact (ha e he).2 (k, v) (by simp)
    obtain ⟨l', g1, g2, g3, g4, g5, g6⟩ := entries_rt r (acc ++ [(a, c)]) (fun k v hkv => hx k v (by simp [hkv])) hd2
      (by
        intro e he
        rcases List.mem_append.1 he with he | he
        · exact ⟨(ha e he).1, fun e' he' => (ha e he).2 e' (by simp [he'])⟩
        · rw [List.mem_singleton.1 he]
          refine ⟨k4, fun e' he' => ?_⟩
          rw [← eqb_congr_left k3]
          exact hd1 e' he')
    refine ⟨(a, c) :: l', ?_, ?_, by simp [entriesEqb, entryEqb, k3, v3, g3], ?_, ?_, ?_⟩
    · simp [serNodeEntries, serNodeEntry, k1, v1, hins, g1]
    · simp [deNodeEntries, deNodeEntry, k2, v2, hins, g2]
    · intro e he
      rcases List.mem_cons.1 he with rfl | he
      · exact ⟨k4, v4⟩
      · exact g4 e he
    · refine List.pairwise_cons.2 ⟨?_, g5⟩
      exact g6 a (fun e he => by rw [← eqb_congr_left k3]; exact hd1 e he)
    · intro d hdd e he
      rcases List.mem_cons.1 he with rfl | he
      · show Node.eqb d a = false
        rw [← eqb_congr_right k3]
        exact hdd (k, v) (by simp)
      · exact g6 d (fun e he => hdd e (by simp [he])) e he

theorem collect_differ : ∀ (l acc : List (Node × Node)), (∀ e ∈ l, Readable e.1) → KeysDiffer l →
    (∀ e ∈ acc, Readable e.1 ∧ ∀ e' ∈ l, Node.eqb e.1 e'.1 = false) →
    entriesCollect h acc l = .ok (acc ++ l)
  | [], acc, _, _, _ => by simp [entriesCollect]
  | (k, v) :: r, acc, hr, hd, ha => by
    obtain ⟨hd1, hd2⟩ := List.pairwise_cons.1 hd
    have hins : entriesInsert h acc k v = .ok (acc ++ [(k, v)]) := entriesInsert_new v fun e he => by
      rw [eq?_ok k (hr _ List.mem_cons_self) e.1 (ha e he).1, eqb_comm, (ha e he).2 (k, v) (by simp)]
    simp only [entriesCollect, hins]
    rw [collect_differ r (acc ++ [(k, v)]) (fun e he => hr e (List.mem_cons_of_mem _ he)) hd2 ?_]
    · simp
    · intro e he
      rcases List.mem_append.1 he with he | he
      · exact ⟨(ha e he).1, fun e' he' => (ha e he).2 e' (by simp [he'])⟩
      · rw [List.mem_singleton.1 he]
        exact ⟨hr _ List.mem_cons_self, fun e' he' => hd1 e' he'⟩

theorem node_rt (hf : f.Exact) : ∀ n, Readable n → ¬ HasAlias n → KeysDistinct n → NodeRT h f n := by
  refine Node.induct ?_
  intro p tag y hk hr hna hkd
  have hh := (everywhere_mk.1 hr).1
  cases y with
  | null => exact ⟨_, rfl, rfl, rfl, readable_of trivial trivial⟩
  | bool v => exact ⟨_, rfl, rfl, by simp [Node.eqb, Yaml.eqb, Node.ofYaml], readable_of trivial trivial⟩
  | str s => exact ⟨_, rfl, rfl, by simp [Node.eqb, Yaml.eqb, strNode, Node.ofYaml], readable_of trivial trivial⟩
  | alias a => exact (hna ⟨_, a, .self, rfl⟩).elim
  | int s =>
    simp only [ReadableHere, Node.yaml] at hh
    obtain ⟨i, hi⟩ := Option.isSome_iff_exists.1 hh
    have hi' := toI64_inI64 hi
    refine ⟨.ofYaml (.int (intDec i)), by simp [serNode, serYaml, hi], by simp [deNode, deYaml, hi], ?_,
      readable_of ?_ trivial⟩
    · simp [Node.eqb, Yaml.eqb, Node.ofYaml, hi, toI64_intDec, hi']
    · simp [ReadableHere, Node.yaml, toI64_intDec, hi']
  | float s =>
    simp only [ReadableHere, Node.yaml] at hh
    obtain ⟨x, hx⟩ := Option.isSome_iff_exists.1 hh
    refine ⟨.ofYaml (.float (f.fmt x)), by simp [serNode, serYaml, hx], by simp [deNode, deYaml, hx], ?_,
      readable_of (hf.total x) trivial⟩
    simp [Node.eqb, Yaml.eqb, Node.ofYaml, hx, hf.back x (toF64_canonical hx), F64.same_refl]
  | seq l =>
    obtain ⟨l', h1, h2, h3, h4⟩ := nodes_rt (h := h) (f := f) l (fun x hx => hk x hx (hr.seq x hx)
      (fun ha => hna (ha.of_occurs (.item hx .self))) (fun m hm => hkd m (.item hx hm)))
    exact ⟨.ofYaml (.seq l'), by simp [serNode, serYaml, h1], by simp [deNode, deYaml, h2],
      by simp [Node.eqb, Yaml.eqb, Node.ofYaml, h3], readable_of trivial h4⟩
  | map l =>
    have hd := hkd.here l rfl
    obtain ⟨l', h1, h2, h3, h4, h5, _⟩ := entries_rt (h := h) (f := f) l [] (fun k v hkv => by
      have q := hr.map k v hkv
      exact ⟨(hk k v hkv).1 q.1 (fun ha => hna (ha.of_occurs (.key hkv .self))) (fun m hm => hkd m (.key hkv hm)),
        (hk k v hkv).2 q.2 (fun ha => hna (ha.of_occurs (.value hkv .self))) (fun m hm => hkd m (.value hkv hm))⟩)
      hd (by simp)
    have hc := collect_differ (h := h) l' [] (fun e he => (h4 e he).1) h5 (by simp)
    simp only [List.nil_append] at h1 h2 hc
    exact ⟨.ofYaml (.map l'), by simp [serNode, serYaml, h1], by simp [deNode, deYaml, h2, hc, SRes.ofOut],
      by simp [Node.eqb, Yaml.eqb, Node.ofYaml, h3], readable_of trivial (fun k v hkv => h4 (k, v) hkv)⟩

end

end YamlPeg
