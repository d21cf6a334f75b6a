import Verif.Props.DumpAnchors
import Verif.Props.Loader
import Verif.Proof.Order
/-!
# The order of anchor tables: C71

A table of anchors is a map ordered by name (`BTreeMap`), so which of several names `dump` writes in
front of a node does not depend on the order in which the names were defined.

* `Ordered A`: the names of `A` increase strictly, in the lexicographic order of their bytes.
-/

namespace YamlPeg.Props
open YamlPeg

/-- **C71.** The tables `parse_cyclic` returns are in the order of their names; in particular no name
is in a table twice, and looking a name up finds exactly the pairs of the table. -/
theorem C71_tables_ordered (h : HashCfg) (n : Nat) (doc : Bytes) (roots : List Node) (tables : List Anchors)
    (hp : parseCyclic h n doc = .ok (roots, tables)) : ∀ A ∈ tables,
      A.Pairwise (fun x y => x.1 < y.1) ∧ (A.map Prod.fst).Nodup ∧
      ∀ name node, mapGet name A = some node ↔ (name, node) ∈ A := by
  obtain ⟨r, l, -, ho, ht⟩ := parseCyclic_run hp
  cases r with
  | ok v =>
    simp only [Out.map, Out.ok.injEq, Prod.mk.injEq] at ho
    obtain ⟨rfl, rfl⟩ := ho
    intro A hA
    have h1 := ht.1.ordered A hA
    refine ⟨h1, ?_, h1.get⟩
    unfold List.Nodup
    rw [List.pairwise_map]
    exact List.Pairwise.imp (fun {x y} hlt heq => by rw [heq] at hlt; exact List.lt_irrefl _ hlt) h1
  | _ => simp [Out.map] at ho

/-- A document whose names come in another order. -/
example : parseCyclic .exact 8 b!"- &b x\n- &ab y\n- &a z\n" =
    .ok ([.mk 0 [] (.seq [.mk 5 [] (.str b!"x"), .mk 13 [] (.str b!"y"), .mk 20 [] (.str b!"z")])],
      [[(b!"a", .mk 20 [] (.str b!"z")), (b!"ab", .mk 13 [] (.str b!"y")), (b!"b", .mk 5 [] (.str b!"x"))]]) := by
  decide +kernel

/-- **C71.** Building a table by insertions keeps it in order: no name is in it twice, whatever the order
of the insertions. -/
theorem C71_insert_ordered (pairs : List (Bytes × Node)) :
    (pairs.foldl (fun A x => mapInsert x.1 x.2 A) []).Pairwise fun x y => x.1 < y.1 := by
  suffices h : ∀ A, Ordered A → Ordered (pairs.foldl (fun A x => mapInsert x.1 x.2 A) A) from
    h [] (by simp [Ordered])
  induction pairs with
  | nil => exact fun A h => h
  | cons x r ih => exact fun A h => ih _ h.insert

/-- The first name of an ordered table whose node equals `x` is the smallest one. -/
theorem find_smallest : ∀ (A : Anchors) (x : Node), Ordered A → ∀ a, findAnchor x A = .ok (some a) →
    ∃ v, (a, v) ∈ A ∧ Node.eq? v x = .ok true ∧
      ∀ b w, (b, w) ∈ A → b < a → Node.eq? w x = .ok false
  | [], x, _, a, h => by simp [findAnchor] at h
  | (k, v) :: r, x, ho, a, h => by
    unfold Ordered at ho
    rw [List.pairwise_cons] at ho
    rw [findAnchor] at h
    split at h
    · rename_i he
      simp only [Out.ok.injEq, Option.some.injEq] at h
      subst h
      refine ⟨v, by simp, he, fun b w hb hlt => ?_⟩
      rcases List.mem_cons.1 hb with hb | hb
      · cases hb; exact absurd hlt (List.lt_irrefl _)
      · exact absurd (List.lt_trans hlt (ho.1 _ hb)) (List.lt_irrefl _)
    · rename_i he
      obtain ⟨v', h1, h2, h3⟩ := find_smallest r x ho.2 a h
      refine ⟨v', by simp [h1], h2, fun b w hb hlt => ?_⟩
      rcases List.mem_cons.1 hb with hb | hb
      · cases hb; exact he
      · exact h3 b w hb hlt
    all_goals simp at h

theorem find_none : ∀ (A : Anchors) (x : Node), findAnchor x A = .ok none →
    ∀ b w, (b, w) ∈ A → Node.eq? w x = .ok false
  | [], x, _, b, w, hb => by simp at hb
  | (k, v) :: r, x, h, b, w, hb => by
    rw [findAnchor] at h
    split at h
    · simp at h
    · rename_i he
      rcases List.mem_cons.1 hb with hb | hb
      · cases hb; exact he
      · exact find_none r x h b w hb
    all_goals simp at h

/-- **C71.** What the dumper writes in front of a node, at any place, given a table in the order of its
names: `&` and a space around the smallest name whose node equals it; nothing, if no node of the table
equals it.  Behind that come the tag and the body. -/
theorem C71_dump_writes_smallest (cfg : DumpCfg) (n : Nat) (root : Root) (level : Nat) (node : Node) (A : Anchors)
    (text : Bytes) (hA : A.Pairwise fun x y => x.1 < y.1)
    (hd : dumpNode cfg n A root level node = .ok text) :
    ∃ mark body, dumpYaml cfg n A root level node.yaml = .ok body ∧ text = mark ++ (tagText node ++ body) ∧
    ((∃ a v, mark = b!"&" ++ a ++ b!" " ∧ (a, v) ∈ A ∧ Node.eq? v node = .ok true ∧
      ∀ b w, (b, w) ∈ A → b < a → Node.eq? w node = .ok false) ∨
    (mark = [] ∧ ∀ b w, (b, w) ∈ A → Node.eq? w node = .ok false)) := by
  cases node with
  | mk p t y =>
    rw [dumpNode, anchorText] at hd
    cases hf : findAnchor (.mk p t y) A with
    | ok o =>
      rw [hf] at hd
      cases hy : dumpYaml cfg n A root level y with
      | ok body =>
        rw [hy] at hd
        cases o with
        | some a =>
          obtain ⟨v, h1, h2, h3⟩ := find_smallest A _ hA a hf
          refine ⟨_, body, hy, ?_, .inl ⟨a, v, rfl, h1, h2, h3⟩⟩
          cases hd
          simp
        | none =>
          refine ⟨_, body, hy, ?_, .inr ⟨rfl, find_none A _ hf⟩⟩
          cases hd
          simp
      | _ => rw [hy] at hd; cases hd
    | _ => rw [hf] at hd; cases hd

/-- Two names for equal nodes: the smaller one is written. -/
example : dumpNode unix 8 [(b!"a", .ofYaml (.str b!"x")), (b!"b", .ofYaml (.str b!"x"))] .scalar 0 (.ofYaml (.str b!"x")) =
    .ok b!"&a x" := by decide +kernel

/-- **C71.** So `dump` does not keep the names `parse_cyclic` found: the second name of a value is lost, and the
first is written twice, which is then rejected. -/
theorem C71_counterexample_renamed : ∃ roots tables,
    Ends (fun n => parseCyclic .exact n b!"- &b x\n- &a x\n") (.ok (roots, tables)) ∧
    Ends (fun n => dump unix n roots tables) (.ok b!"\n- &a x\n- &a x\n") ∧
    ∃ e, Ends (fun n => parseCyclic .exact n b!"\n- &a x\n- &a x\n") (.err (.terminate "duplicated anchor definition" e)) :=
  ⟨[.mk 0 [] (.seq [.mk 5 [] (.str b!"x"), .mk 12 [] (.str b!"x")])],
    [[(b!"a", .mk 12 [] (.str b!"x")), (b!"b", .mk 5 [] (.str b!"x"))]],
    parseCyclic_returns_of (n := 30) (by decide +kernel) (by simp),
    dump_anchors_of (n := 30) (by decide +kernel) (by simp),
    b!"3:7\n- &a x\n      ^", parseCyclic_returns_of (n := 30) (by decide +kernel) (by simp)⟩

end YamlPeg.Props
