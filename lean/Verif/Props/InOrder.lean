import Verif.Proof.InOrder
import Verif.Props.Twice
/-!
# Positions follow the order of the text: C81
-/

namespace YamlPeg.Props
open YamlPeg M

/-- **C81.** In everything `parse_cyclic` returns, however deep: no part of a node stands in front of the node, the
items of a sequence stand one behind the other, a value stands behind its key and behind the keys and values of the
entries before it; and the documents stand one behind the other. -/
theorem C81_in_order (h : HashCfg) (n : Nat) (doc : Bytes) (roots : List Node) (anchors : List Anchors)
    (hp : parseCyclic h n doc = .ok (roots, anchors)) :
    (∀ root ∈ roots, ∀ m, Occurs m root → InOrderHere m) ∧ roots.Pairwise Node.Before :=
  ⟨fun root hr m hm => ((parseCyclic_span hp).1 root hr m hm).inOrder, (parseCyclic_span hp).2.1.imp fun h => h.1⟩

/-- **C81.** The same of `parse`, for a text without aliases. -/
theorem C81_parse_without_aliases (h : HashCfg) (n : Nat) (doc : Bytes) (hs : (0x2A : UInt8) ∉ doc) (roots : List Node)
    (hp : parse h n doc = .ok roots) :
    (∀ root ∈ roots, ∀ m, Occurs m root → InOrderHere m) ∧ roots.Pairwise Node.Before := by
  rw [C12_agree h doc hs] at hp
  rcases ho : parseCyclic h n doc with ⟨v, t⟩ | _ | _ | _
  · rw [ho] at hp
    cases hp
    exact ⟨fun root hr m hm => ((parseCyclic_span ho).1 root hr m hm).inOrder, (parseCyclic_span ho).2.1.imp fun h => h.1⟩
  all_goals rw [ho] at hp; cases hp

/-- The claims are about documents such as these two: nested, with a complex value, an anchor and an alias. -/
example : (parseCyclic .exact 40 b!"a: [1, {x: y}]\nb: &k 2\n---\n- *k\n- [2]\n").map (fun x => x.1.map Node.positions) =
    .ok [[0, 0, 3, 4, 7, 8, 11, 15, 21], [26, 29, 34, 35]] := by decide +kernel

/-- What the claim denies can be said: a sequence with its items exchanged is not in order. -/
example : ¬ InOrderHere (.mk 0 [] (.seq [.mk 6 [] .null, .mk 2 [] .null])) := by
  rintro ⟨-, h⟩
  change List.Pairwise Node.Before _ at h
  have h1 : Node.Before (.mk 6 [] .null) (.mk 2 [] .null) := (List.pairwise_cons.1 h).1 _ (by simp)
  exact absurd (h1 6 (by simp [Node.positions]) 2 (by simp [Node.positions])) (by decide)

/-- **C81, counterexample.** `parse` puts the node of the anchor where the alias stands, with its own positions inside:
in `- &a [x]` and `- *a` the second item is said to stand at 11 and the text in it at 6. -/
theorem C81_counterexample_alias :
    Ends (fun n => parse .exact n b!"- &a [x]\n- *a\n")
      (.ok [.mk 0 [] (.seq [.mk 5 [] (.seq [.mk 6 [] (.str b!"x")]), .mk 11 [] (.seq [.mk 6 [] (.str b!"x")])])]) ∧
    ¬ InOrderHere (.mk 11 [] (.seq [.mk 6 [] (.str b!"x")])) :=
  ⟨parse_returns_of (n := 40) (by decide +kernel) (by simp), fun h =>
    absurd (h.1 6 (by simp [Node.yaml, Yaml.positions, positionsL, Node.positions])) (by decide)⟩

/-- **C81, counterexample.** Of the keys among each other nothing can be said: a key given twice stands behind the
others, with the value given last and the position of the first time. -/
theorem C81_counterexample_keys :
    Ends (fun n => parse .exact n b!"a: 1\nb: 2\na: 3\n")
      (.ok [.mk 0 [] (.map [(.mk 5 [] (.str b!"b"), .mk 8 [] (.int b!"2")), (.mk 0 [] (.str b!"a"), .mk 13 [] (.int b!"3"))])]) :=
  parse_returns_of (n := 40) (by decide +kernel) (by simp)

end YamlPeg.Props
