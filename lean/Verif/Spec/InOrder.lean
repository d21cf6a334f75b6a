import Verif.Model.Loader
/-!
# Positions in the order of the text

`n.positions` lists the positions of a node and of everything inside it.  `InOrderHere n`
says of one node how the positions of its parts lie; it does not look further down.
-/

namespace YamlPeg

mutual
def Node.positions : Node → List Nat
  | .mk p _ y => p :: y.positions
def Yaml.positions : Yaml → List Nat
  | .seq l => positionsL l
  | .map m => positionsM m
  | _ => []
def positionsL : List Node → List Nat
  | [] => []
  | x :: r => x.positions ++ positionsL r
def positionsM : List (Node × Node) → List Nat
  | [] => []
  | e :: r => positionsE e ++ positionsM r
def positionsE : Node × Node → List Nat
  | (k, v) => k.positions ++ v.positions
end

/-- Everything in the first node stands in front of everything in the second. -/
def Node.Before (a c : Node) : Prop := ∀ p ∈ a.positions, ∀ q ∈ c.positions, p < q

/-- No part stands in front of the node itself; the items of a sequence stand one behind
the other; a value stands behind its key, and behind the keys and values of all the entries
before it. -/
def InOrderHere (n : Node) : Prop :=
  (∀ p ∈ n.yaml.positions, n.pos ≤ p) ∧
  match n.yaml with
  | .seq l => l.Pairwise Node.Before
  | .map m => (∀ e ∈ m, e.1.Before e.2) ∧ m.Pairwise fun e f => e.1.Before f.2 ∧ e.2.Before f.2
  | _ => True

end YamlPeg
