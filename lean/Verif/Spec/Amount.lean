import Verif.Spec.Written
/-!
# How much text a result holds

`n.amount` adds up the lengths of all the texts in a node: of its integers, floats and alias names, and of its strings
without the white space at their ends.  Tags do not count.
-/

namespace YamlPeg

mutual
def Node.amount : Node → Nat
  | .mk _ _ y => y.amount
def Yaml.amount : Yaml → Nat
  | .int s => s.length
  | .float s => s.length
  | .alias s => s.length
  | .str s => (trimEnd s).length
  | .seq l => amountL l
  | .map m => amountM m
  | _ => 0
def amountL : List Node → Nat
  | [] => 0
  | x :: r => x.amount + amountL r
def amountM : List (Node × Node) → Nat
  | [] => 0
  | e :: r => amountE e + amountM r
def amountE : Node × Node → Nat
  | (k, v) => k.amount + v.amount
end

end YamlPeg
