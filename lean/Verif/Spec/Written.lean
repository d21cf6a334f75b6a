import Verif.Props.Scan
import Verif.Proof.NodeEq
import Verif.Spec.InOrder
/-!
# Numbers and aliases stand in the text

`Integer t r v`, `Fraction t r v` and `Scientific t r v` (C74) say that the text `t`, in front of `r`, is a number
that is read as `v`; `Name t r` (C73) says that `t`, in front of `r`, is a name.
-/

namespace YamlPeg
open Props (Integer Fraction Scientific Name)

/-- How many bytes of a string can stand for one byte of the text: of a text that is not UTF-8 a byte can become the
three of `U+FFFD`. -/
def spread (d : Bytes) : Nat := if ∀ c ∈ d, c < 0x80 then 1 else 3

/-- The text a leaf is read from stands in the document, not in front of `a`, and it ends at `b` at the latest.
Of the floats, the three words stand for `.nan` and the like; a float in digits is a fraction or has an exponent.
A string, whose text may be folded or hold escapes, is at least not longer than the room between `a` and `b`; white
space at its end, which `|+` and `>+` may take from behind `b`, does not count. -/
def WrittenY (d : Bytes) (a b : Nat) : Yaml → Prop
  | .int s => ∃ q t r, d.drop q = t ++ r ∧ Integer t r s ∧ a ≤ q ∧ q + t.length ≤ b
  | .float s => ((s = b!"NaN" ∨ s = b!"inf" ∨ s = b!"-inf") ∧ s.length ≤ spread d * (b - a)) ∨
      ∃ q t r, d.drop q = t ++ r ∧ (Fraction t r s ∨ Scientific t r s) ∧ a ≤ q ∧ q + t.length ≤ b
  | .alias s => ∃ q r, d.drop q = b!"*" ++ s ++ r ∧ Name s r ∧ a ≤ q ∧ q + (s.length + 1) ≤ b
  | .str s => (trimEnd s).length ≤ spread d * (b - a)
  | _ => True

/-- The leaves in a node: the text of each does not stand in front of its own position and ends at `b` at the latest. -/
def Node.EndsBy (d : Bytes) (b : Nat) (n : Node) : Prop := ∀ m, Occurs m n → WrittenY d m.pos b m.yaml

/-- Everything in the first node, the texts of its leaves included, stands in front of everything in the
second. -/
def Node.Clear (d : Bytes) (a c : Node) : Prop := a.Before c ∧ ∀ p ∈ c.positions, a.EndsBy d p

/-- The items of a sequence stand one behind the other, and so do a key and its value, with their texts. -/
def ClearHere (d : Bytes) (n : Node) : Prop :=
  match n.yaml with
  | .seq l => l.Pairwise (Node.Clear d)
  | .map m => (∀ e ∈ m, e.1.Clear d e.2) ∧ m.Pairwise fun e f => e.1.Clear d f.2 ∧ e.2.Clear d f.2
  | _ => True

end YamlPeg
