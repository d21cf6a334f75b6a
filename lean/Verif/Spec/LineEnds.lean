import Verif.Model.Basic
/-!
# Texts with other line endings
-/

namespace YamlPeg

/-- `D`, each line feed replaced by `e`. -/
def withBreaks (e : Bytes) : Bytes → Bytes
  | [] => []
  | c :: r => (if c = 0x0A then e else [c]) ++ withBreaks e r

/-- Carriage return and line feed at the end of each line. -/
def crlf (D : Bytes) : Bytes := withBreaks [0x0D, 0x0A] D

/-- A carriage return alone at the end of each line. -/
def crOnly (D : Bytes) : Bytes := withBreaks [0x0D] D

/-- Where a place in `crlf D` is in `D`: the carriage returns in front of it do not count. -/
def lfPlace (D : Bytes) (p : Nat) : Nat := p - ((crlf D).take p).count 0x0D

/-- Lines of nothing but white space are empty: behind the start of a line, white space that reaches the
end of the line is none at all.  (The last line need not end in a line feed and is free.) -/
def NoBlankLines (D : Bytes) : Prop :=
  ∀ a w c, D = a ++ (w ++ 0x0A :: c) → (a = [] ∨ ∃ a0, a = a0 ++ [0x0A]) →
    (∀ x ∈ w, (x = 0x20 ∨ x = 0x09 ∨ x = 0x0C)) → w = []

end YamlPeg
