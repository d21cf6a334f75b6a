import Verif.Model.Number
/-!
# `f32` (de.rs:341-350, ser.rs:183, yaml.rs:209, stringify.rs:36)

A binary32 value is written as the binary64 of the same value (every binary32 is a
binary64, and `x as f64` keeps the value).
-/

namespace YamlPeg

/-- Put together a rounded mantissa and its exponent: carry into the next binade, overflow. -/
def packF32 (neg : Bool) (m : Nat) (e : Int) : F64 :=
  if m = 0 then .fin neg 0 0
  else if (m = 2 ^ 24 && e + 1 > 104) || e > 104 then .inf neg
  else roundF64 neg (scaleF m 1 (-e)).1 (scaleF m 1 (-e)).2

/-- Nearest binary32 of the positive rational `p / q` (ties to even).  The exponent is
chosen so that the mantissa has 24 bits, but at least -149. -/
def roundF32 (neg : Bool) (p q : Nat) : F64 :=
  if p = 0 then .fin neg 0 0
  else
    let e := max (expF p q + 29) (-149)
    packF32 neg (divRound (scaleF p q e).1 (scaleF p q e).2) e

/-- `x as f32` for an `f64`: round to nearest, ties to even. -/
def F64.toF32 : F64 → F64
  | .nan => .nan
  | .inf neg => .inf neg
  | .fin neg m e => roundF32 neg (scaleF m 1 (-e)).1 (scaleF m 1 (-e)).2

/-- `i as f32` for an `i64`: round to nearest, ties to even. -/
def f32OfInt (i : Int) : F64 := roundF32 (decide (i < 0)) i.natAbs 1

/-- The number is a binary32. -/
def F64.IsF32 (x : F64) : Prop := x.toF32 = x

instance (x : F64) : Decidable x.IsF32 := by unfold F64.IsF32; infer_instance

end YamlPeg
