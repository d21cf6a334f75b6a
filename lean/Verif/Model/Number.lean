import Verif.Model.Text
/-!
# Number text: `to_i64`, `to_f64` (src/yaml.rs:41-53)
-/

namespace YamlPeg

/-- Value of one digit in a radix up to 16 (`char::to_digit`). -/
def digitVal (c : UInt8) : Option Nat :=
  if 0x30 ≤ c && c ≤ 0x39 then some (c.toNat - 0x30)
  else if 0x61 ≤ c && c ≤ 0x66 then some (c.toNat - 0x61 + 10)
  else if 0x41 ≤ c && c ≤ 0x46 then some (c.toNat - 0x41 + 10)
  else none

/-- Value of a digit string in a radix, most significant digit first. -/
def digitsVal (radix : Nat) : Bytes → Nat → Option Nat
  | [], acc => some acc
  | c :: cs, acc =>
    match digitVal c with
    | some d => if d < radix then digitsVal radix cs (acc * radix + d) else none
    | none => none

/-- Split an optional sign; `true` is a minus. -/
def splitSign : Bytes → Bool × Bytes
  | 0x2D :: r => (true, r)
  | 0x2B :: r => (false, r)
  | r => (false, r)

/-- `i64::MIN ≤ v ≤ i64::MAX`. -/
def inI64 (v : Int) : Bool :=
  decide (-9223372036854775808 ≤ v) && decide (v ≤ 9223372036854775807)

/-- `i64::from_str_radix`: optional sign, at least one digit, in range. -/
def i64FromStrRadix (radix : Nat) (s : Bytes) : Option Int :=
  let (neg, ds) := splitSign s
  if ds.isEmpty then none
  else match digitsVal radix ds 0 with
    | none => none
    | some n =>
      let v : Int := if neg then -(n : Int) else n
      if inI64 v then some v else none

/-- `to_i64` (yaml.rs:41-49); `none` is `Err(ParseIntError)`. -/
def toI64 (s : Bytes) : Option Int :=
  if containsSub s b!"0x" then i64FromStrRadix 16 (removeAll s b!"0x")
  else if containsSub s b!"0o" then i64FromStrRadix 8 (removeAll s b!"0o")
  else i64FromStrRadix 10 s

/-! ## `f64::from_str`

Accepted text (Rust `std` documentation of `f64::from_str`):

```
Float  ::= Sign? ( 'inf' | 'infinity' | 'nan' | Number )   (case-insensitive)
Number ::= ( Digit+ | Digit+ '.' Digit* | Digit* '.' Digit+ ) Exp?
Exp    ::= 'e' Sign? Digit+                                (case-insensitive)
```

and the value is the nearest binary64 (ties to even). -/

/-- A binary64 value. `fin neg m e` is `±m·2^e`, in the canonical form of
`roundF64` (`m < 2^53`; zero is `fin _ 0 0`). -/
inductive F64 where
  | nan
  | inf (neg : Bool)
  | fin (neg : Bool) (m : Nat) (e : Int)
  deriving DecidableEq, Repr

/-- IEEE equality `==` on `f64`: `NaN` differs from everything, `-0 == 0`. -/
def F64.ieeeEq : F64 → F64 → Bool
  | .nan, _ => false
  | _, .nan => false
  | .inf a, .inf c => a == c
  | .fin a m e, .fin c m' e' => (m == 0 && m' == 0) || (a == c && m == m' && e == e')
  | _, _ => false

def F64.isNan : F64 → Bool
  | .nan => true
  | _ => false

/-- `p / q` rounded to nearest, ties to even. -/
def divRound (p q : Nat) : Nat :=
  let k := p / q
  let r := p % q
  if 2 * r < q then k else if 2 * r > q then k + 1 else if k % 2 = 0 then k else k + 1

/-- `p/q` scaled by `2^-e`, as a fraction. -/
def scaleF (p q : Nat) (e : Int) : Nat × Nat :=
  if e ≥ 0 then (p, q * 2 ^ e.toNat) else (p * 2 ^ (-e).toNat, q)

/-- The mantissa would have more than 53 bits. -/
def bigF (p q : Nat) (e : Int) : Bool := decide ((scaleF p q e).1 / (scaleF p q e).2 ≥ 2 ^ 53)

/-- The exponent for a 53 bit mantissa: `lp - lq - 1 ≤ log2 (p/q) < lp - lq + 1`,
so one or two candidates; pick the first whose floor is below `2^53`. -/
def expF (p q : Nat) : Int :=
  let e0 : Int := (Nat.log2 p : Int) - (Nat.log2 q : Int) - 53
  let e1 : Int := if bigF p q e0 then e0 + 1 else e0
  if bigF p q e1 then e1 + 1 else e1

/-- Put together a rounded mantissa and its exponent; rounding may carry into
the next binade, the number may underflow or overflow. -/
def packF64 (neg : Bool) (m : Nat) (e3 : Int) : F64 :=
  if m = 0 then .fin neg 0 0
  else if m = 2 ^ 53 then (if e3 + 1 > 971 then .inf neg else .fin neg (2 ^ 52) (e3 + 1))
  else if e3 > 971 then .inf neg
  else .fin neg m e3

/-- Nearest binary64 of the positive rational `p / q` (ties to even).  The
exponent is chosen so that the mantissa has 53 bits, but at least -1074. -/
def roundF64 (neg : Bool) (p q : Nat) : F64 :=
  if p = 0 then .fin neg 0 0
  else
    let s := scaleF p q (max (expF p q) (-1074))
    packF64 neg (divRound s.1 s.2) (max (expF p q) (-1074))

/-- Lower-case an ASCII letter. -/
def lowerByte (c : UInt8) : UInt8 := if 0x41 ≤ c && c ≤ 0x5A then c + 0x20 else c

/-- Split the longest prefix of digits. -/
def spanDigits (s : Bytes) : Bytes × Bytes := (s.takeWhile isDigit, s.dropWhile isDigit)

/-- The exponent part: `some e` if it is absent or well-formed. -/
def expPart (s : Bytes) : Option Int :=
  match s with
  | [] => some 0
  | c :: r =>
    if c == 0x65 || c == 0x45 then
      let (neg, ds) := splitSign r
      if ds.isEmpty then none
      else match digitsVal 10 ds 0 with
        | some n => some (if neg then -(n : Int) else n)
        | none => none
    else none

/-- Value of `digits · 10^e10`. -/
def decF64 (neg : Bool) (digits : Bytes) (e10 : Int) : Option F64 :=
  match digitsVal 10 digits 0 with
  | none => none
  | some m =>
    some (if e10 ≥ 0 then roundF64 neg (m * 10 ^ e10.toNat) 1
      else roundF64 neg m (10 ^ (-e10).toNat))

/-- `Number` of the grammar above. -/
def f64Number (neg : Bool) (s : Bytes) : Option F64 :=
  let (ip, r) := spanDigits s
  match r with
  | 0x2E :: r' =>
    let (fp, r'') := spanDigits r'
    if ip.isEmpty && fp.isEmpty then none
    else match expPart r'' with
      | some e => decF64 neg (ip ++ fp) (e - (fp.length : Int))
      | none => none
  | _ =>
    if ip.isEmpty then none
    else match expPart r with
      | some e => decF64 neg ip e
      | none => none

/-- The unsigned part of `f64::from_str`. -/
def f64Unsigned (neg : Bool) (s : Bytes) : Option F64 :=
  let l := s.map lowerByte
  if l == b!"inf" || l == b!"infinity" then some (.inf neg)
  else if l == b!"nan" then some .nan
  else f64Number neg s

/-- `to_f64` (yaml.rs:51-53) = `str::parse::<f64>`; `none` is `Err`. -/
def toF64 (s : Bytes) : Option F64 :=
  f64Unsigned (splitSign s).1 (splitSign s).2

end YamlPeg
