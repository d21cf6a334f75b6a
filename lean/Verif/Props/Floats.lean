import Verif.Proof.FloatNear
import Verif.Props.Scalars
import Verif.Props.Nodes
/-!
# Numbers with a fraction: C18, C32, C35

`Rounded neg p q x` (Proof/FloatNear.lean): `x` is the binary64 number nearest to `±p/q`,
of two equally near ones the one with the even mantissa.
-/

namespace YamlPeg.Props
open YamlPeg

theorem decF64_pos {neg : Bool} {d : Bytes} (h : ∀ x ∈ d, isDigit x = true) (j : Nat) :
    decF64 neg d (j : Int) = some (roundF64 neg (numeralValue 10 d * 10 ^ j) 1) := by
  simp [decF64, digitsVal_dec h]

/-- The value of scientific notation. -/
theorem toF64_sci {sg d es ed : Bytes} {e : UInt8} (hsg : IsSign sg) (hd : IsDigits d) (he : e = 0x65 ∨ e = 0x45)
    (hes : es = [] ∨ es = [0x2B] ∨ es = [0x2D]) (hed : IsDigits ed) :
    toF64 (sg ++ d ++ e :: es ++ ed) = some (if es = [0x2D]
      then roundF64 (!sg.isEmpty) (numeralValue 10 d) (10 ^ numeralValue 10 ed)
      else roundF64 (!sg.isEmpty) (numeralValue 10 d * 10 ^ numeralValue 10 ed) 1) := by
  cases d with
  | nil => exact absurd rfl hd.1
  | cons y ys =>
    rw [show sg ++ (y :: ys) ++ e :: es ++ ed = sg ++ (y :: ys ++ e :: (es ++ ed)) by simp]
    rw [toF64_sign (t := y :: ys ++ e :: (es ++ ed)) hsg y (ys ++ e :: (es ++ ed)) rfl (hd.2 y (List.mem_cons_self ..)), f64Number]
    have hne : isDigit e = false := by rcases he with rfl | rfl <;> decide
    have h1 := span_digits (y :: ys) (e :: (es ++ ed)) hd.2 (by intro x hx; simp at hx; subst hx; exact hne)
    have hex : expPart (e :: (es ++ ed)) = some (if es = [0x2D] then -(numeralValue 10 ed : Int) else numeralValue 10 ed) := by
      have he' : (e == 0x65 || e == 0x45) = true := by rcases he with rfl | rfl <;> decide
      simp only [expPart, he', if_true]
      have hemp : ed.isEmpty = false := by cases ed with
        | nil => exact absurd rfl hed.1
        | cons z zs => rfl
      have hv := digitsVal_dec hed.2
      rcases hes with rfl | rfl | rfl
      · cases ed with
        | nil => exact absurd rfl hed.1
        | cons z zs =>
          have hz := hed.2 z (List.mem_cons_self ..)
          simp [splitSign_digit hz, hv]
      · simp [splitSign, hemp, hv]
      · simp [splitSign, hemp, hv]
    have hx : e ≠ 0x2E := by rcases he with rfl | rfl <;> decide
    simp only [h1]
    split
    · rename_i r' hr
      exact absurd (List.cons.inj hr).1 hx
    · simp only [List.isEmpty_cons, Bool.false_eq_true, if_false, hex]
      split
      · exact decF64_digits hd.2 _
      · exact decF64_pos hd.2 _

/-- **C18, partial.** A decimal fraction, on a line of its own, is a `Float`; `as_float` gives the number
nearest to the fraction that is written.  Missing: the end of the input (`C18_end_of_input_is_string`). -/
theorem C18_fraction_rounded_partial (sg d f E : Bytes) (hsg : IsSign sg) (hd : IsDigits d)
    (hf : ∀ x ∈ f, isDigit x = true) (hE : RestLine E) :
    ∃ t x, Reads (sg ++ d ++ 0x2E :: f ++ E) [.mk 0 [] (.float t)] ∧
      (Node.mk 0 [] (.float t)).asFloat = .ok x ∧
      Rounded (!sg.isEmpty) (numeralValue 10 (d ++ f)) (10 ^ f.length) x := by
  obtain ⟨t, h1, h2⟩ := C18_decimal_float_partial sg d f E hsg hd hf hE
  exact ⟨t, _, h1, h2, roundF64_rounded _ _ (Nat.ne_of_gt (Nat.pow_pos (by decide)))⟩

/-- **C18, partial.** Scientific notation `d e±n`: `as_float` gives the number nearest to `d·10^±n`. -/
theorem C18_scientific_rounded_partial (sg d es ed E : Bytes) (e : UInt8) (hsg : IsSign sg) (hd : IsDigits d)
    (he : e = 0x65 ∨ e = 0x45) (hes : es = [] ∨ es = [0x2B] ∨ es = [0x2D]) (hed : IsDigits ed) (hE : RestLine E) :
    ∃ t x, Reads (sg ++ d ++ e :: es ++ ed ++ E) [.mk 0 [] (.float t)] ∧
      (Node.mk 0 [] (.float t)).asFloat = .ok x ∧
      (if es = [0x2D] then Rounded (!sg.isEmpty) (numeralValue 10 d) (10 ^ numeralValue 10 ed) x
        else Rounded (!sg.isEmpty) (numeralValue 10 d * 10 ^ numeralValue 10 ed) 1 x) := by
  have h1 := C18_scientific_partial sg d es ed E e hsg hd he hes hed hE
  have h2 := toF64_sci hsg hd he hes hed
  refine ⟨_, _, h1, by simp only [Node.asFloat, Node.yaml, h2]; rfl, ?_⟩
  split
  · exact roundF64_rounded _ _ (Nat.ne_of_gt (Nat.pow_pos (by decide)))
  · exact roundF64_rounded _ _ (by decide)

example : ∃ t x, Reads b!"25e-1\n" [.mk 0 [] (.float t)] ∧ (Node.mk 0 [] (.float t)).asFloat = .ok x ∧
    Rounded false 25 (10 ^ 1) x := by
  obtain ⟨t, x, h1, h2, h3⟩ := C18_scientific_rounded_partial [] b!"25" b!"-" b!"1" b!"\n" 0x65 (.inl rfl) ⟨by simp, by decide⟩ (.inl rfl)
    (.inr (.inr rfl)) ⟨by simp, by decide⟩ ⟨⟨[0x0A], [], .inl rfl, rfl, by simp⟩⟩
  have e1 : numeralValue 10 b!"25" = 25 := by decide
  have e2 : numeralValue 10 b!"1" = 1 := by decide
  rw [if_pos rfl, e1, e2] at h3
  exact ⟨t, x, h1, h2, h3⟩

/-! ## C32: equality of floats -/

/-- The mathematical value, in units of `2^-1074`. -/
def signedUnits (s : Bool) (m : Nat) (e : Int) : Int := if s then -(floatUnits m e : Int) else floatUnits m e

/-- The same number: `NaN` counts as equal to itself, and the sign of zero does not count. -/
def SameNumber : F64 → F64 → Prop
  | .nan, .nan => True
  | .inf s, .inf s' => s = s'
  | .fin s m e, .fin s' m' e' => signedUnits s m e = signedUnits s' m' e'
  | _, _ => False

/-- **C32.** Two `Float` nodes are equal exactly if their texts denote the same number. -/
theorem C32_floats (p p' : Nat) (t t' s s' : Bytes) (x y : F64) (hx : toF64 s = some x) (hy : toF64 s' = some y) :
    ∃ b, Node.eq? (.mk p t (.float s)) (.mk p' t' (.float s')) = .ok b ∧ (b = true ↔ SameNumber x y) := by
  have cx := toF64_canonical hx
  have cy := toF64_canonical hy
  have hne : ∀ {m : Nat} (e : Int), floatUnits m e = 0 ↔ m = 0 := by
    intro m e
    unfold floatUnits
    have := Nat.two_pow_pos (e + 1074).toNat
    constructor
    · intro h
      rcases Nat.mul_eq_zero.1 h with h | h
      · exact h
      · omega
    · rintro rfl; simp
  obtain ⟨b, hb, hiff⟩ := C32_eq_is_same_data (.mk p t (.float s)) (.mk p' t' (.float s'))
    (readable_leaf (by simp [ReadableHere, Node.yaml, hx]) trivial) (readable_leaf (by simp [ReadableHere, Node.yaml, hy]) trivial)
  refine ⟨b, hb, hiff.trans ?_⟩
  constructor
  · intro h
    cases h with
    | nan h1 h2 =>
      rw [hx] at h1; rw [hy] at h2; cases h1; cases h2; trivial
    | float h1 h2 h3 =>
      rw [hx] at h1; rw [hy] at h2; cases h1; cases h2
      cases x <;> cases y <;> simp [F64.ieeeEq] at h3
      · exact h3
      · rcases h3 with ⟨rfl, rfl⟩ | ⟨⟨rfl, rfl⟩, rfl⟩
        · simp [SameNumber, signedUnits, floatUnits]
        · rfl
  · intro h
    cases x <;> cases y <;> simp only [SameNumber] at h
    · exact .nan hx hy
    · subst h; exact .float hx hy (by simp [F64.ieeeEq])
    · rename_i s1 m1 e1 s2 m2 e2
      refine .float hx hy ?_
      have hz1 := hne (m := m1) e1
      have hz2 := hne (m := m2) e2
      simp only [signedUnits] at h
      by_cases h0 : m1 = 0
      · have : m2 = 0 := by rw [← hz2]; rw [hz1.2 h0] at h; revert h; cases s1 <;> cases s2 <;> simp <;> omega
        simp [F64.ieeeEq, h0, this]
      · have : floatUnits m1 e1 ≠ 0 := fun h => h0 (hz1.1 h)
        have hs : s1 = s2 ∧ floatUnits m1 e1 = floatUnits m2 e2 := by
          revert h; cases s1 <;> cases s2 <;> simp <;> omega
        obtain ⟨rfl, rfl⟩ := floatUnits_inj cx cy hs.2
        simp [F64.ieeeEq, hs.1]

/-- `-0.0` and `0.0` are equal, `NaN` equals itself. -/
example : Node.eq? (.mk 0 [] (.float b!"-0.0")) (.mk 9 b!"t" (.float b!"0.0")) = .ok true := by
  obtain ⟨b, hb, h⟩ := C32_floats 0 9 [] b!"t" b!"-0.0" b!"0.0" (.fin true 0 0) (.fin false 0 0) (by decide) (by decide)
  rw [hb, h.2 (by simp [SameNumber, signedUnits, floatUnits])]

/-! ## C35: which texts are floats -/

/-- The parts of a number: sign, digits in front of the point, point and digits behind it,
exponent. -/
structure FloatLit where
  sign : Bytes
  whole : Bytes
  frac : Option Bytes
  exp : Option (UInt8 × Bytes × Bytes)

namespace FloatLit

def point (x : FloatLit) : Bytes := x.frac.getD []

def text (x : FloatLit) : Bytes :=
  x.sign ++ (x.whole ++ ((match x.frac with | none => [] | some d => 0x2E :: d) ++
    match x.exp with | none => [] | some (e, s, d) => e :: (s ++ d)))

/-- The sign is `+`, `-` or missing; there is a digit in front of the point or behind it; an
exponent is `e` or `E`, perhaps a sign, and digits. -/
def ok (x : FloatLit) : Prop :=
  (x.sign = [] ∨ x.sign = b!"+" ∨ x.sign = b!"-") ∧ IsDigits (x.whole ++ x.point) ∧
    ∀ e s d, x.exp = some (e, s, d) → (e = 0x65 ∨ e = 0x45) ∧ (s = [] ∨ s = b!"+" ∨ s = b!"-") ∧ IsDigits d

/-- The power of ten above, and the one below. -/
def up (x : FloatLit) : Nat := match x.exp with | some (_, s, d) => if s = b!"-" then 0 else numeralValue 10 d | none => 0
def down (x : FloatLit) : Nat :=
  x.point.length + match x.exp with | some (_, s, d) => if s = b!"-" then numeralValue 10 d else 0 | none => 0

/-- `p/q` is the absolute value of the number. -/
def AbsValue (x : FloatLit) (p q : Nat) : Prop :=
  q ≠ 0 ∧ p * 10 ^ x.down = numeralValue 10 (x.whole ++ x.point) * 10 ^ x.up * q

end FloatLit

/-- A word for a number that is none, in any case. -/
def FloatWord (t : Bytes) (neg : Bool) (v : F64) : Prop :=
  ((t.map lowerByte = b!"inf" ∨ t.map lowerByte = b!"infinity") ∧ v = .inf neg) ∨ (t.map lowerByte = b!"nan" ∧ v = .nan)

theorem decF64_value {neg : Bool} {d : Bytes} (hd : ∀ c ∈ d, isDigit c = true) (up down : Nat) {e : Int} (he : e = up - (down : Int)) :
    ∃ v p q, decF64 neg d e = some v ∧ q ≠ 0 ∧ p * 10 ^ down = numeralValue 10 d * 10 ^ up * q ∧ Rounded neg p q v := by
  rw [decF64, digitsVal_dec hd]
  simp only
  by_cases h : e ≥ 0
  · rw [if_pos h]
    refine ⟨_, _, _, rfl, Nat.one_ne_zero, ?_, roundF64_rounded _ _ Nat.one_ne_zero⟩
    have : up = e.toNat + down := by omega
    rw [this, Nat.pow_add]; ac_rfl
  · rw [if_neg h]
    refine ⟨_, _, _, rfl, Nat.pos_iff_ne_zero.1 (Nat.pow_pos (by decide)), ?_, roundF64_rounded _ _ (Nat.pos_iff_ne_zero.1 (Nat.pow_pos (by decide)))⟩
    have : down = up + (-e).toNat := by omega
    rw [this, Nat.pow_add]; ac_rfl

theorem splitSign_exp {s d : Bytes} (hs : s = [] ∨ s = b!"+" ∨ s = b!"-") (hd : IsDigits d) :
    splitSign (s ++ d) = (s == b!"-", d) := by
  rcases hs with rfl | rfl | rfl
  · obtain ⟨c, r, rfl⟩ := List.exists_cons_of_ne_nil hd.1
    simpa using splitSign_digit (hd.2 c (by simp))
  · rfl
  · rfl

theorem expPart_value (x : FloatLit) (hx : x.ok) :
    expPart (match x.exp with | none => [] | some (e, s, d) => e :: (s ++ d)) = some (x.up - (x.down - x.point.length : Nat) : Int) := by
  obtain ⟨_, _, h⟩ := hx
  obtain ⟨sg, w, f, ex⟩ := x
  cases ex with
  | none => simp [expPart, FloatLit.up, FloatLit.down]
  | some t =>
    obtain ⟨e, s, d⟩ := t
    obtain ⟨he, hs, hd⟩ := h e s d rfl
    have hE : (e == 0x65 || e == 0x45) = true := by rcases he with rfl | rfl <;> rfl
    have hemp : d.isEmpty = false := by simpa using hd.1
    simp only [expPart, hE, if_true, splitSign_exp hs hd, hemp, Bool.false_eq_true, if_false, digitsVal_dec hd.2]
    simp only [FloatLit.up, FloatLit.down]
    by_cases hn : s = b!"-"
    · subst hn; simp
    · simp [hn]

theorem span_all {d : Bytes} (hd : ∀ x ∈ d, isDigit x = true) (r : Bytes) (hr : ∀ x, r.head? = some x → isDigit x = false) :
    spanDigits (d ++ r) = (d, r) := span_digits d r hd hr

theorem f64Number_lit {neg : Bool} (x : FloatLit) (hx : x.ok) :
    ∃ v p q, f64Number neg (x.whole ++ ((match x.frac with | none => [] | some d => 0x2E :: d) ++
      match x.exp with | none => [] | some (e, s, d) => e :: (s ++ d))) = some v ∧ x.AbsValue p q ∧ Rounded neg p q v := by
  have hv := expPart_value x hx
  obtain ⟨h1, h2, h3⟩ := hx
  have hex : ∀ c, (match x.exp with | none => ([] : Bytes) | some (e, s, d) => e :: (s ++ d)).head? = some c → (c = 0x65 ∨ c = 0x45) := by
    intro c hc
    cases he : x.exp with
    | none => simp [he] at hc
    | some t =>
      obtain ⟨e, s, d⟩ := t
      simp only [he, List.head?_cons, Option.some.injEq] at hc
      subst hc
      exact (h3 _ _ _ he).1
  have hex1 : ∀ c, (c = 0x65 ∨ c = 0x45) → isDigit c = false := by rintro c (rfl | rfl) <;> decide
  generalize hX : (match x.exp with | none => ([] : Bytes) | some (e, s, d) => e :: (s ++ d)) = X at *
  cases hf : x.frac with
  | none =>
    have hpt : x.point = [] := by simp [FloatLit.point, hf]
    rw [hpt, List.append_nil] at h2
    simp only [List.nil_append]
    rw [f64Number, span_digits x.whole X h2.2 (fun c hc => hex1 c (hex c hc))]
    have hne : x.whole.isEmpty = false := by simpa using h2.1
    obtain ⟨v, p, q, hd, hq, hpq, hr⟩ := decF64_value (neg := neg) h2.2 x.up x.down (e := x.up - (x.down - x.point.length : Nat)) (by rw [hpt]; simp)
    refine ⟨v, p, q, ?_, ⟨hq, by rw [hpt, List.append_nil]; exact hpq⟩, hr⟩
    simp only
    split
    · rename_i r' _
      have := hex 0x2E rfl
      simp at this
    · simp only [hne, Bool.false_eq_true, if_false, hv]
      exact hd
  | some d =>
    have hpt : x.point = d := by simp [FloatLit.point, hf]
    rw [hpt] at h2
    simp only [List.cons_append]
    rw [f64Number, span_digits x.whole (0x2E :: (d ++ X)) (fun c hc => h2.2 c (by simp [hc])) (by simp; decide)]
    simp only
    rw [span_digits d X (fun c hc => h2.2 c (by simp [hc])) (fun c hc => hex1 c (hex c hc))]
    have hne : (x.whole.isEmpty && d.isEmpty) = false := by
      have := h2.1
      cases hw : x.whole <;> cases hd : d <;> simp_all
    have hlen : d.length ≤ x.down := by simp [FloatLit.down, hpt]
    obtain ⟨v, p, q, hd, hq, hpq, hr⟩ := decF64_value (neg := neg) h2.2 x.up x.down
      (e := x.up - (x.down - x.point.length : Nat) - (d.length : Int)) (by rw [hpt]; omega)
    refine ⟨v, p, q, ?_, ⟨hq, by rw [hpt]; exact hpq⟩, hr⟩
    simp only [hne, Bool.false_eq_true, if_false, hv]
    exact hd

/-- What a number begins with behind its sign. -/
theorem lit_head (x : FloatLit) (hx : x.ok) : ∃ c r, x.whole ++ ((match x.frac with | none => [] | some d => 0x2E :: d) ++
      match x.exp with | none => [] | some (e, s, d) => e :: (s ++ d)) = c :: r ∧ (isDigit c = true ∨ c = 0x2E) := by
  obtain ⟨_, h, _⟩ := hx
  cases hw : x.whole with
  | cons c r => exact ⟨c, _, rfl, .inl (h.2 c (by simp [hw]))⟩
  | nil =>
    cases hf : x.frac with
    | none => simp [hw, FloatLit.point, hf, IsDigits] at h
    | some d => exact ⟨_, _, rfl, .inr rfl⟩

theorem f64Unsigned_number {neg : Bool} {c : UInt8} {r : Bytes} (hc : isDigit c = true ∨ c = 0x2E) :
    f64Unsigned neg (c :: r) = f64Number neg (c :: r) := by
  rcases hc with hc | rfl
  · exact f64Unsigned_digit _ _ _ hc
  · have e : lowerByte 0x2E = 0x2E := by decide
    simp [f64Unsigned, e]

theorem splitSign_of {sg t : Bytes} (hs : sg = [] ∨ sg = b!"+" ∨ sg = b!"-") (ht : ∀ c r, t = c :: r → c ≠ 0x2B ∧ c ≠ 0x2D) :
    splitSign (sg ++ t) = (sg == b!"-", t) := by
  rcases hs with rfl | rfl | rfl
  · simp only [List.nil_append]
    unfold splitSign
    split
    · exact absurd rfl (ht _ _ rfl).2
    · exact absurd rfl (ht _ _ rfl).1
    · rfl
  · rfl
  · rfl

/-- **C35.** Every number written with digits, a point and an exponent is a float: the one nearest to its value. -/
theorem C35_float_number (x : FloatLit) (hx : x.ok) :
    ∃ v p q, toF64 x.text = some v ∧ x.AbsValue p q ∧ Rounded (x.sign == b!"-") p q v := by
  obtain ⟨v, p, q, h1, h2, h3⟩ := f64Number_lit (neg := x.sign == b!"-") x hx
  obtain ⟨c, r, hcr, hc⟩ := lit_head x hx
  refine ⟨v, p, q, ?_, h2, h3⟩
  have hc' : c ≠ 0x2B ∧ c ≠ 0x2D := by
    rcases hc with hc | rfl
    · constructor <;> (rintro rfl; revert hc; decide)
    · decide
  rw [hcr] at h1
  rw [toF64, FloatLit.text, hcr, splitSign_of hx.1 (by rintro _ _ ⟨⟩; exact hc')]
  simp only
  rw [f64Unsigned_number hc]; exact h1

theorem word_head {t : Bytes} {neg : Bool} {v : F64} (h : FloatWord t neg v) : ∀ c r, t = c :: r → c ≠ 0x2B ∧ c ≠ 0x2D := by
  rintro c r rfl
  have e1 : lowerByte 0x2B = 0x2B := by decide
  have e2 : lowerByte 0x2D = 0x2D := by decide
  constructor <;> rintro rfl <;> simp [FloatWord, e1, e2] at h

/-- **C35.** `inf`, `infinity` and `nan`, in any case, are floats. -/
theorem C35_float_word (sg t : Bytes) (v : F64) (hs : sg = [] ∨ sg = b!"+" ∨ sg = b!"-") (h : FloatWord t (sg == b!"-") v) :
    toF64 (sg ++ t) = some v := by
  rw [toF64, splitSign_of hs (word_head h)]
  simp only [f64Unsigned]
  rcases h with ⟨h, rfl⟩ | ⟨h, rfl⟩
  · rcases h with h | h <;> simp [h]
  · simp [h]

theorem digits_of_val : ∀ {d : Bytes} {acc n : Nat}, digitsVal 10 d acc = some n → ∀ c ∈ d, isDigit c = true
  | [], _, _, _, c, hc => by simp at hc
  | x :: xs, acc, n, h, c, hc => by
    simp only [digitsVal] at h
    split at h
    · rename_i v hv
      split at h
      · rename_i hlt
        rcases List.mem_cons.1 hc with rfl | hc
        · have := byte_forall (P := fun x => (match digitVal x with | some v => decide (10 ≤ v) | none => true) || isDigit x)
            (by decide +kernel) c
          simp only [hv] at this
          have h' : decide (10 ≤ v) = false := by simpa using hlt
          simpa [h'] using this
        · exact digits_of_val h c hc
      · simp at h
    · simp at h

theorem expPart_some {s : Bytes} {e : Int} (h : expPart s = some e) : s = [] ∨
    ∃ c sg d, s = c :: (sg ++ d) ∧ (c = 0x65 ∨ c = 0x45) ∧ (sg = [] ∨ sg = b!"+" ∨ sg = b!"-") ∧ IsDigits d := by
  cases s with
  | nil => exact .inl rfl
  | cons c r =>
    right
    simp only [expPart] at h
    split at h
    · rename_i hc
      split at h
      · simp at h
      · rename_i hne
        split at h
        · rename_i n hn
          have hd := digits_of_val hn
          have hc : c = 0x65 ∨ c = 0x45 := by simpa using hc
          have hne : (splitSign r).2 ≠ [] := by simpa using hne
          have hdd : IsDigits (splitSign r).2 := ⟨hne, hd⟩
          clear hne hd hn h
          unfold splitSign at hdd
          split at hdd
          · exact ⟨c, b!"-", _, rfl, hc, by simp, hdd⟩
          · exact ⟨c, b!"+", _, rfl, hc, by simp, hdd⟩
          · exact ⟨c, [], _, rfl, hc, by simp, hdd⟩
        · simp at h
    · simp at h

theorem spanDigits_spec (s : Bytes) : (spanDigits s).1 ++ (spanDigits s).2 = s ∧ ∀ c ∈ (spanDigits s).1, isDigit c = true :=
  ⟨List.takeWhile_append_dropWhile, fun _ hc => List.all_eq_true.1 (List.all_takeWhile (p := isDigit) (l := s)) _ hc⟩

/-- **C35.** No other text is a float. -/
theorem C35_float_only {s : Bytes} {v : F64} (h : toF64 s = some v) :
    (∃ x : FloatLit, x.ok ∧ s = x.text) ∨
      ∃ sg t, (sg = [] ∨ sg = b!"+" ∨ sg = b!"-") ∧ FloatWord t (sg == b!"-") v ∧ s = sg ++ t := by
  obtain ⟨sg, t, hsg, hs, ht⟩ : ∃ sg t, (sg = [] ∨ sg = b!"+" ∨ sg = b!"-") ∧ s = sg ++ t ∧ splitSign s = (sg == b!"-", t) := by
    unfold splitSign
    split
    · exact ⟨b!"-", _, by simp, rfl, rfl⟩
    · exact ⟨b!"+", _, by simp, rfl, rfl⟩
    · exact ⟨[], _, by simp, rfl, rfl⟩
  rw [toF64, ht] at h
  simp only [f64Unsigned] at h
  split at h
  · rename_i hw
    exact .inr ⟨sg, t, hsg, .inl ⟨by simpa using hw, by simpa using h.symm⟩, hs⟩
  · split at h
    · rename_i hw
      exact .inr ⟨sg, t, hsg, .inr ⟨by simpa using hw, by simpa using h.symm⟩, hs⟩
    · left
      obtain ⟨e1, d1⟩ := spanDigits_spec t
      rw [f64Number] at h
      generalize spanDigits t = P at *
      obtain ⟨ip, r⟩ := P
      simp only at h e1 d1
      split at h
      · rename_i r'
        obtain ⟨e2, d2⟩ := spanDigits_spec r'
        generalize spanDigits r' = Q at *
        obtain ⟨fp, r''⟩ := Q
        simp only at h e2 d2
        split at h
        · simp at h
        · rename_i hne
          split at h
          · rename_i e he
            have hdig : IsDigits (ip ++ fp) := ⟨by
              rintro h0
              obtain ⟨rfl, rfl⟩ := List.append_eq_nil_iff.1 h0
              simp at hne, fun c hc => (List.mem_append.1 hc).elim (d1 c) (d2 c)⟩
            rcases expPart_some he with rfl | ⟨c, s', d, rfl, hc, hs', hd⟩
            · exact ⟨⟨sg, ip, some fp, none⟩, ⟨hsg, hdig, by simp⟩, by rw [hs, ← e1, ← e2]; simp [FloatLit.text]⟩
            · refine ⟨⟨sg, ip, some fp, some (c, s', d)⟩, ⟨hsg, hdig, ?_⟩, by rw [hs, ← e1, ← e2]; simp [FloatLit.text]⟩
              rintro _ _ _ ⟨⟩; exact ⟨hc, hs', hd⟩
          · simp at h
      · split at h
        · simp at h
        · rename_i hne
          split at h
          · rename_i e he
            have hdig : IsDigits (ip ++ []) := ⟨by simpa using hne, by simpa using d1⟩
            rcases expPart_some he with rfl | ⟨c, s', d, rfl, hc, hs', hd⟩
            · exact ⟨⟨sg, ip, none, none⟩, ⟨hsg, hdig, by simp⟩, by rw [hs, ← e1]; simp [FloatLit.text]⟩
            · refine ⟨⟨sg, ip, none, some (c, s', d)⟩, ⟨hsg, hdig, ?_⟩, by rw [hs, ← e1]; simp [FloatLit.text]⟩
              rintro _ _ _ ⟨⟩; exact ⟨hc, hs', hd⟩
          · simp at h

example : ∃ v p q, toF64 b!"-12.5e-3" = some v ∧ FloatLit.AbsValue ⟨b!"-", b!"12", some b!"5", some (0x65, b!"-", b!"3")⟩ p q ∧
    Rounded true p q v :=
  C35_float_number ⟨b!"-", b!"12", some b!"5", some (0x65, b!"-", b!"3")⟩ ⟨by decide, ⟨by decide, by decide⟩, by
    rintro _ _ _ ⟨⟩; exact ⟨by decide, by decide, by decide, by decide⟩⟩

example : toF64 b!"+Infinity" = some (.inf false) := C35_float_word b!"+" b!"Infinity" _ (by decide) (.inl ⟨by decide, rfl⟩)

/-- **C35.** `as_number` of an integer is the float nearest to it. -/
theorem C35_as_number_int (pos : Nat) (tag s : Bytes) (i : Int) (h : toI64 s = some i) :
    ∃ v, (Node.mk pos tag (.int s)).asNumber = .ok v ∧ Rounded (decide (i < 0)) i.natAbs 1 v :=
  ⟨_, (C35_as_number _).1 _ |>.2 (.inl ⟨s, i, rfl, h, rfl⟩), roundF64_rounded _ _ Nat.one_ne_zero⟩

end YamlPeg.Props
