import Verif.Proof.NumText
/-! # Decimal text and its value -/

namespace YamlPeg

/-- The digit byte of a number below ten. -/
def digitByte (n : Nat) : UInt8 := (0x30 + n).toUInt8

theorem digitByte_toNat {n : Nat} (h : n < 10) : (digitByte n).toNat = 0x30 + n := by
  simp [digitByte]; omega

theorem digitChar_byte : ∀ n < 10, (Nat.digitChar n).toNat.toUInt8 = digitByte n := by decide

theorem natDec_lt {n : Nat} (h : n < 10) : natDec n = [digitByte n] := by
  simp only [natDec, Nat.toDigits_of_lt_base h, List.map_cons, List.map_nil, digitChar_byte n h]

theorem natDec_ge {n : Nat} (h : 10 ≤ n) : natDec n = natDec (n / 10) ++ [digitByte (n % 10)] := by
  simp only [natDec, Nat.toDigits_of_base_le (by decide : 1 < 10) h, List.map_append, List.map_cons,
    List.map_nil, digitChar_byte (n % 10) (Nat.mod_lt _ (by decide))]

theorem isDigit_digitByte {n : Nat} (h : n < 10) : isDigit (digitByte n) = true := by
  have : ∀ n < 10, isDigit (digitByte n) = true := by decide
  exact this n h

theorem digitVal_digitByte {n : Nat} (h : n < 10) : digitVal (digitByte n) = some n := by
  have : ∀ n < 10, digitVal (digitByte n) = some n := by decide
  exact this n h

theorem natDec_isDigits (n : Nat) : IsDigits (natDec n) := by
  induction n using Nat.strongRecOn with
  | _ n ih =>
    by_cases h : n < 10
    · rw [natDec_lt h]
      exact ⟨by simp, by simpa using isDigit_digitByte h⟩
    · rw [natDec_ge (by omega)]
      obtain ⟨h1, h2⟩ := ih (n / 10) (by omega)
      refine ⟨by simp, ?_⟩
      intro x hx
      rcases List.mem_append.1 hx with hx | hx
      · exact h2 x hx
      · have : x = digitByte (n % 10) := by simpa using hx
        subst this
        exact isDigit_digitByte (Nat.mod_lt _ (by decide))

theorem digitsVal_append (r : Nat) (a c : Bytes) (acc : Nat) :
    digitsVal r (a ++ c) acc = (digitsVal r a acc).bind (digitsVal r c) := by
  induction a generalizing acc with
  | nil => rfl
  | cons x xs ih =>
    simp only [List.cons_append, digitsVal]
    cases digitVal x with
    | none => rfl
    | some d =>
      simp only
      split
      · exact ih _
      · rfl

theorem digitsVal_natDec (n : Nat) : digitsVal 10 (natDec n) 0 = some n := by
  induction n using Nat.strongRecOn with
  | _ n ih =>
    by_cases h : n < 10
    · rw [natDec_lt h]
      simp [digitsVal, digitVal_digitByte h, h]
    · rw [natDec_ge (by omega), digitsVal_append, ih (n / 10) (by omega)]
      have h10 : n % 10 < 10 := Nat.mod_lt _ (by decide)
      simp [digitsVal, digitVal_digitByte h10, h10]
      omega

/-- Every byte that is an ASCII digit has its value. -/
theorem digitVal_isDigit {x : UInt8} (h : isDigit x = true) : ∃ d, d < 10 ∧ digitVal x = some d := by
  simp only [isDigit, Bool.and_eq_true, decide_eq_true_eq] at h
  refine ⟨x.toNat - 0x30, ?_, ?_⟩
  · have h1 := UInt8.le_iff_toNat_le.1 h.1
    have h2 := UInt8.le_iff_toNat_le.1 h.2
    simp at h1 h2; omega
  · simp [digitVal, h.1, h.2]

theorem digitsVal_isSome {s : Bytes} (h : ∀ x ∈ s, isDigit x = true) (acc : Nat) :
    (digitsVal 10 s acc).isSome := by
  induction s generalizing acc with
  | nil => rfl
  | cons x xs ih =>
    obtain ⟨d, hd, hv⟩ := digitVal_isDigit (h x (List.mem_cons_self ..))
    simp only [digitsVal, hv, hd, if_true]
    exact ih (fun y hy => h y (List.mem_cons_of_mem _ hy)) _

theorem containsSub_mem {s pat : Bytes} (h : containsSub s pat = true) : ∀ x ∈ pat, x ∈ s := by
  induction s with
  | nil =>
    intro x hx
    have : pat = [] := by simpa [containsSub] using h
    subst this; exact hx
  | cons c r ih =>
    intro x hx
    simp only [containsSub, Bool.or_eq_true] at h
    rcases h with h | h
    · exact (List.isPrefixOf_iff_prefix.1 h).subset hx
    · exact List.mem_cons_of_mem _ (ih h x hx)

theorem containsSub_false {s pat : Bytes} {x : UInt8} (hx : x ∈ pat) (hs : x ∉ s) :
    containsSub s pat = false := by
  cases h : containsSub s pat with
  | false => rfl
  | true => exact absurd (containsSub_mem h x hx) hs

theorem IsDigits.not_mem {d : Bytes} (h : ∀ x ∈ d, isDigit x = true) {x : UInt8}
    (hx : isDigit x = false) : x ∉ d := by
  intro hm
  have := h x hm
  rw [hx] at this
  cases this

theorem splitSign_digit {x : UInt8} {r : Bytes} (hx : isDigit x = true) :
    splitSign (x :: r) = (false, x :: r) := by
  have e1 : x ≠ 0x2D := by rintro rfl; revert hx; decide
  have e2 : x ≠ 0x2B := by rintro rfl; revert hx; decide
  simp only [splitSign]
  split
  · rename_i r heq; simp at heq; exact absurd heq.1 e1
  · rename_i r heq; simp at heq; exact absurd heq.1 e2
  · rfl

/-- The value of signed decimal text. -/
theorem toI64_decimal {sg d : Bytes} (hsg : IsSign sg) (hd : IsDigits d) :
    toI64 (sg ++ d) = (digitsVal 10 d 0).bind fun n =>
      let v : Int := if sg = [] then (n : Int) else -(n : Int)
      if inI64 v then some v else none := by
  have hx : (0x78 : UInt8) ∉ sg ++ d := by
    simp only [List.mem_append, not_or]
    exact ⟨by rcases hsg with rfl | rfl <;> simp, IsDigits.not_mem hd.2 (by decide)⟩
  have ho : (0x6F : UInt8) ∉ sg ++ d := by
    simp only [List.mem_append, not_or]
    exact ⟨by rcases hsg with rfl | rfl <;> simp, IsDigits.not_mem hd.2 (by decide)⟩
  have h1 : containsSub (sg ++ d) b!"0x" = false := containsSub_false (by simp) hx
  have h2 : containsSub (sg ++ d) b!"0o" = false := containsSub_false (by simp) ho
  simp only [toI64, h1, h2, Bool.false_eq_true, if_false]
  have hne : d.isEmpty = false := by
    cases d with
    | nil => exact absurd rfl hd.1
    | cons x xs => rfl
  rcases hsg with rfl | rfl
  · cases d with
    | nil => exact absurd rfl hd.1
    | cons x xs =>
      simp only [List.nil_append, i64FromStrRadix, splitSign_digit (hd.2 x (List.mem_cons_self ..)),
        hne, Bool.false_eq_true, if_false, if_true]
      cases digitsVal 10 (x :: xs) 0 <;> rfl
  · simp only [List.cons_append, List.nil_append, i64FromStrRadix, splitSign, hne, Bool.false_eq_true,
      if_false, if_true]
    cases digitsVal 10 d 0 <;> simp

theorem toI64_natDec (n : Nat) :
    toI64 (natDec n) = if inI64 (n : Int) then some (n : Int) else none := by
  have := toI64_decimal (sg := []) (.inl rfl) (natDec_isDigits n)
  rw [List.nil_append, digitsVal_natDec, Option.bind_some] at this
  rw [this]
  simp only [if_true]

theorem toI64_negDec (n : Nat) :
    toI64 (0x2D :: natDec n) = if inI64 (-(n : Int)) then some (-(n : Int)) else none := by
  have := toI64_decimal (sg := [0x2D]) (.inr rfl) (natDec_isDigits n)
  rw [List.cons_append, List.nil_append, digitsVal_natDec, Option.bind_some] at this
  rw [this]
  simp only [List.cons_ne_nil, if_false]

/-- `Display` of an integer reads back as that integer, or is rejected when it
does not fit in an `i64`. -/
theorem toI64_intDec (i : Int) :
    toI64 (intDec i) = if inI64 i then some i else none := by
  cases i with
  | ofNat n => exact toI64_natDec n
  | negSucc n => exact toI64_negDec (n + 1)

/-! ## Floats -/

theorem span_digits (d r : Bytes) (hd : ∀ x ∈ d, isDigit x = true)
    (hr : ∀ x, r.head? = some x → isDigit x = false) : spanDigits (d ++ r) = (d, r) := by
  rw [spanDigits]
  induction d with
  | nil =>
    cases r with
    | nil => rfl
    | cons x xs => simp [hr x rfl]
  | cons x xs ih =>
    have hx := hd x (List.mem_cons_self ..)
    have := ih fun y hy => hd y (List.mem_cons_of_mem _ hy)
    simp only [Prod.mk.injEq] at this
    simp [hx, this.1, this.2]

theorem decF64_isSome {neg : Bool} {d : Bytes} {e : Int} (h : ∀ x ∈ d, isDigit x = true) :
    (decF64 neg d e).isSome := by
  have := digitsVal_isSome h 0
  simp only [decF64]
  cases hd : digitsVal 10 d 0 with
  | none => simp [hd] at this
  | some m => rfl

theorem lowerByte_isDigit {x : UInt8} (h : isDigit x = true) : lowerByte x = x := by
  simp only [isDigit, Bool.and_eq_true, decide_eq_true_eq] at h
  have h2 := UInt8.le_iff_toNat_le.1 h.2
  have : ¬ (0x41 : UInt8) ≤ x := by
    intro hc
    have := UInt8.le_iff_toNat_le.1 hc
    simp at this h2; omega
  simp [lowerByte, this]

/-- Text beginning with a digit is not a special float. -/
theorem f64Unsigned_digit (neg : Bool) (x : UInt8) (r : Bytes) (hx : isDigit x = true) :
    f64Unsigned neg (x :: r) = f64Number neg (x :: r) := by
  have h1 : lowerByte x ≠ 0x69 := by rw [lowerByte_isDigit hx]; rintro rfl; revert hx; decide
  have h2 : lowerByte x ≠ 0x6E := by rw [lowerByte_isDigit hx]; rintro rfl; revert hx; decide
  have e1 : ((x :: r).map lowerByte == b!"inf") = false := by simp [h1]
  have e2 : ((x :: r).map lowerByte == b!"infinity") = false := by simp [h1]
  have e3 : ((x :: r).map lowerByte == b!"nan") = false := by simp [h2]
  simp only [f64Unsigned, e1, e2, e3, Bool.false_or, Bool.false_eq_true, if_false]

theorem toF64_sign {sg t : Bytes} (hsg : IsSign sg) (x : UInt8) (r : Bytes) (ht : t = x :: r)
    (hx : isDigit x = true) : toF64 (sg ++ t) = f64Number (!sg.isEmpty) t := by
  subst ht
  rcases hsg with rfl | rfl
  · simp only [List.nil_append, toF64, splitSign_digit hx, f64Unsigned_digit _ _ _ hx]; rfl
  · simp only [List.cons_append, List.nil_append, toF64, splitSign, f64Unsigned_digit _ _ _ hx]; rfl

/-- Each float text the parser makes is accepted by `to_f64`. -/
theorem FloatText.isSome {t : Bytes} (h : FloatText t) : (toF64 t).isSome := by
  rcases h with rfl | rfl | rfl | ⟨sg, d, hsg, hd, rfl⟩ | ⟨sg, d, f, hsg, hd, hf, rfl⟩ |
    ⟨sg, d, e, es, x, hsg, hd, he, hes, hx, rfl⟩
  · decide
  · decide
  · decide
  · cases d with
    | nil => exact absurd rfl hd.1
    | cons y ys =>
      rw [toF64_sign hsg y ys rfl (hd.2 y (List.mem_cons_self ..)), f64Number]
      have := span_digits (y :: ys) [] hd.2 (by simp)
      rw [List.append_nil] at this
      simp only [this, List.isEmpty_cons, expPart]
      exact decF64_isSome hd.2
  · cases d with
    | nil => exact absurd rfl hd.1
    | cons y ys =>
      rw [List.append_assoc]
      rw [toF64_sign (t := y :: ys ++ 0x2E :: f) hsg y (ys ++ 0x2E :: f) rfl
        (hd.2 y (List.mem_cons_self ..)), f64Number]
      have h1 := span_digits (y :: ys) (0x2E :: f) hd.2 (by intro x hx; simp at hx; subst hx; decide)
      have h2 := span_digits f [] hf (by simp)
      rw [List.append_nil] at h2
      simp only [h1, h2, List.isEmpty_cons, expPart, Bool.false_and, Bool.false_eq_true, if_false]
      apply decF64_isSome
      intro x hx
      rcases List.mem_append.1 hx with hx | hx
      · exact hd.2 x hx
      · exact hf x hx
  · cases d with
    | nil => exact absurd rfl hd.1
    | cons y ys =>
      rw [List.append_assoc]
      rw [toF64_sign (t := y :: ys ++ e :: (es ++ x)) hsg y (ys ++ e :: (es ++ x)) rfl
        (hd.2 y (List.mem_cons_self ..)), f64Number]
      have h1 := span_digits (y :: ys) (e :: (es ++ x)) hd.2 (by
        intro z hz; simp at hz; subst hz; rcases he with rfl | rfl <;> decide)
      have hexp : ∃ v, expPart (e :: (es ++ x)) = some v := by
        have hs := digitsVal_isSome hx.2 0
        have hemp : x.isEmpty = false := by
          cases x with
          | nil => exact absurd rfl hx.1
          | cons z zs => rfl
        have hee : (e == 0x65 || e == 0x45) = true := by rcases he with rfl | rfl <;> decide
        cases hv : digitsVal 10 x 0 with
        | none => simp [hv] at hs
        | some m =>
          simp only [expPart, hee, if_true]
          rcases hes with rfl | rfl | rfl
          · cases x with
            | nil => exact absurd rfl hx.1
            | cons z zs =>
              have hz := hx.2 z (List.mem_cons_self ..)
              simp [splitSign_digit hz, hv]
          · simp [splitSign, hemp, hv]
          · simp [splitSign, hemp, hv]
      obtain ⟨v, hv⟩ := hexp
      simp only [h1, List.isEmpty_cons, Bool.false_eq_true, if_false]
      rcases he with rfl | rfl
      · simp only [hv]; exact decF64_isSome hd.2
      · simp only [hv]; exact decF64_isSome hd.2

end YamlPeg
