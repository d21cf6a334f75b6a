import Verif.Proof.Decimal
import Verif.Proof.Round
/-! # The values of number texts -/

namespace YamlPeg

/-- The value of one digit. -/
def digitValue (c : UInt8) : Nat :=
  if c.toNat ≤ 57 then c.toNat - 48 else if c.toNat ≤ 70 then c.toNat - 55 else c.toNat - 87

/-- The value of a numeral, most significant digit first. -/
def numeralValue (radix : Nat) (d : Bytes) : Nat := d.foldl (fun a c => a * radix + digitValue c) 0

theorem digitVal_value {c : UInt8} {v : Nat} (h : digitVal c = some v) : v = digitValue c := by
  unfold digitVal at h
  simp only [Bool.and_eq_true, decide_eq_true_eq, UInt8.le_iff_toNat_le] at h
  unfold digitValue
  simp at h
  repeat' split at h
  all_goals simp at h
  all_goals (repeat' split) <;> omega

theorem digitsVal_value {radix : Nat} : ∀ {d : Bytes} (acc : Nat),
    (∀ c ∈ d, ∃ v, digitVal c = some v ∧ v < radix) →
    digitsVal radix d acc = some (d.foldl (fun a c => a * radix + digitValue c) acc)
  | [], acc, _ => rfl
  | c :: d, acc, h => by
    obtain ⟨v, hv, hlt⟩ := h c (by simp)
    have ih := digitsVal_value (d := d) (acc * radix + v) fun x hx => h x (by simp [hx])
    simp only [digitsVal, hv, hlt, if_true, ih, List.foldl_cons, ← digitVal_value hv]

theorem digitsVal_dec {d : Bytes} (h : ∀ x ∈ d, isDigit x = true) :
    digitsVal 10 d 0 = some (numeralValue 10 d) :=
  digitsVal_value 0 fun c hc => by
    obtain ⟨v, hlt, hv⟩ := digitVal_isDigit (h c hc)
    exact ⟨v, hv, hlt⟩

/-- The value of a signed decimal numeral, when it fits. -/
theorem toI64_numeral {sg d : Bytes} (hsg : IsSign sg) (hd : IsDigits d) :
    toI64 (sg ++ d) =
      if inI64 (if sg = [] then (numeralValue 10 d : Int) else -(numeralValue 10 d : Int))
      then some (if sg = [] then (numeralValue 10 d : Int) else -(numeralValue 10 d : Int)) else none := by
  rw [toI64_decimal hsg hd, digitsVal_dec hd.2]
  rfl

theorem removeAll_none {pat : Bytes} {x : UInt8} (hx : x ∈ pat) : ∀ (n : Nat) {s : Bytes}, x ∉ s →
    replaceAux n pat s = s
  | 0, _, _ => rfl
  | n + 1, [], _ => by unfold replaceAux; rfl
  | n + 1, c :: r, h => by
    have hp : pat.isPrefixOf (c :: r) = false := by
      cases hh : pat.isPrefixOf (c :: r) with
      | false => rfl
      | true => exact absurd ((List.isPrefixOf_iff_prefix.1 hh).subset hx) h
    rw [replaceAux, hp]
    simp [removeAll_none hx n (s := r) (fun hh => h (by simp [hh]))]

/-- A hexadecimal or octal digit. -/
def isRadixDigit (radix : Nat) (c : UInt8) : Bool :=
  (isDigit c || (0x41 ≤ c && c ≤ 0x46) || (0x61 ≤ c && c ≤ 0x66)) && decide (digitValue c < radix)

theorem isRadixDigit_val {radix : Nat} {c : UInt8} (h : isRadixDigit radix c = true) :
    ∃ v, digitVal c = some v ∧ v < radix := by
  simp only [isRadixDigit, Bool.and_eq_true, decide_eq_true_eq] at h
  have : (digitVal c).isSome := by
    have := byteAll (P := fun c => !(isDigit c || (0x41 ≤ c && c ≤ 0x46) || (0x61 ≤ c && c ≤ 0x66)) ||
      (digitVal c).isSome) (by decide +kernel) c
    simp only [h.1, Bool.not_true, Bool.false_or] at this
    exact this
  obtain ⟨v, hv⟩ := Option.isSome_iff_exists.1 this
  exact ⟨v, hv, by rw [digitVal_value hv]; exact h.2⟩
where
  byteAll {P : UInt8 → Bool} (h : (List.range 256).all (fun n => P (UInt8.ofNat n)) = true) (c : UInt8) :
      P c = true := by
    rw [List.all_eq_true] at h
    have := h c.toNat (List.mem_range.2 c.toNat_lt)
    simpa using this

theorem i64FromStrRadix_numeral {radix : Nat} {d : Bytes} (hne : d ≠ []) (hd : ∀ c ∈ d, isRadixDigit radix c = true) :
    i64FromStrRadix radix d =
      if (numeralValue radix d : Int) < 2 ^ 63 then some (numeralValue radix d : Int) else none := by
  have hs : splitSign d = (false, d) := by
    cases d with
    | nil => exact absurd rfl hne
    | cons c r =>
      have := hd c (by simp)
      unfold splitSign
      split
      · rename_i heq; simp at heq; obtain ⟨rfl, _⟩ := heq
        simp [isRadixDigit, isDigit] at this
      · rename_i heq; simp at heq; obtain ⟨rfl, _⟩ := heq
        simp [isRadixDigit, isDigit] at this
      · rfl
  have hv := digitsVal_value 0 fun c hc => isRadixDigit_val (hd c hc)
  have he : d.isEmpty = false := by cases d with
    | nil => exact absurd rfl hne
    | cons c r => rfl
  simp only [i64FromStrRadix, hs, he, hv, Bool.false_eq_true, if_false]
  rw [show List.foldl (fun a c => a * radix + digitValue c) 0 d = numeralValue radix d from rfl]
  have e : inI64 (numeralValue radix d : Int) = decide ((numeralValue radix d : Int) < 2 ^ 63) := by
    simp only [inI64]
    rw [Bool.eq_iff_iff]
    simp only [Bool.and_eq_true, decide_eq_true_eq]
    omega
  simp only [e, decide_eq_true_eq]

theorem not_mem_radix {radix : Nat} {d : Bytes} (hd : ∀ c ∈ d, isRadixDigit radix c = true) {x : UInt8}
    (hx : (isDigit x || (0x41 ≤ x && x ≤ 0x46) || (0x61 ≤ x && x ≤ 0x66)) = false) : x ∉ d := by
  intro h
  have := hd x h
  simp only [isRadixDigit, hx, Bool.false_and] at this
  cases this

/-- The value of a hexadecimal numeral. -/
theorem toI64_hex {d : Bytes} (hne : d ≠ []) (hd : ∀ c ∈ d, isRadixDigit 16 c = true) :
    toI64 (0x30 :: 0x78 :: d) =
      if (numeralValue 16 d : Int) < 2 ^ 63 then some (numeralValue 16 d : Int) else none := by
  have h1 : containsSub (0x30 :: 0x78 :: d) b!"0x" = true := by simp [containsSub, List.isPrefixOf]
  have h2 : removeAll (0x30 :: 0x78 :: d) b!"0x" = d := by
    simp only [removeAll, List.length_cons, replaceAux]
    simp only [List.isPrefixOf, BEq.rfl, Bool.and_self, if_true, List.length_cons, List.length_nil, List.drop_succ_cons,
      List.drop_zero]
    exact removeAll_none (x := 0x78) (by simp) _ (not_mem_radix hd (by decide))
  rw [toI64, if_pos h1, h2, i64FromStrRadix_numeral hne hd]

/-- The value of an octal numeral. -/
theorem toI64_oct {d : Bytes} (hne : d ≠ []) (hd : ∀ c ∈ d, isRadixDigit 8 c = true) :
    toI64 (0x30 :: 0x6F :: d) =
      if (numeralValue 8 d : Int) < 2 ^ 63 then some (numeralValue 8 d : Int) else none := by
  have hx : (0x78 : UInt8) ∉ d := not_mem_radix hd (by decide)
  have h0 : containsSub (0x30 :: 0x6F :: d) b!"0x" = false :=
    containsSub_false (x := 0x78) (by simp) (by simp [hx])
  have h1 : containsSub (0x30 :: 0x6F :: d) b!"0o" = true := by simp [containsSub, List.isPrefixOf]
  have h2 : removeAll (0x30 :: 0x6F :: d) b!"0o" = d := by
    simp only [removeAll, List.length_cons, replaceAux]
    simp only [List.isPrefixOf, BEq.rfl, Bool.and_self, if_true, List.length_cons, List.length_nil, List.drop_succ_cons,
      List.drop_zero]
    exact removeAll_none (x := 0x6F) (by simp) _ (not_mem_radix hd (by decide))
  rw [toI64, if_neg (by simp [h0]), if_pos h1, h2, i64FromStrRadix_numeral hne hd]

theorem numeralValue_snoc (r : Nat) (d : Bytes) (c : UInt8) :
    numeralValue r (d ++ [c]) = numeralValue r d * r + digitValue c := by
  simp [numeralValue]

theorem decF64_digits {neg : Bool} {d : Bytes} (h : ∀ x ∈ d, isDigit x = true) (j : Nat) :
    decF64 neg d (-(j : Int)) = some (roundF64 neg (numeralValue 10 d) (10 ^ j)) := by
  simp only [decF64, digitsVal_dec h]
  by_cases hj : j = 0
  · subst hj; simp
  · simp [hj]

/-- The value of a decimal fraction: the double nearest to the rational number
it denotes. -/
theorem toF64_decimal {sg d f : Bytes} (hsg : IsSign sg) (hd : IsDigits d) (hf : ∀ x ∈ f, isDigit x = true) :
    toF64 (sg ++ d ++ 0x2E :: f) = some (roundF64 (!sg.isEmpty) (numeralValue 10 (d ++ f)) (10 ^ f.length)) := by
  cases d with
  | nil => exact absurd rfl hd.1
  | cons y ys =>
    rw [List.append_assoc]
    rw [toF64_sign (t := y :: ys ++ 0x2E :: f) hsg y (ys ++ 0x2E :: f) rfl
      (hd.2 y (List.mem_cons_self ..)), f64Number]
    have h1 := span_digits (y :: ys) (0x2E :: f) hd.2 (by intro x hx; simp at hx; subst hx; decide)
    have h2 := span_digits f [] hf (by simp)
    rw [List.append_nil] at h2
    simp only [h1, h2, List.isEmpty_cons, expPart, Bool.false_and, Bool.false_eq_true, if_false]
    have := decF64_digits (neg := !sg.isEmpty) (d := y :: ys ++ f) (by
      intro x hx
      rcases List.mem_append.1 hx with hx | hx
      · exact hd.2 x hx
      · exact hf x hx) f.length
    simpa using this

theorem toF64_integer {sg d : Bytes} (hsg : IsSign sg) (hd : IsDigits d) :
    toF64 (sg ++ d) = some (roundF64 (!sg.isEmpty) (numeralValue 10 d) 1) := by
  cases d with
  | nil => exact absurd rfl hd.1
  | cons y ys =>
    rw [toF64_sign hsg y ys rfl (hd.2 y (List.mem_cons_self ..)), f64Number]
    have := span_digits (y :: ys) [] hd.2 (by simp)
    rw [List.append_nil] at this
    simp only [this, List.isEmpty_cons, expPart]
    have := decF64_digits (neg := !sg.isEmpty) (d := y :: ys) hd.2 0
    simpa using this

/-- The text the parser keeps of a decimal fraction has the same value. -/
theorem toF64_trim {sg d f : Bytes} (hsg : IsSign sg) (hd : IsDigits d) (hf : ∀ x ∈ f, isDigit x = true) :
    toF64 (trimEndMatches (sg ++ d ++ 0x2E :: f) b!".0") =
      some (roundF64 (!sg.isEmpty) (numeralValue 10 (d ++ f)) (10 ^ f.length)) := by
  rw [trim_float sg d f hsg hd.2 hf]
  split
  · rename_i h; subst h
    rw [toF64_integer hsg hd, numeralValue_snoc]
    have := roundF64_scale (!sg.isEmpty) (p := numeralValue 10 d) (q := 1) (c := 10) (by omega) (by omega)
    simpa [digitValue] using this.symm
  · exact toF64_decimal hsg hd hf

end YamlPeg
