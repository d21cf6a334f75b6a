import Verif.Proof.NumVal
/-!
# Binary64: rounding gives standard forms, and is exact on them
-/

namespace YamlPeg

/-- `x` is the standard form of a binary64 number. -/
def F64.Canonical : F64 → Prop
  | .nan => True
  | .inf _ => True
  | .fin _ m e => (m = 0 ∧ e = 0) ∨ (0 < m ∧ m < 2 ^ 53 ∧ -1074 ≤ e ∧ e ≤ 971 ∧ (2 ^ 52 ≤ m ∨ e = -1074))

theorem scaleF_pos {p q : Nat} (hq : q ≠ 0) (e : Int) : 0 < (scaleF p q e).2 := by
  unfold scaleF
  split
  · exact Nat.mul_pos (Nat.pos_of_ne_zero hq) (Nat.two_pow_pos _)
  · exact Nat.pos_of_ne_zero hq

theorem big_iff_scale {p q : Nat} (hq : q ≠ 0) (e : Int) :
    Big p q e ↔ 2 ^ 53 * (scaleF p q e).2 ≤ (scaleF p q e).1 := by
  unfold Big scaleF
  split
  · have e2 : (-e).toNat = 0 := by omega
    simp [e2]
  · have e2 : e.toNat = 0 := by omega
    simp [e2]

theorem big_pred {p q : Nat} (e : Int) (h : Big p q (e - 1)) :
    2 ^ 52 * (scaleF p q e).2 ≤ (scaleF p q e).1 := by
  unfold Big at h
  unfold scaleF
  split
  · rename_i he
    by_cases h0 : e = 0
    · subst h0
      simp at h ⊢
      omega
    · have e1 : e.toNat = (e - 1).toNat + 1 := by omega
      have e2 : (-(e - 1)).toNat = 0 := by omega
      rw [e2] at h
      rw [e1, Nat.pow_succ]
      simp only [Nat.pow_zero, Nat.mul_one] at h
      calc 2 ^ 52 * (q * (2 ^ (e - 1).toNat * 2)) = 2 ^ 53 * (q * 2 ^ (e - 1).toNat) := by
            rw [show (2:Nat) ^ 53 = 2 ^ 52 * 2 from rfl]; ac_rfl
        _ ≤ p := h
  · have e1 : (-(e - 1)).toNat = (-e).toNat + 1 := by omega
    have e2 : (e - 1).toNat = 0 := by omega
    rw [e1, e2, show 2 ^ ((-e).toNat + 1) = 2 ^ (-e).toNat * 2 from rfl] at h
    simp only [Nat.pow_zero, Nat.mul_one] at h
    have : p * (2 ^ (-e).toNat * 2) = 2 * (p * 2 ^ (-e).toNat) := by ac_rfl
    rw [this] at h
    show 2 ^ 52 * q ≤ p * 2 ^ (-e).toNat
    omega

theorem divRound_bounds (p q : Nat) : p / q ≤ divRound p q ∧ divRound p q ≤ p / q + 1 := by
  unfold divRound
  simp only
  repeat' split
  all_goals omega

theorem divRound_exact {m q : Nat} (hq : 0 < q) : divRound (m * q) q = m := by
  unfold divRound
  have h1 : m * q / q = m := Nat.mul_div_cancel _ hq
  have h2 : m * q % q = 0 := Nat.mul_mod_left _ _
  simp [h1, h2, hq]

/-- Every rounded number is in standard form. -/
theorem roundF64_canonical (neg : Bool) (p : Nat) {q : Nat} (hq : q ≠ 0) : (roundF64 neg p q).Canonical := by
  unfold roundF64
  split
  · exact .inl ⟨rfl, rfl⟩
  · rename_i hp
    obtain ⟨h1, h2⟩ := expF_spec hp hq
    simp only
    generalize hE : max (expF p q) (-1074) = E
    have hEle : -1074 ≤ E := by omega
    have hnb : ¬ Big p q E := fun h => h1 (big_mono h (by omega))
    rw [big_iff_scale hq] at hnb
    have hpos := scaleF_pos (p := p) hq E
    have hlow : E = -1074 ∨ 2 ^ 52 ≤ (scaleF p q E).1 / (scaleF p q E).2 := by
      by_cases h : expF p q ≤ -1074
      · left; omega
      · right
        have : E = expF p q := by omega
        rw [this]
        rw [this] at hpos
        rw [Nat.le_div_iff_mul_le hpos]
        exact big_pred _ h2
    have hk : (scaleF p q E).1 / (scaleF p q E).2 < 2 ^ 53 := by
      rw [Nat.div_lt_iff_lt_mul hpos]
      omega
    obtain ⟨hb1, hb2⟩ := divRound_bounds (scaleF p q E).1 (scaleF p q E).2
    generalize divRound (scaleF p q E).1 (scaleF p q E).2 = m at *
    generalize (scaleF p q E).1 / (scaleF p q E).2 = k at *
    unfold packF64
    split
    · exact .inl ⟨rfl, rfl⟩
    · split
      · split
        · trivial
        · exact .inr ⟨by omega, by omega, by omega, by omega, .inl (by omega)⟩
      · split
        · trivial
        · exact .inr ⟨by omega, by omega, by omega, by omega, by omega⟩

/-- A number in standard form is not rounded. -/
theorem roundF64_exact (neg : Bool) {p q m : Nat} {e : Int} (hq : q ≠ 0)
    (hc : 0 < m ∧ m < 2 ^ 53 ∧ -1074 ≤ e ∧ e ≤ 971 ∧ (2 ^ 52 ≤ m ∨ e = -1074))
    (hv : (scaleF p q e).1 = m * (scaleF p q e).2) : roundF64 neg p q = .fin neg m e := by
  obtain ⟨hm, hm', he1, he2, hn⟩ := hc
  have hpos := scaleF_pos (p := p) hq e
  have hp : p ≠ 0 := by
    rintro rfl
    have : (scaleF 0 q e).1 = 0 := by unfold scaleF; split <;> simp
    rw [this] at hv
    have := Nat.mul_pos hm hpos
    omega
  obtain ⟨h1, h2⟩ := expF_spec hp hq
  have hnb : ¬ Big p q e := by
    rw [big_iff_scale hq, hv]
    exact fun h => absurd (Nat.le_of_mul_le_mul_right h hpos) (by omega)
  have hge : expF p q ≤ e := by
    refine Int.not_lt.1 fun h => hnb (big_mono h2 (by omega))
  have hE : max (expF p q) (-1074) = e := by
    rcases hn with hn | hn
    · have hb : Big p q (e - 1) := by
        by_cases h0 : 1 ≤ e
        · unfold Big
          have e1 : (-(e - 1)).toNat = 0 := by omega
          have e2 : e.toNat = (e - 1).toNat + 1 := by omega
          unfold scaleF at hv
          rw [if_pos (by omega), e2, Nat.pow_succ] at hv
          simp only at hv
          rw [e1, hv]
          simp only [Nat.pow_zero, Nat.mul_one]
          calc 2 ^ 53 * (q * 2 ^ (e - 1).toNat) = 2 ^ 52 * (q * (2 ^ (e - 1).toNat * 2)) := by
                rw [show (2:Nat) ^ 53 = 2 ^ 52 * 2 from rfl]; ac_rfl
            _ ≤ m * (q * (2 ^ (e - 1).toNat * 2)) := Nat.mul_le_mul_right _ hn
        · unfold Big
          have e1 : (e - 1).toNat = 0 := by omega
          have e2 : (-(e - 1)).toNat = (-e).toNat + 1 := by omega
          have hv' : p * 2 ^ (-e).toNat = m * q := by
            unfold scaleF at hv
            by_cases hz : e = 0
            · subst hz; simpa using hv
            · rw [if_neg (by omega)] at hv
              exact hv
          rw [e1, e2, show 2 ^ ((-e).toNat + 1) = 2 ^ (-e).toNat * 2 from rfl, ← Nat.mul_assoc p, hv']
          simp only [Nat.pow_zero, Nat.mul_one]
          calc 2 ^ 53 * q = 2 ^ 52 * q * 2 := by omega
            _ ≤ m * q * 2 := Nat.mul_le_mul_right _ (Nat.mul_le_mul_right _ hn)
      have : e ≤ expF p q := Int.not_lt.1 fun h => h1 (big_mono hb (by omega))
      omega
    · omega
  unfold roundF64
  rw [if_neg hp]
  simp only [hE, hv, divRound_exact hpos]
  unfold packF64
  rw [if_neg (by omega), if_neg (by omega), if_neg (by omega)]

theorem numeralValue_zeros (k : Nat) (d : Bytes) :
    numeralValue 10 (List.replicate k 0x30 ++ d) = numeralValue 10 d := by
  induction k with
  | zero => simp
  | succ k ih =>
    rw [List.replicate_succ, List.cons_append]
    simpa [numeralValue, digitValue] using ih

theorem numeralValue_natDec (n : Nat) : numeralValue 10 (natDec n) = n := by
  have h1 := digitsVal_natDec n
  rw [digitsVal_dec (natDec_isDigits n).2] at h1
  simpa using h1

/-- Every fraction with a power of ten below has a decimal text. -/
theorem fraction_text (neg : Bool) (n k : Nat) : ∃ s, toF64 s = some (roundF64 neg n (10 ^ k)) := by
  let w := List.replicate (k + 1) 0x30 ++ natDec n
  have hw : ∀ x ∈ w, isDigit x = true := by
    intro x hx
    rcases List.mem_append.1 hx with hx | hx
    · rw [(List.mem_replicate.1 hx).2]; rfl
    · exact (natDec_isDigits n).2 x hx
  have hlen : k + 1 ≤ w.length := by simp [w]
  have hd : IsDigits (w.take (w.length - k)) := by
    refine ⟨?_, fun x hx => hw x (List.mem_of_mem_take hx)⟩
    intro h
    have := congrArg List.length h
    simp at this
    omega
  have hsg : IsSign (if neg then [0x2D] else []) := by cases neg <;> simp [IsSign]
  refine ⟨_, (toF64_decimal (f := w.drop (w.length - k)) hsg hd (fun x hx => hw x (List.mem_of_mem_drop hx))).trans ?_⟩
  rw [List.take_append_drop]
  have h1 : (w.drop (w.length - k)).length = k := by rw [List.length_drop]; omega
  have h2 : numeralValue 10 w = n := by rw [numeralValue_zeros, numeralValue_natDec]
  rw [h1, h2]
  cases neg <;> rfl

/-- Every number in standard form has a text that is read as that number. -/
theorem canonical_text (x : F64) (hx : x.Canonical) : ∃ s, toF64 s = some x := by
  cases x with
  | nan => exact ⟨b!"NaN", rfl⟩
  | inf neg => cases neg with
    | true => exact ⟨b!"-inf", rfl⟩
    | false => exact ⟨b!"inf", rfl⟩
  | fin neg m e =>
    rcases hx with ⟨rfl, rfl⟩ | hc
    · obtain ⟨s, hs⟩ := fraction_text neg 0 0
      exact ⟨s, by rw [hs]; simp [roundF64]⟩
    · by_cases he : 0 ≤ e
      · obtain ⟨s, hs⟩ := fraction_text neg (m * 2 ^ e.toNat) 0
        refine ⟨s, hs.trans (congrArg some (roundF64_exact neg (by simp) hc ?_))⟩
        unfold scaleF
        rw [if_pos he]
        simp
      · obtain ⟨s, hs⟩ := fraction_text neg (m * 5 ^ (-e).toNat) (-e).toNat
        refine ⟨s, hs.trans (congrArg some (roundF64_exact neg (Nat.ne_of_gt (Nat.pow_pos (by omega))) hc ?_))⟩
        unfold scaleF
        rw [if_neg (by omega)]
        show m * 5 ^ (-e).toNat * 2 ^ (-e).toNat = m * 10 ^ (-e).toNat
        rw [Nat.mul_assoc, ← Nat.mul_pow]

theorem decF64_canonical {neg : Bool} {d : Bytes} {e : Int} {x : F64} (h : decF64 neg d e = some x) :
    x.Canonical := by
  unfold decF64 at h
  split at h
  · cases h
  · simp only [Option.some.injEq] at h
    subst h
    split
    · exact roundF64_canonical _ _ (by simp)
    · exact roundF64_canonical _ _ (Nat.ne_of_gt (Nat.pow_pos (by omega)))

/-- What `to_f64` returns is in standard form. -/
theorem toF64_canonical {s : Bytes} {x : F64} (h : toF64 s = some x) : x.Canonical := by
  unfold toF64 f64Unsigned at h
  simp only at h
  split at h
  · cases h; trivial
  · split at h
    · cases h; trivial
    · unfold f64Number at h
      simp only at h
      split at h
      · split at h
        · cases h
        · split at h
          · exact decF64_canonical h
          · cases h
      · split at h
        · cases h
        · split at h
          · exact decF64_canonical h
          · cases h

end YamlPeg
