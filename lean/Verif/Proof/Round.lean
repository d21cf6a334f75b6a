import Verif.Model.Number
/-! # Rounding depends on the rational number only -/

namespace YamlPeg

/-- `p / (q·2^e) ≥ 2^53`. -/
def Big (p q : Nat) (e : Int) : Prop := 2 ^ 53 * (q * 2 ^ e.toNat) ≤ p * 2 ^ (-e).toNat

theorem big_mono {p q : Nat} {e e' : Int} (h : Big p q e) (hle : e' ≤ e) : Big p q e' := by
  unfold Big at *
  by_cases h1 : 0 ≤ e'
  · have e1 : (-e).toNat = 0 := by omega
    have e2 : (-e').toNat = 0 := by omega
    rw [e1] at h; rw [e2]
    refine Nat.le_trans ?_ h
    exact Nat.mul_le_mul_left _ (Nat.mul_le_mul_left _ (Nat.pow_le_pow_right (by omega) (by omega)))
  · by_cases h2 : 0 ≤ e
    · have e1 : (-e).toNat = 0 := by omega
      have e2 : e'.toNat = 0 := by omega
      rw [e1] at h; rw [e2]
      calc 2 ^ 53 * (q * 2 ^ 0) ≤ 2 ^ 53 * (q * 2 ^ e.toNat) :=
            Nat.mul_le_mul_left _ (Nat.mul_le_mul_left _ (Nat.pow_le_pow_right (by omega) (by omega)))
        _ ≤ p * 2 ^ 0 := h
        _ ≤ p * 2 ^ (-e').toNat := Nat.mul_le_mul_left _ (Nat.pow_le_pow_right (by omega) (by omega))
    · have e1 : e.toNat = 0 := by omega
      have e2 : e'.toNat = 0 := by omega
      rw [e1] at h; rw [e2]
      exact Nat.le_trans h (Nat.mul_le_mul_left _ (Nat.pow_le_pow_right (by omega) (by omega)))

theorem big_low {p q : Nat} (hp : p ≠ 0) (hq : q ≠ 0) :
    Big p q ((Nat.log2 p : Int) - (Nat.log2 q : Int) - 54) := by
  unfold Big
  have h1 := Nat.log2_self_le hp
  have h2 := Nat.lt_log2_self (n := q)
  generalize Nat.log2 p = a at *
  generalize Nat.log2 q = c at *
  generalize he : ((a : Int) - c - 54).toNat = x
  generalize hf : (-((a : Int) - c - 54)).toNat = y
  have hxy : a + y = c + 54 + x := by omega
  calc 2 ^ 53 * (q * 2 ^ x) ≤ 2 ^ 53 * (2 ^ (c + 1) * 2 ^ x) :=
        Nat.mul_le_mul_left _ (Nat.mul_le_mul_right _ (by omega))
    _ = 2 ^ a * 2 ^ y := by rw [← Nat.pow_add, ← Nat.pow_add, ← Nat.pow_add]; congr 1; omega
    _ ≤ p * 2 ^ y := Nat.mul_le_mul_right _ h1

theorem big_high {p q : Nat} (hq : q ≠ 0) :
    ¬ Big p q ((Nat.log2 p : Int) - (Nat.log2 q : Int) - 52) := by
  unfold Big
  have h1 := Nat.lt_log2_self (n := p)
  have h2 := Nat.log2_self_le hq
  generalize Nat.log2 p = a at *
  generalize Nat.log2 q = c at *
  generalize he : ((a : Int) - c - 52).toNat = x
  generalize hf : (-((a : Int) - c - 52)).toNat = y
  have hxy : a + y = c + 52 + x := by omega
  have : 2 ^ 53 * (q * 2 ^ x) ≥ 2 ^ (a + 1) * 2 ^ y := by
    calc 2 ^ (a + 1) * 2 ^ y = 2 ^ 53 * (2 ^ c * 2 ^ x) := by
          rw [← Nat.pow_add, ← Nat.pow_add, ← Nat.pow_add]; congr 1; omega
      _ ≤ 2 ^ 53 * (q * 2 ^ x) := Nat.mul_le_mul_left _ (Nat.mul_le_mul_right _ h2)
  have h3 : p * 2 ^ y < 2 ^ (a + 1) * 2 ^ y := Nat.mul_lt_mul_of_pos_right h1 (Nat.two_pow_pos y)
  omega

theorem bigF_iff {p q : Nat} (hq : q ≠ 0) (e : Int) : bigF p q e = true ↔ Big p q e := by
  unfold bigF Big scaleF
  rw [decide_eq_true_eq]
  have hq' : 0 < q := Nat.pos_of_ne_zero hq
  split
  · have e2 : (-e).toNat = 0 := by omega
    simp only [e2, Nat.pow_zero, Nat.mul_one]
    rw [ge_iff_le, Nat.le_div_iff_mul_le (Nat.mul_pos hq' (Nat.two_pow_pos _))]
  · have e2 : e.toNat = 0 := by omega
    simp only [e2, Nat.pow_zero, Nat.mul_one]
    rw [ge_iff_le, Nat.le_div_iff_mul_le hq']

theorem expF_spec {p q : Nat} (hp : p ≠ 0) (hq : q ≠ 0) : ¬ Big p q (expF p q) ∧ Big p q (expF p q - 1) := by
  have hlow := big_low hp hq
  have hhigh := big_high (p := p) hq
  unfold expF
  generalize hA : (Nat.log2 p : Int) - (Nat.log2 q : Int) = A at *
  simp only
  by_cases h : bigF p q (A - 53) = true
  · have h' := (bigF_iff hq _).1 h
    simp only [h, if_true]
    have e : A - 53 + 1 = A - 52 := by omega
    have h2 : bigF p q (A - 53 + 1) = false := by
      rw [e, Bool.eq_false_iff]
      intro hb; exact hhigh ((bigF_iff hq _).1 hb)
    simp only [h2, Bool.false_eq_true, if_false]
    exact ⟨by rw [e]; exact hhigh, by simpa using h'⟩
  · have h' : ¬ Big p q (A - 53) := fun hb => h ((bigF_iff hq _).2 hb)
    rw [Bool.not_eq_true] at h
    simp only [h, Bool.false_eq_true, if_false]
    exact ⟨h', by have : A - 53 - 1 = A - 54 := by omega
                  rw [this]; exact hlow⟩

theorem big_scale {p q c : Nat} (hc : 0 < c) (e : Int) : Big (p * c) (q * c) e ↔ Big p q e := by
  unfold Big
  have e1 : 2 ^ 53 * (q * c * 2 ^ e.toNat) = c * (2 ^ 53 * (q * 2 ^ e.toNat)) := by
    rw [Nat.mul_comm q c, Nat.mul_assoc c, Nat.mul_left_comm]
  have e2 : p * c * 2 ^ (-e).toNat = c * (p * 2 ^ (-e).toNat) := by
    rw [Nat.mul_comm p c, Nat.mul_assoc]
  rw [e1, e2]
  exact ⟨fun h => Nat.le_of_mul_le_mul_left h hc, fun h => Nat.mul_le_mul_left _ h⟩

theorem expF_scale {p q c : Nat} (hp : p ≠ 0) (hq : q ≠ 0) (hc : 0 < c) : expF (p * c) (q * c) = expF p q := by
  have h1 := expF_spec hp hq
  have h2 := expF_spec (p := p * c) (q := q * c) (by
    intro h; rcases Nat.mul_eq_zero.1 h with h | h
    · exact hp h
    · omega) (by
    intro h; rcases Nat.mul_eq_zero.1 h with h | h
    · exact hq h
    · omega)
  rw [big_scale hc, big_scale hc] at h2
  generalize expF (p * c) (q * c) = a at *
  generalize expF p q = d at *
  have n1 : ¬ a < d := by
    intro h
    exact h2.1 (big_mono h1.2 (by omega))
  have n2 : ¬ d < a := by
    intro h
    exact h1.1 (big_mono h2.2 (by omega))
  omega

theorem divRound_scale {a d c : Nat} (hc : 0 < c) : divRound (a * c) (d * c) = divRound a d := by
  unfold divRound
  simp only
  rw [Nat.mul_div_mul_right _ _ hc, Nat.mul_mod_mul_right]
  have e1 : (2 * (a % d * c) < d * c) ↔ (2 * (a % d) < d) := by
    rw [← Nat.mul_assoc]; exact Nat.mul_lt_mul_right hc
  have e2 : (2 * (a % d * c) > d * c) ↔ (2 * (a % d) > d) := by
    rw [← Nat.mul_assoc]; exact Nat.mul_lt_mul_right hc
  simp only [e1, e2]

theorem scaleF_scale (p q c : Nat) (e : Int) :
    scaleF (p * c) (q * c) e = ((scaleF p q e).1 * c, (scaleF p q e).2 * c) := by
  unfold scaleF
  split
  · simp only [Prod.mk.injEq, true_and]; rw [Nat.mul_right_comm]
  · simp only [Prod.mk.injEq, and_true]; rw [Nat.mul_right_comm]

/-- Rounding `p/q` and `pc/qc` is the same. -/
theorem roundF64_scale (neg : Bool) {p q c : Nat} (hq : q ≠ 0) (hc : 0 < c) :
    roundF64 neg (p * c) (q * c) = roundF64 neg p q := by
  unfold roundF64
  by_cases hp : p = 0
  · simp [hp]
  · have hpc : p * c ≠ 0 := by
      intro h; rcases Nat.mul_eq_zero.1 h with h | h
      · exact hp h
      · omega
    simp only [hp, hpc, if_false, expF_scale hp hq hc, scaleF_scale, divRound_scale hc]

end YamlPeg
