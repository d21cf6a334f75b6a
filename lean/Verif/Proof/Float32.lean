import Verif.Proof.FloatNear
import Verif.Model.Float32
/-!
# Rounding to binary32
-/

namespace YamlPeg

/-- `k·2^j` is a binary32 number in standard form: 24 bits, or the least exponent. -/
def F32Num (k : Nat) (j : Int) : Prop := k < 2 ^ 24 ∧ -149 ≤ j ∧ j ≤ 104 ∧ (2 ^ 23 ≤ k ∨ j = -149)

/-- `x` is `±p/q` rounded to the nearest binary32 number, to the one with the even mantissa
if two are at the same distance; numbers from `(2 - 2^-24)·2^127` on become infinite. -/
def Rounded32 (neg : Bool) (p q : Nat) : F64 → Prop
  | .nan => False
  | .inf s => s = neg ∧ (2 ^ 25 - 1) * 2 ^ 103 * q ≤ p
  | .fin s m e => s = neg ∧ p < (2 ^ 25 - 1) * 2 ^ 103 * q ∧
      ∃ k j, F32Num k j ∧ floatUnits m e = floatUnits k j ∧
        ∀ k' j', F32Num k' j' → floatDist p q k j ≤ floatDist p q k' j' ∧
          (floatDist p q k j = floatDist p q k' j' → floatUnits k j = floatUnits k' j' ∨ k % 2 = 0)

theorem round32_setup {p q : Nat} (hp : p ≠ 0) (hq : q ≠ 0) {E : Int} (hE : max (expF p q + 29) (-149) = E) :
    -149 ≤ E ∧ 0 < q * 2 ^ (E + 1074).toNat ∧
    divRound (scaleF p q E).1 (scaleF p q E).2 = divRound (p * 2 ^ 1074) (q * 2 ^ (E + 1074).toNat) ∧
    p * 2 ^ 1074 < 2 ^ 24 * (q * 2 ^ (E + 1074).toNat) ∧
    (E = -149 ∨ 2 ^ 23 * (q * 2 ^ (E + 1074).toNat) ≤ p * 2 ^ 1074) := by
  obtain ⟨h1, h2, _, h4, h5⟩ := round_setup hp hq (E := max (expF p q) (-1074)) rfl
  have hD : 0 < q * 2 ^ (E + 1074).toNat := Nat.mul_pos (Nat.pos_of_ne_zero hq) (Nat.two_pow_pos _)
  have hr := scaleF_ratio p q (E := E) (by omega)
  have hpos := scaleF_pos (p := p) hq E
  refine ⟨by omega, hD, ?_, ?_, ?_⟩
  · rw [← divRound_scale hD, hr, Nat.mul_comm (scaleF p q E).2, divRound_scale hpos]
  · refine Nat.lt_of_lt_of_le h4 ?_
    have h6 : 29 + (max (expF p q) (-1074) + 1074).toNat ≤ (E + 1074).toNat := by omega
    have h7 : (2:Nat) ^ (29 + (max (expF p q) (-1074) + 1074).toNat) ≤ 2 ^ (E + 1074).toNat := Nat.pow_le_pow_right (by decide) h6
    rw [Nat.pow_add] at h7
    calc 2 ^ 53 * (q * 2 ^ (max (expF p q) (-1074) + 1074).toNat)
        = 2 ^ 24 * (q * (2 ^ 29 * 2 ^ (max (expF p q) (-1074) + 1074).toNat)) := by
          rw [show (2:Nat) ^ 53 = 2 ^ 24 * 2 ^ 29 from rfl]; ac_rfl
      _ ≤ _ := Nat.mul_le_mul_left _ (Nat.mul_le_mul_left _ h7)
  · by_cases h : expF p q + 29 ≤ -149
    · left; omega
    · right
      have h6 : (E + 1074).toNat = 29 + (max (expF p q) (-1074) + 1074).toNat := by omega
      rcases h5 with h5 | h5
      · omega
      · rw [h6, Nat.pow_add]
        calc 2 ^ 23 * (q * (2 ^ 29 * 2 ^ (max (expF p q) (-1074) + 1074).toNat))
            = 2 ^ 52 * (q * 2 ^ (max (expF p q) (-1074) + 1074).toNat) := by
              rw [show (2:Nat) ^ 52 = 2 ^ 23 * 2 ^ 29 from rfl]; ac_rfl
          _ ≤ _ := h5

/-- The distances to the binary32 numbers. -/
theorem round32_near {p q : Nat} {E : Int} (hE : -149 ≤ E) (hD : 0 < q * 2 ^ (E + 1074).toNat)
    (hlow : E = -149 ∨ 2 ^ 23 * (q * 2 ^ (E + 1074).toNat) ≤ p * 2 ^ 1074) {m : Nat}
    (hm : m = divRound (p * 2 ^ 1074) (q * 2 ^ (E + 1074).toNat)) (m' : Nat) (e' : Int)
    (hc : F32Num m' e') : floatDist p q m E ≤ floatDist p q m' e' ∧
      (floatDist p q m E = floatDist p q m' e' → floatUnits m E = floatUnits m' e' ∨ m % 2 = 0) := by
  obtain ⟨hn1, hn2⟩ := divRound_near (p * 2 ^ 1074) (q * 2 ^ (E + 1074).toNat) hD
  rw [← hm] at hn1 hn2
  have hdist := floatDist_eq p q m E
  have key : ∀ j : Nat, floatUnits m' e' = j * 2 ^ (E + 1074).toNat → floatDist p q m E ≤ floatDist p q m' e' ∧
      (floatDist p q m E = floatDist p q m' e' → floatUnits m E = floatUnits m' e' ∨ m % 2 = 0) := by
    intro j hj
    have hd' : floatDist p q m' e' = (((p * 2 ^ 1074 : Nat) : Int) - j * (q * 2 ^ (E + 1074).toNat : Nat)).natAbs := by
      unfold floatDist
      rw [hj]
      congr 2
      push_cast
      rw [Int.mul_assoc, Int.mul_comm (2 ^ _) (q : Int)]
    rw [hdist, hd']
    obtain ⟨g1, g2⟩ := near_multiple hD hn1 j
    refine ⟨g1, fun h => ?_⟩
    rcases g2 h with rfl | h
    · left; rw [hj]; rfl
    · exact .inr (hn2 h)
  obtain ⟨hk, hj1, hj2, hn⟩ := hc
  by_cases hle : E ≤ e'
  · refine key (m' * 2 ^ (e' - E).toNat) ?_
    unfold floatUnits
    rw [Nat.mul_assoc, ← Nat.pow_add]
    congr 2
    omega
  · have hb : 2 ^ 23 * (q * 2 ^ (E + 1074).toNat) ≤ p * 2 ^ 1074 := by
      rcases hlow with h | h
      · omega
      · exact h
    have hu : floatUnits m' e' ≤ 2 ^ 23 * 2 ^ (E + 1074).toNat := by
      have : (E + 1074).toNat = (e' + 1074).toNat + 1 + (E - e' - 1).toNat := by omega
      unfold floatUnits
      rw [this, Nat.pow_add, Nat.pow_add]
      have h1 : 1 ≤ 2 ^ (E - e' - 1).toNat := Nat.one_le_two_pow
      calc m' * 2 ^ (e' + 1074).toNat ≤ 2 ^ 24 * 2 ^ (e' + 1074).toNat := Nat.mul_le_mul_right _ (by omega)
        _ = 2 ^ 23 * (2 ^ (e' + 1074).toNat * 2 ^ 1) * 1 := by
          rw [show (2:Nat) ^ 24 = 2 ^ 23 * 2 ^ 1 from rfl]; ac_rfl
        _ ≤ 2 ^ 23 * (2 ^ (e' + 1074).toNat * 2 ^ 1) * 2 ^ (E - e' - 1).toNat := Nat.mul_le_mul_left _ h1
        _ = _ := by ac_rfl
    obtain ⟨g1, g2⟩ := near_multiple hD hn1 (2 ^ 23)
    have hq' : floatUnits m' e' * q ≤ 2 ^ 23 * (q * 2 ^ (E + 1074).toNat) := by
      calc floatUnits m' e' * q ≤ 2 ^ 23 * 2 ^ (E + 1074).toNat * q := Nat.mul_le_mul_right _ hu
        _ = _ := by ac_rfl
    have hd' : floatDist p q m' e' = p * 2 ^ 1074 - floatUnits m' e' * q := by
      unfold floatDist
      generalize p * 2 ^ 1074 = P at *
      omega
    have h2 : (((p * 2 ^ 1074 : Nat) : Int) - ((2 ^ 23 : Nat) : Int) * (q * 2 ^ (E + 1074).toNat : Nat)).natAbs =
        p * 2 ^ 1074 - 2 ^ 23 * (q * 2 ^ (E + 1074).toNat) := by
      rw [show (((2 ^ 23 : Nat) : Int) * ((q * 2 ^ (E + 1074).toNat : Nat) : Int)) =
        ((2 ^ 23 * (q * 2 ^ (E + 1074).toNat) : Nat) : Int) from (Int.natCast_mul ..).symm]
      generalize p * 2 ^ 1074 = P at *
      generalize q * 2 ^ (E + 1074).toNat = D at *
      omega
    rw [h2] at g1 g2
    rw [hdist, hd']
    generalize hX : (((p * 2 ^ 1074 : Nat) : Int) - m * (q * 2 ^ (E + 1074).toNat : Nat)).natAbs = X at *
    refine ⟨by generalize p * 2 ^ 1074 = P at *; omega, fun h => ?_⟩
    have h3 : X = p * 2 ^ 1074 - 2 ^ 23 * (q * 2 ^ (E + 1074).toNat) := by
      generalize p * 2 ^ 1074 = P at *; omega
    have h4 : floatUnits m' e' * q = 2 ^ 23 * (q * 2 ^ (E + 1074).toNat) := by
      generalize p * 2 ^ 1074 = P at *; omega
    rcases g2 h3 with h | h
    · left
      have hqpos : 0 < q := Nat.pos_of_mul_pos_right hD
      refine Nat.eq_of_mul_eq_mul_right hqpos ?_
      rw [h4, ← h]
      unfold floatUnits
      ac_rfl
    · exact .inr (hn2 h)

/-- Every number with few bits has a binary64 in standard form. -/
theorem canonical_units {m : Nat} {e : Int} (h0 : m ≠ 0) (hm : m < 2 ^ 53) (he : -1000 ≤ e) (he' : e ≤ 971) :
    ∃ m' e', (∀ s, (F64.fin s m' e').Canonical) ∧ floatUnits m' e' = floatUnits m e := by
  have hl : m.log2 ≤ 52 := by
    have := (Nat.log2_lt h0).2 hm
    omega
  refine ⟨m * 2 ^ (52 - m.log2), e - (52 - m.log2 : Nat), fun s => .inr ⟨?_, ?_, by omega, by omega, .inl ?_⟩, ?_⟩
  · exact Nat.mul_pos (Nat.pos_of_ne_zero h0) (Nat.two_pow_pos _)
  · have : m < 2 ^ (m.log2 + 1) := Nat.lt_log2_self
    calc m * 2 ^ (52 - m.log2) < 2 ^ (m.log2 + 1) * 2 ^ (52 - m.log2) := Nat.mul_lt_mul_of_pos_right this (Nat.two_pow_pos _)
      _ = 2 ^ 53 := by rw [← Nat.pow_add]; congr 1; omega
  · calc 2 ^ 52 = 2 ^ m.log2 * 2 ^ (52 - m.log2) := by rw [← Nat.pow_add]; congr 1; omega
      _ ≤ _ := Nat.mul_le_mul_right _ (Nat.log2_self_le h0)
  · unfold floatUnits
    rw [Nat.mul_assoc, ← Nat.pow_add]
    congr 2
    omega

theorem scaleF_one_units (m : Nat) {e : Int} (he : -1074 ≤ e) :
    (scaleF m 1 (-e)).1 * 2 ^ 1074 = floatUnits m e * (scaleF m 1 (-e)).2 ∧ (scaleF m 1 (-e)).2 ≠ 0 := by
  unfold scaleF floatUnits
  split
  · refine ⟨?_, by simp [Nat.pos_iff_ne_zero.1 (Nat.two_pow_pos _)]⟩
    simp only [Nat.one_mul]
    rw [Nat.mul_assoc, ← Nat.pow_add]
    congr 2; omega
  · refine ⟨?_, by simp⟩
    simp only [Nat.mul_one]
    rw [Nat.mul_assoc, ← Nat.pow_add]
    congr 2; omega

theorem roundF64_units (neg : Bool) {P Q m : Nat} {e : Int} (hQ : Q ≠ 0) (h0 : m ≠ 0) (hm : m < 2 ^ 53) (he : -1000 ≤ e) (he' : e ≤ 500)
    (hP : P * 2 ^ 1074 = floatUnits m e * Q) :
    ∃ m' e', roundF64 neg P Q = .fin neg m' e' ∧ floatUnits m' e' = floatUnits m e := by
  obtain ⟨m', e', hc, hu⟩ := canonical_units h0 hm he (by omega)
  have hr := roundF64_rounded neg P hQ
  have h1074 : 0 < (2:Nat) ^ 1074 := Nat.two_pow_pos _
  cases hx : roundF64 neg P Q with
  | nan => rw [hx] at hr; exact hr.elim
  | inf s =>
    rw [hx] at hr
    exfalso
    have h1 := Nat.mul_le_mul_right (2 ^ 1074) hr.2
    rw [hP] at h1
    have h2 : floatUnits m e < 2 ^ 53 * 2 ^ 1574 := by
      unfold floatUnits
      calc m * 2 ^ (e + 1074).toNat < 2 ^ 53 * 2 ^ (e + 1074).toNat := Nat.mul_lt_mul_of_pos_right hm (Nat.two_pow_pos _)
        _ ≤ _ := Nat.mul_le_mul_left _ (Nat.pow_le_pow_right (by decide) (by omega))
    have h3 : (2 ^ 54 - 1) * 2 ^ 970 * Q * 2 ^ 1074 = (2 ^ 54 - 1) * 2 ^ 2044 * Q := by
      have h := pow_shift (2 ^ 54 - 1) 970 Q 1074
      rw [h]
      generalize (2:Nat) ^ (970 + 1074) = a
      ac_rfl
    rw [h3] at h1
    have h4 := Nat.le_of_mul_le_mul_right h1 (Nat.pos_of_ne_zero hQ)
    have h5 : (2:Nat) ^ 53 * 2 ^ 1574 ≤ (2 ^ 54 - 1) * 2 ^ 2044 :=
      Nat.mul_le_mul (by decide) (Nat.pow_le_pow_right (by decide) (by decide))
    exact absurd (Nat.lt_of_lt_of_le h2 h5) (Nat.not_lt.2 h4)
  | fin s a b =>
    rw [hx] at hr
    obtain ⟨rfl, _, hn⟩ := hr
    refine ⟨a, b, rfl, ?_⟩
    have hd : floatDist P Q m' e' = 0 := by
      unfold floatDist; rw [hu, hP]; simp
    have h1 := (hn s m' e' (hc s)).1
    rw [hd] at h1
    have h2 : floatDist P Q a b = 0 := by omega
    unfold floatDist at h2
    rw [hP] at h2
    have h3 : floatUnits m e * Q = floatUnits a b * Q := by
      generalize floatUnits m e * Q = x at *
      generalize floatUnits a b * Q = y at *
      omega
    exact (Nat.eq_of_mul_eq_mul_right (Nat.pos_of_ne_zero hQ) h3).symm

/-- The packed number has the value. -/
theorem packF32_units (neg : Bool) {m : Nat} {e : Int} (hm : m ≤ 2 ^ 24) (he : -149 ≤ e) (he' : e ≤ 104)
    (ho : m = 2 ^ 24 → e + 1 ≤ 104) : ∃ m' e', packF32 neg m e = .fin neg m' e' ∧ floatUnits m' e' = floatUnits m e := by
  unfold packF32
  split
  · rename_i h0; subst h0
    exact ⟨0, 0, rfl, by simp [floatUnits]⟩
  · rename_i h0
    rw [if_neg]
    · obtain ⟨h1, h2⟩ := scaleF_one_units m (e := e) (by omega)
      exact roundF64_units neg h2 h0 (by omega) (by omega) (by omega) h1
    · simp only [Bool.or_eq_true, Bool.and_eq_true, decide_eq_true_eq]
      omega

/-- Rounding is to nearest, ties to even. -/
theorem roundF32_rounded (neg : Bool) (p : Nat) {q : Nat} (hq : q ≠ 0) : Rounded32 neg p q (roundF32 neg p q) := by
  unfold roundF32
  split
  · rename_i hp
    subst hp
    refine ⟨rfl, ?_, 0, -149, ⟨by decide, by decide, by decide, .inr rfl⟩, by simp [floatUnits], fun k' j' _ => ⟨by simp [floatDist, floatUnits], fun _ => .inr rfl⟩⟩
    exact Nat.mul_pos (by decide) (Nat.pos_of_ne_zero hq)
  · rename_i hp
    simp only
    generalize hE : max (expF p q + 29) (-149) = E
    obtain ⟨hEle, hD, hm, hhi, hlow⟩ := round32_setup hp hq hE
    rw [hm]
    have hnear := fun m' e' => round32_near hEle hD hlow (m := divRound (p * 2 ^ 1074) (q * 2 ^ (E + 1074).toNat)) rfl m' e'
    have hnr := divRound_near (p * 2 ^ 1074) (q * 2 ^ (E + 1074).toNat) hD
    have hmle : divRound (p * 2 ^ 1074) (q * 2 ^ (E + 1074).toNat) ≤ 2 ^ 24 := by
      have h1 := (divRound_bounds (p * 2 ^ 1074) (q * 2 ^ (E + 1074).toNat)).2
      have h2 : p * 2 ^ 1074 / (q * 2 ^ (E + 1074).toNat) < 2 ^ 24 := (Nat.div_lt_iff_lt_mul hD).2 hhi
      omega
    have hmge : E = -149 ∨ 2 ^ 23 ≤ divRound (p * 2 ^ 1074) (q * 2 ^ (E + 1074).toNat) := by
      rcases hlow with h | h
      · exact .inl h
      · exact .inr (Nat.le_trans ((Nat.le_div_iff_mul_le hD).2 h) (divRound_bounds _ _).1)
    generalize divRound (p * 2 ^ 1074) (q * 2 ^ (E + 1074).toNat) = m at *
    obtain ⟨hn1, hn2⟩ := hnr
    have hB : (2 ^ 25 - 1) * 2 ^ 103 * q * 2 ^ 1074 = (2 ^ 25 - 1) * (q * 2 ^ 1177) := by
      have h := pow_shift (2 ^ 25 - 1) 103 q 1074
      rw [h]
    have h1074 : 0 < (2:Nat) ^ 1074 := Nat.two_pow_pos _
    have hlt : p * 2 ^ 1074 < (2 ^ 25 - 1) * (q * 2 ^ 1177) → p < (2 ^ 25 - 1) * 2 ^ 103 * q := by
      rw [← hB]; exact fun h => Nat.lt_of_mul_lt_mul_right h
    have hge : (2 ^ 25 - 1) * (q * 2 ^ 1177) ≤ p * 2 ^ 1074 → (2 ^ 25 - 1) * 2 ^ 103 * q ≤ p := by
      rw [← hB]; exact fun h => Nat.le_of_mul_le_mul_right h h1074
    have hD1 : E ≤ 103 → q * 2 ^ (E + 1074).toNat ≤ q * 2 ^ 1177 := fun h =>
      Nat.mul_le_mul_left _ (Nat.pow_le_pow_right (by decide) (by omega))
    have hD2 : E = 104 → q * 2 ^ (E + 1074).toNat = 2 * (q * 2 ^ 1177) := by
      rintro rfl
      rw [show ((104 : Int) + 1074).toNat = 1177 + 1 from rfl, Nat.pow_succ]
      generalize (2:Nat) ^ 1177 = a
      ac_rfl
    have hD3 : 104 < E → 4 * (q * 2 ^ 1177) ≤ q * 2 ^ (E + 1074).toNat := by
      intro h
      have h1 : (2:Nat) ^ (1177 + 2) ≤ 2 ^ (E + 1074).toNat := Nat.pow_le_pow_right (by decide) (by omega)
      rw [Nat.pow_add] at h1
      calc 4 * (q * 2 ^ 1177) = q * (2 ^ 1177 * 2 ^ 2) := by generalize (2:Nat) ^ 1177 = a; ac_rfl
        _ ≤ _ := Nat.mul_le_mul_left _ h1
    have hdm := floatDist_eq p q m E
    rw [← hdm] at hn1 hn2
    have hmD : ∀ k : Nat, m = k → floatDist p q m E = (((p * 2 ^ 1074 : Nat) : Int) - (k * (q * 2 ^ (E + 1074).toNat) : Nat)).natAbs := by
      rintro k rfl; rw [hdm]; push_cast; rfl
    have hle2 : m < 2 ^ 24 → m * (q * 2 ^ (E + 1074).toNat) ≤ (2 ^ 24 - 1) * (q * 2 ^ (E + 1074).toNat) := fun h =>
      Nat.mul_le_mul_right _ (by omega)
    have hmm := hmD m rfl
    have hWp : 0 < q * 2 ^ 1177 := Nat.mul_pos (Nat.pos_of_ne_zero hq) (Nat.two_pow_pos _)
    by_cases hov : (m = 2 ^ 24 ∧ E + 1 > 104) ∨ E > 104
    · -- overflow
      have hm0 : m ≠ 0 := by omega
      have : packF32 neg m E = .inf neg := by
        unfold packF32
        rw [if_neg hm0, if_pos]
        simpa only [Bool.or_eq_true, Bool.and_eq_true, decide_eq_true_eq] using hov
      rw [this]
      refine ⟨rfl, hge ?_⟩
      rcases (show E = 104 ∨ 104 < E by omega) with h | h
      · have h24 : m = 2 ^ 24 := by omega
        have := hD2 h
        rw [hmD _ h24] at hn1
        generalize p * 2 ^ 1074 = P at *
        generalize q * 2 ^ (E + 1074).toNat = D at *
        generalize q * 2 ^ 1177 = W at *
        omega
      · have := hD3 h
        have hl : 2 ^ 23 * (q * 2 ^ (E + 1074).toNat) ≤ p * 2 ^ 1074 := by
          rcases hlow with h | h
          · omega
          · exact h
        generalize p * 2 ^ 1074 = P at *
        generalize q * 2 ^ (E + 1074).toNat = D at *
        generalize q * 2 ^ 1177 = W at *
        omega
    · obtain ⟨m', e', h1, h2⟩ := packF32_units neg hmle hEle (by omega) (by omega)
      rw [h1]
      by_cases h24 : m = 2 ^ 24
      · refine ⟨rfl, hlt ?_, 2 ^ 23, E + 1, ⟨by decide, by omega, by omega, .inl (Nat.le_refl _)⟩, ?_, fun k' j' hc => ?_⟩
        · rw [hmD _ h24] at hn1
          generalize p * 2 ^ 1074 = P at *
          generalize q * 2 ^ (E + 1074).toNat = D at *
          generalize q * 2 ^ 1177 = W at *
          have := hD1 (by omega)
          omega
        all_goals
          have hu : floatUnits (2 ^ 23) (E + 1) = floatUnits m E := by
            unfold floatUnits
            rw [h24, show (E + 1 + 1074).toNat = (E + 1074).toNat + 1 by omega, Nat.pow_succ 2 (E + 1074).toNat]
            rw [show (2:Nat) ^ 24 = 2 ^ 23 * 2 from rfl]
            ac_rfl
        · rw [h2, hu]
        · have hd : floatDist p q (2 ^ 23) (E + 1) = floatDist p q m E := by unfold floatDist; rw [hu]
          rw [hu, hd]; exact ⟨(hnear k' j' hc).1, fun _ => .inr (by decide)⟩
      · have hm24 : m < 2 ^ 24 := by omega
        refine ⟨rfl, hlt ?_, m, E, ⟨hm24, hEle, by omega, by omega⟩, h2, hnear⟩
        have hle2 := hle2 hm24
        by_cases hodd : m = 2 ^ 24 - 1
        · rw [hmD _ hodd] at hn1 hn2
          generalize p * 2 ^ 1074 = P at *
          generalize q * 2 ^ (E + 1074).toNat = D at *
          generalize q * 2 ^ 1177 = W at *
          rcases (show E ≤ 103 ∨ E = 104 by omega) with h | h
          · have := hD1 h; omega
          · have := hD2 h; omega
        · have hle3 : m * (q * 2 ^ (E + 1074).toNat) ≤ (2 ^ 24 - 2) * (q * 2 ^ (E + 1074).toNat) :=
            Nat.mul_le_mul_right _ (by omega)
          rw [hmm] at hn1
          generalize p * 2 ^ 1074 = P at *
          generalize hX : m * (q * 2 ^ (E + 1074).toNat) = X at *
          generalize q * 2 ^ (E + 1074).toNat = D at *
          generalize q * 2 ^ 1177 = W at *
          rcases (show E ≤ 103 ∨ E = 104 by omega) with h | h
          · have := hD1 h; omega
          · have := hD2 h; omega

theorem packF32_canonical (neg : Bool) (m : Nat) (e : Int) : (packF32 neg m e).Canonical := by
  unfold packF32
  split
  · exact .inl ⟨rfl, rfl⟩
  · split
    · trivial
    · refine roundF64_canonical _ _ ?_
      have := scaleF_pos (p := m) Nat.one_ne_zero (-e)
      omega

theorem roundF32_canonical (neg : Bool) (p q : Nat) : (roundF32 neg p q).Canonical := by
  unfold roundF32
  split
  · exact .inl ⟨rfl, rfl⟩
  · exact packF32_canonical ..

/-! ## Two roundings -/

/-- The number is halfway between two neighbouring binary32 numbers. -/
def F64.HalfF32 : F64 → Prop
  | .fin _ m e => ∃ k j, F32Num k j ∧ 2 * floatUnits m e = (2 * k + 1) * 2 ^ (j + 1074).toNat
  | _ => False

/-- The binary32 number below. -/
theorem f32_pred {k k' : Nat} {j j' : Int} (h : F32Num k j) (h' : F32Num k' j') (hlt : floatUnits k' j' < floatUnits k j) :
    ∃ a b, F32Num a b ∧ floatUnits k' j' ≤ floatUnits a b ∧ floatUnits a b + 2 ^ (b + 1074).toNat = floatUnits k j := by
  obtain ⟨hk, hj1, hj2, hn⟩ := h
  obtain ⟨hk', hj1', hj2', hn'⟩ := h'
  have hk0 : k ≠ 0 := by rintro rfl; simp [floatUnits] at hlt
  have main : ∀ a b, F32Num a b → floatUnits a b + 2 ^ (b + 1074).toNat = floatUnits k j → floatUnits k' j' ≤ floatUnits a b := by
    intro a b ⟨ha, hb1, hb2, hbn⟩ he
    by_cases hle : b ≤ j'
    · have ht : floatUnits k' j' = k' * 2 ^ (j' - b).toNat * 2 ^ (b + 1074).toNat := by
        unfold floatUnits
        rw [Nat.mul_assoc, ← Nat.pow_add]
        congr 2
        omega
      have he' : floatUnits k j = (a + 1) * 2 ^ (b + 1074).toNat := by
        rw [← he, Nat.add_mul]; unfold floatUnits; omega
      rw [ht, he'] at hlt
      have := Nat.lt_of_mul_lt_mul_right hlt
      rw [ht]
      exact Nat.mul_le_mul_right _ (by omega)
    · have ha' : 2 ^ 23 ≤ a := by omega
      unfold floatUnits
      calc k' * 2 ^ (j' + 1074).toNat ≤ 2 ^ 24 * 2 ^ (j' + 1074).toNat := Nat.mul_le_mul_right _ (by omega)
        _ = 2 ^ 23 * 2 ^ ((j' + 1074).toNat + 1) := by
          rw [Nat.pow_succ 2 (j' + 1074).toNat, show (2:Nat) ^ 24 = 2 ^ 23 * 2 from rfl]; ac_rfl
        _ ≤ 2 ^ 23 * 2 ^ (b + 1074).toNat := Nat.mul_le_mul_left _ (Nat.pow_le_pow_right (by decide) (by omega))
        _ ≤ _ := Nat.mul_le_mul_right _ ha'
  by_cases hb : k = 2 ^ 23 ∧ -149 < j
  · have hN : F32Num (2 ^ 24 - 1) (j - 1) := ⟨by decide, by omega, by omega, .inl (by decide)⟩
    have he : floatUnits (2 ^ 24 - 1) (j - 1) + 2 ^ (j - 1 + 1074).toNat = floatUnits k j := by
      unfold floatUnits
      rw [hb.1, show (j + 1074).toNat = (j - 1 + 1074).toNat + 1 by omega, Nat.pow_succ 2 (j - 1 + 1074).toNat]
      generalize (2:Nat) ^ (j - 1 + 1074).toNat = a
      omega
    exact ⟨_, _, hN, main _ _ hN he, he⟩
  · have hN : F32Num (k - 1) j := ⟨by omega, by omega, by omega, by omega⟩
    have he : floatUnits (k - 1) j + 2 ^ (j + 1074).toNat = floatUnits k j := by
      unfold floatUnits
      have : k = (k - 1) + 1 := by omega
      rw [this, Nat.add_mul, Nat.add_sub_cancel, Nat.one_mul]
    exact ⟨_, _, hN, main _ _ hN he, he⟩

/-- Rounding is monotone against binary64 numbers. -/
theorem Rounded.mono {neg s : Bool} {p q m m' : Nat} {e e' : Int} (hq : q ≠ 0) (h : Rounded neg p q (.fin s m e))
    (hc : (F64.fin s m' e').Canonical) :
    (floatUnits m' e' * q ≤ p * 2 ^ 1074 → floatUnits m' e' ≤ floatUnits m e) ∧
    (p * 2 ^ 1074 ≤ floatUnits m' e' * q → floatUnits m e ≤ floatUnits m' e') := by
  have h1 := (h.2.2 s m' e' hc).1
  unfold floatDist at h1
  have hlt : ∀ {a b : Nat}, a < b → a * q < b * q := fun h => Nat.mul_lt_mul_of_pos_right h (Nat.pos_of_ne_zero hq)
  generalize p * 2 ^ 1074 = P at *
  constructor
  · intro h2
    by_cases h3 : floatUnits m e < floatUnits m' e'
    · have := hlt h3
      generalize floatUnits m e * q = x at *
      generalize floatUnits m' e' * q = y at *
      omega
    · omega
  · intro h2
    by_cases h3 : floatUnits m' e' < floatUnits m e
    · have := hlt h3
      generalize floatUnits m e * q = x at *
      generalize floatUnits m' e' * q = y at *
      omega
    · omega

/-- The midpoint above a binary32 number is a binary64 number. -/
theorem half_canonical {a : Nat} {b : Int} (h : F32Num a b) :
    ∃ m e, (∀ s, (F64.fin s m e).Canonical) ∧ 2 * floatUnits m e = (2 * a + 1) * 2 ^ (b + 1074).toNat := by
  obtain ⟨ha, h1, h2, _⟩ := h
  obtain ⟨m, e, hc, hu⟩ := canonical_units (m := 2 * a + 1) (e := b - 1) (by omega) (by omega) (by omega) (by omega)
  refine ⟨m, e, hc, ?_⟩
  rw [hu]
  unfold floatUnits
  rw [show (b + 1074).toNat = (b - 1 + 1074).toNat + 1 by omega, Nat.pow_succ 2 (b - 1 + 1074).toNat]
  ac_rfl

/-- **Rounding twice is rounding once**, unless the intermediate number is a midpoint. -/
theorem toF32_of_rounded {neg : Bool} {p q : Nat} {y : F64} (hq : q ≠ 0) (hr : Rounded neg p q y) (hc : y.Canonical)
    (hh : ¬ y.HalfF32) : y.toF32 = roundF32 neg p q := by
  have hx := roundF32_rounded neg p hq
  have hxc := roundF32_canonical neg p q
  have hqp := Nat.pos_of_ne_zero hq
  cases y with
  | nan => exact hr.elim
  | inf s =>
    obtain ⟨rfl, hp⟩ := hr
    have hb : (2 ^ 25 - 1) * 2 ^ 103 * q ≤ p := by
      refine Nat.le_trans (Nat.mul_le_mul_right q ?_) hp
      exact Nat.mul_le_mul (by decide) (Nat.pow_le_pow_right (by decide) (by decide))
    cases hX : roundF32 s p q with
    | nan => rw [hX] at hx; exact hx.elim
    | inf t => rw [hX] at hx; rw [hx.1]; rfl
    | fin t m e => rw [hX] at hx; have := hx.2.1; omega
  | fin s m e =>
    have hs : s = neg := hr.1
    subst hs
    have hey : -1074 ≤ e := by rcases hc with h | h <;> omega
    obtain ⟨hPQ, hQ⟩ := scaleF_one_units m hey
    have hz := roundF32_rounded s (scaleF m 1 (-e)).1 hQ
    have hzc := roundF32_canonical s (scaleF m 1 (-e)).1 (scaleF m 1 (-e)).2
    show roundF32 s (scaleF m 1 (-e)).1 (scaleF m 1 (-e)).2 = _
    generalize (scaleF m 1 (-e)).1 = P' at *
    generalize (scaleF m 1 (-e)).2 = Q' at *
    have hmono := fun m' e' => Rounded.mono (m' := m') (e' := e') hq hr
    have hQp := Nat.pos_of_ne_zero hQ
    have hTu : ∃ m e, (∀ s, (F64.fin s m e).Canonical) ∧ floatUnits m e = (2 ^ 25 - 1) * 2 ^ 1177 := by
      obtain ⟨a, b, h1, h2⟩ := canonical_units (m := 2 ^ 25 - 1) (e := 103) (by decide) (by decide) (by decide) (by decide)
      refine ⟨a, b, h1, h2.trans ?_⟩
      unfold floatUnits
      rw [show ((103 : Int) + 1074).toNat = 1177 from rfl]
    have hTh : floatUnits m e ≠ (2 ^ 25 - 1) * 2 ^ 1177 := by
      intro h
      refine hh ⟨2 ^ 24 - 1, 104, ⟨by decide, by decide, by decide, .inl (by decide)⟩, ?_⟩
      rw [h, show ((104 : Int) + 1074).toNat = 1177 + 1 from rfl, Nat.pow_succ 2 1177]
      generalize (2:Nat) ^ 1177 = a
      omega
    have hB : ∀ r, (2 ^ 25 - 1) * 2 ^ 103 * r * 2 ^ 1074 = (2 ^ 25 - 1) * 2 ^ 1177 * r := by
      intro r
      have h := pow_shift (2 ^ 25 - 1) 103 r 1074
      rw [h, show 103 + 1074 = 1177 from rfl]
      generalize (2:Nat) ^ 1177 = a
      ac_rfl
    have h1074 : 0 < (2:Nat) ^ 1074 := Nat.two_pow_pos _
    obtain ⟨mT, eT, hTc, hTe⟩ := hTu
    cases hX : roundF32 s p q with
    | nan => rw [hX] at hx; exact hx.elim
    | inf t =>
      rw [hX] at hx
      obtain ⟨rfl, hp⟩ := hx
      cases hZ : roundF32 t P' Q' with
      | nan => rw [hZ] at hz; exact hz.elim
      | inf t' => rw [hZ] at hz; rw [hz.1]
      | fin t' a b =>
        rw [hZ] at hz
        exfalso
        have h1 := (hmono mT eT (hTc t)).1 (by
          rw [hTe, ← hB]; exact Nat.mul_le_mul_right _ hp)
        have h2 := Nat.mul_lt_mul_of_pos_right hz.2.1 h1074
        rw [hB, hPQ] at h2
        have h3 := Nat.lt_of_mul_lt_mul_right h2
        rw [hTe] at h1
        exact absurd h3 (Nat.not_lt.2 h1)
    | fin t mx ex =>
      rw [hX] at hx hxc
      obtain ⟨rfl, hpT, kx, jx, hNx, hux, hnx⟩ := hx
      cases hZ : roundF32 t P' Q' with
      | nan => rw [hZ] at hz; exact hz.elim
      | inf t' =>
        rw [hZ] at hz
        exfalso
        obtain ⟨rfl, hz⟩ := hz
        have h1 := Nat.mul_le_mul_right (2 ^ 1074) hz
        rw [hB, hPQ] at h1
        have h2 := Nat.le_of_mul_le_mul_right h1 hQp
        have h3 := (hmono mT eT (hTc t')).2 (by
          rw [hTe, ← hB]; exact Nat.le_of_lt (Nat.mul_lt_mul_of_pos_right hpT h1074))
        rw [hTe] at h3
        exact hTh (Nat.le_antisymm h3 h2)
      | fin t' mz ez =>
        rw [hZ] at hz hzc
        obtain ⟨rfl, hzT, kz, jz, hNz, huz, hnz⟩ := hz
        -- distances from the binary64
        have hdy : ∀ k j, floatDist P' Q' k j = ((floatUnits m e : Int) - floatUnits k j).natAbs * Q' := by
          intro k j
          unfold floatDist
          rw [hPQ]
          rw [Int.natCast_mul, Int.natCast_mul, ← Int.sub_mul, Int.natAbs_mul]
          simp
        have hny : ∀ k j, F32Num k j → ((floatUnits m e : Int) - floatUnits kz jz).natAbs ≤ ((floatUnits m e : Int) - floatUnits k j).natAbs := by
          intro k j hN
          have h1 := (hnz k j hN).1
          rw [hdy, hdy] at h1
          exact Nat.le_of_mul_le_mul_right h1 hQp
        have hnp : ∀ k j, F32Num k j → (((p * 2 ^ 1074 : Nat) : Int) - (floatUnits kx jx * q : Nat)).natAbs ≤
            (((p * 2 ^ 1074 : Nat) : Int) - (floatUnits k j * q : Nat)).natAbs := fun k j hN => (hnx k j hN).1
        have hlt : ∀ {a b : Nat}, a < b → a * q < b * q := fun h => Nat.mul_lt_mul_of_pos_right h hqp
        have hle : ∀ {a b : Nat}, a ≤ b → a * q ≤ b * q := fun h => Nat.mul_le_mul_right q h
        have heq : floatUnits kz jz = floatUnits kx jx := by
          rcases Nat.lt_trichotomy (floatUnits kz jz) (floatUnits kx jx) with hl | hl | hl
          · exfalso
            obtain ⟨a, b, hN, h1, h2⟩ := f32_pred hNx hNz hl
            obtain ⟨mh, eh, hhc, hhu⟩ := half_canonical hN
            have h3 : 2 * floatUnits mh eh = floatUnits a b + floatUnits kx jx := by
              rw [hhu, ← h2]; unfold floatUnits; rw [Nat.add_mul, Nat.mul_assoc]; omega
            have h4 : floatUnits m e ≠ floatUnits mh eh := fun h => hh ⟨a, b, hN, by rw [h, hhu]⟩
            have h5 := hnp a b hN
            have h6 : floatUnits a b * q < floatUnits kx jx * q := hlt (by have := Nat.two_pow_pos (b + 1074).toNat; omega)
            have h7 : 2 * (floatUnits mh eh * q) = floatUnits a b * q + floatUnits kx jx * q := by
              rw [← Nat.mul_assoc, h3, Nat.add_mul]
            have h8 := (hmono mh eh (hhc t')).1 (by
              generalize p * 2 ^ 1074 = P at *
              generalize floatUnits a b * q = x at *
              generalize floatUnits kx jx * q = y at *
              generalize floatUnits mh eh * q = z at *
              omega)
            have h9 := hny kx jx hNx
            omega
          · exact hl
          · exfalso
            obtain ⟨a, b, hN, h1, h2⟩ := f32_pred hNz hNx hl
            obtain ⟨mh, eh, hhc, hhu⟩ := half_canonical hN
            have h3 : 2 * floatUnits mh eh = floatUnits a b + floatUnits kz jz := by
              rw [hhu, ← h2]; unfold floatUnits; rw [Nat.add_mul, Nat.mul_assoc]; omega
            have h4 : floatUnits m e ≠ floatUnits mh eh := fun h => hh ⟨a, b, hN, by rw [h, hhu]⟩
            have hpos := Nat.two_pow_pos (b + 1074).toNat
            have h5 := hny a b hN
            have h6 : floatUnits mh eh < floatUnits m e := by omega
            have h7 := mt (hmono mh eh (hhc t')).2 (by omega)
            have h8 := hnp kz jz hNz
            have h9 := hlt hl
            have h10 : 2 * (floatUnits mh eh * q) = floatUnits a b * q + floatUnits kz jz * q := by
              rw [← Nat.mul_assoc, h3, Nat.add_mul]
            have h11 := hle h1
            generalize p * 2 ^ 1074 = P at *
            generalize floatUnits a b * q = x at *
            generalize floatUnits kx jx * q = y at *
            generalize floatUnits kz jz * q = w at *
            generalize floatUnits mh eh * q = z at *
            omega
        obtain ⟨h1, h2⟩ := floatUnits_inj hzc hxc (by rw [huz, heq, hux])
        rw [h1, h2]

/-! ## The nearest number is one number -/

theorem f32_form {k k' : Nat} {j j' : Int} (h : F32Num k j) (h' : F32Num k' j') (hu : floatUnits k j = floatUnits k' j') :
    k = k' ∧ (j = j' ∨ k = 0) := by
  have lt : ∀ {k k' : Nat} {j j' : Int}, F32Num k j → F32Num k' j' → j < j' → floatUnits k j < floatUnits k' j' := by
    intro k k' j j' ⟨hk, h1, h2, hn⟩ ⟨hk', h1', h2', hn'⟩ hlt
    have hk23 : 2 ^ 23 ≤ k' := by omega
    unfold floatUnits
    calc k * 2 ^ (j + 1074).toNat < 2 ^ 24 * 2 ^ (j + 1074).toNat := Nat.mul_lt_mul_of_pos_right hk (Nat.two_pow_pos _)
      _ = 2 ^ 23 * 2 ^ ((j + 1074).toNat + 1) := by
        rw [Nat.pow_succ 2 (j + 1074).toNat, show (2:Nat) ^ 24 = 2 ^ 23 * 2 from rfl]; ac_rfl
      _ ≤ 2 ^ 23 * 2 ^ (j' + 1074).toNat := Nat.mul_le_mul_left _ (Nat.pow_le_pow_right (by decide) (by omega))
      _ ≤ _ := Nat.mul_le_mul_right _ hk23
  have hj : j = j' := by
    rcases Int.lt_trichotomy j j' with hl | hl | hl
    · have := lt h h' hl; omega
    · exact hl
    · have := lt h' h hl; omega
  subst hj
  exact ⟨Nat.eq_of_mul_eq_mul_right (Nat.two_pow_pos _) hu, .inl rfl⟩

theorem Rounded32.unique {neg : Bool} {p q : Nat} (hq : q ≠ 0) {x y : F64} (hx : Rounded32 neg p q x) (hy : Rounded32 neg p q y)
    (hxc : x.Canonical) (hyc : y.Canonical) : x = y := by
  have hqp := Nat.pos_of_ne_zero hq
  have hlt : ∀ {a b : Nat}, a < b → a * q < b * q := fun h => Nat.mul_lt_mul_of_pos_right h hqp
  have key : ∀ {k k' j j'}, F32Num k j → F32Num k' j' →
      (∀ a b, F32Num a b → floatDist p q k j ≤ floatDist p q a b ∧
        (floatDist p q k j = floatDist p q a b → floatUnits k j = floatUnits a b ∨ k % 2 = 0)) →
      (∀ a b, F32Num a b → floatDist p q k' j' ≤ floatDist p q a b ∧
        (floatDist p q k' j' = floatDist p q a b → floatUnits k' j' = floatUnits a b ∨ k' % 2 = 0)) →
      ¬ floatUnits k' j' < floatUnits k j := by
    intro k k' j j' hN hN' h1 h2 hl
    obtain ⟨a, b, hNa, g1, g2⟩ := f32_pred hN hN' hl
    have hpos := Nat.two_pow_pos (b + 1074).toNat
    have d1 := h1 a b hNa
    have d2 := h2 a b hNa
    have d3 := h1 k' j' hN'
    have d4 := h2 k j hN
    have hk : k % 2 = 0 := by
      rcases d3.2 (by omega) with h | h
      · omega
      · exact h
    have hk' : k' % 2 = 0 := by
      rcases d4.2 (by omega) with h | h
      · omega
      · exact h
    have hd : floatDist p q k j = floatDist p q k' j' := by omega
    -- the number below is the other one
    have he : floatUnits k' j' = floatUnits a b := by
      rcases Nat.lt_or_ge (floatUnits k' j') (floatUnits a b) with h | h
      · exfalso
        have l1 := hlt h
        have l2 : floatUnits a b * q < floatUnits k j * q := hlt (by omega)
        have e1 := d1.1
        have e2 := d2.1
        unfold floatDist at hd e1 e2
        generalize p * 2 ^ 1074 = P at *
        generalize floatUnits a b * q = x at *
        generalize floatUnits k j * q = y at *
        generalize floatUnits k' j' * q = z at *
        omega
      · omega
    obtain ⟨hka, _⟩ := f32_form hN' hNa he
    -- neighbours differ in the last bit
    have ha : a % 2 = 0 := by omega
    obtain ⟨hk1, hj1, hj2, hn⟩ := hN
    obtain ⟨hk2, hj3, hj4, hn'⟩ := hNa
    have hs : floatUnits k j = (a + 1) * 2 ^ (b + 1074).toNat := by
      rw [← g2, Nat.add_mul]; unfold floatUnits; omega
    by_cases hbj : b = j
    · subst hbj
      have := Nat.eq_of_mul_eq_mul_right (Nat.two_pow_pos _) hs
      omega
    · by_cases ha24 : a + 1 < 2 ^ 24
      · have := f32_form (k := k) (k' := a + 1) (j := j) (j' := b) ⟨hk1, hj1, hj2, hn⟩ ⟨ha24, hj3, hj4, by omega⟩ hs
        omega
      · omega
  cases x with
  | nan => exact hx.elim
  | inf s => cases y with
    | nan => exact hy.elim
    | inf t => rw [hx.1, hy.1]
    | fin t m e => have := hx.2; have := hy.2.1; omega
  | fin s m e => cases y with
    | nan => exact hy.elim
    | inf t => have := hy.2; have := hx.2.1; omega
    | fin t m' e' =>
      obtain ⟨rfl, _, k, j, hN, hu, h1⟩ := hx
      obtain ⟨rfl, _, k', j', hN', hu', h2⟩ := hy
      have := key hN hN' h1 h2
      have := key hN' hN h2 h1
      obtain ⟨rfl, rfl⟩ := floatUnits_inj hxc hyc (by omega)
      rfl

/-- Rounding depends on the value only. -/
theorem Rounded.ratio {neg : Bool} {p q p' q' : Nat} (hq : q ≠ 0) (hq' : q' ≠ 0) (hr : p * q' = p' * q) {x : F64}
    (hx : Rounded neg p q x) : Rounded neg p' q' x := by
  have hqp := Nat.pos_of_ne_zero hq
  have hqp' := Nat.pos_of_ne_zero hq'
  have hd : ∀ m e, floatDist p q m e * q' = floatDist p' q' m e * q := by
    intro m e
    unfold floatDist
    generalize (2:Nat) ^ 1074 = w
    have e1 : ∀ (a : Int) (n : Nat), a.natAbs * n = (a * n).natAbs := by intro a n; rw [Int.natAbs_mul]; simp
    rw [e1, e1, Int.sub_mul, Int.sub_mul]
    congr 1
    rw [← Int.natCast_mul, ← Int.natCast_mul, ← Int.natCast_mul, ← Int.natCast_mul]
    congr 2
    · calc p * w * q' = (p * q') * w := by ac_rfl
        _ = p' * w * q := by rw [hr]; ac_rfl
    · ac_rfl
  have hb : ∀ B : Nat, B * q ≤ p ↔ B * q' ≤ p' := by
    intro B
    constructor
    · intro h
      have := Nat.mul_le_mul_right q' h
      rw [hr] at this
      refine Nat.le_of_mul_le_mul_right ?_ hqp
      calc B * q' * q = B * q * q' := by ac_rfl
        _ ≤ _ := this
    · intro h
      have := Nat.mul_le_mul_right q h
      rw [← hr] at this
      refine Nat.le_of_mul_le_mul_right ?_ hqp'
      calc B * q * q' = B * q' * q := by ac_rfl
        _ ≤ _ := this
  cases x with
  | nan => exact hx
  | inf s => obtain ⟨h1, h2⟩ := hx; exact ⟨h1, (hb _).1 h2⟩
  | fin s m e =>
    refine ⟨hx.1, Nat.lt_of_not_le fun h => absurd hx.2.1 (Nat.not_lt.2 ((hb _).2 h)), fun s' m' e' hc => ?_⟩
    obtain ⟨h1, h2⟩ := hx.2.2 s' m' e' hc
    have g1 := hd m e
    have g2 := hd m' e'
    constructor
    · refine Nat.le_of_mul_le_mul_right ?_ hqp
      rw [← g1, ← g2]
      exact Nat.mul_le_mul_right _ h1
    · intro h
      refine h2 (Nat.eq_of_mul_eq_mul_right hqp' ?_)
      rw [g1, g2, h]

end YamlPeg
