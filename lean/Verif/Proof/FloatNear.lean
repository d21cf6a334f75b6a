import Verif.Proof.Float
/-!
# Rounding to binary64 is rounding to nearest, ties to even
-/

namespace YamlPeg

/-- `m·2^e` in units of `2^-1074`, the least positive number. -/
def floatUnits (m : Nat) (e : Int) : Nat := m * 2 ^ (e + 1074).toNat

/-- The distance of `p/q` from `m·2^e`, times `q·2^1074`. -/
def floatDist (p q m : Nat) (e : Int) : Nat := ((p * 2 ^ 1074 : Nat) - (floatUnits m e * q : Nat) : Int).natAbs

/-- `x` is `±p/q` rounded to the nearest binary64 number, to the one with the even mantissa
if two are at the same distance; numbers from `(2 - 2^-53)·2^1023` on become infinite. -/
def Rounded (neg : Bool) (p q : Nat) : F64 → Prop
  | .nan => False
  | .inf s => s = neg ∧ (2 ^ 54 - 1) * 2 ^ 970 * q ≤ p
  | .fin s m e => s = neg ∧ p < (2 ^ 54 - 1) * 2 ^ 970 * q ∧
      ∀ s' m' e', (F64.fin s' m' e').Canonical → floatDist p q m e ≤ floatDist p q m' e' ∧
        (floatDist p q m e = floatDist p q m' e' → floatUnits m e = floatUnits m' e' ∨ m % 2 = 0)

theorem divRound_near (P D : Nat) (hD : 0 < D) :
    2 * ((P : Int) - divRound P D * D).natAbs ≤ D ∧
      (2 * ((P : Int) - divRound P D * D).natAbs = D → divRound P D % 2 = 0) := by
  have hm := Nat.div_add_mod P D
  have hr := Nat.mod_lt P hD
  have e : ((P / D : Nat) : Int) * D = ((D * (P / D) : Nat) : Int) := by push_cast; exact Int.mul_comm ..
  unfold divRound
  simp only
  generalize hk : P / D = k at *
  generalize hrr : P % D = r at *
  have hP : (P : Int) = (D * k : Nat) + r := by omega
  have e1 : ((k + 1 : Nat) : Int) * D = ((D * k : Nat) : Int) + D := by
    push_cast; rw [Int.add_mul, Int.one_mul, Int.mul_comm]
  split
  · rw [e]; constructor <;> omega
  · split
    · rw [e1]; constructor <;> omega
    · split
      · rw [e]; constructor <;> omega
      · rw [e1]; constructor <;> omega

/-- The nearest multiple. -/
theorem near_multiple {P D m : Nat} (hD : 0 < D) (h : 2 * ((P : Int) - m * D).natAbs ≤ D) (j : Nat) :
    ((P : Int) - m * D).natAbs ≤ ((P : Int) - j * D).natAbs ∧
      (((P : Int) - m * D).natAbs = ((P : Int) - j * D).natAbs → j = m ∨ 2 * ((P : Int) - m * D).natAbs = D) := by
  by_cases hj : j = m
  · subst hj; simp
  · have : (D : Int) ≤ ((m : Int) * D - j * D).natAbs := by
      rw [← Int.sub_mul, Int.natAbs_mul]
      have h1 : 1 ≤ ((m : Int) - j).natAbs := by omega
      have := Nat.mul_le_mul_right D h1
      simp only [Int.natAbs_natCast]
      omega
    constructor
    · omega
    · intro h2; right; omega

theorem scaleF_ratio (p q : Nat) {E : Int} (hE : -1074 ≤ E) :
    (scaleF p q E).1 * (q * 2 ^ (E + 1074).toNat) = p * 2 ^ 1074 * (scaleF p q E).2 := by
  unfold scaleF
  split
  · have : (E + 1074).toNat = 1074 + E.toNat := by omega
    rw [this, Nat.pow_add]
    simp only
    generalize (2:Nat) ^ 1074 = t
    ac_rfl
  · have : (1074 : Nat) = (-E).toNat + (E + 1074).toNat := by omega
    have h2 : (2:Nat) ^ 1074 = 2 ^ (-E).toNat * 2 ^ (E + 1074).toNat := by rw [← Nat.pow_add, ← this]
    rw [h2]
    simp only
    ac_rfl

/-- The mantissa and exponent before packing. -/
theorem round_setup {p q : Nat} (hp : p ≠ 0) (hq : q ≠ 0) {E : Int} (hE : max (expF p q) (-1074) = E) :
    -1074 ≤ E ∧ 0 < q * 2 ^ (E + 1074).toNat ∧
    divRound (scaleF p q E).1 (scaleF p q E).2 = divRound (p * 2 ^ 1074) (q * 2 ^ (E + 1074).toNat) ∧
    p * 2 ^ 1074 < 2 ^ 53 * (q * 2 ^ (E + 1074).toNat) ∧
    (E = -1074 ∨ 2 ^ 52 * (q * 2 ^ (E + 1074).toNat) ≤ p * 2 ^ 1074) := by
  obtain ⟨h1, h2⟩ := expF_spec hp hq
  have hEle : -1074 ≤ E := by omega
  have hD : 0 < q * 2 ^ (E + 1074).toNat := Nat.mul_pos (Nat.pos_of_ne_zero hq) (Nat.two_pow_pos _)
  have hr := scaleF_ratio p q hEle
  have hpos := scaleF_pos (p := p) hq E
  have hnb : ¬ Big p q E := fun h => h1 (big_mono h (by omega))
  rw [big_iff_scale hq] at hnb
  have hlow : E = -1074 ∨ 2 ^ 52 * (scaleF p q E).2 ≤ (scaleF p q E).1 := by
    by_cases h : expF p q ≤ -1074
    · left; omega
    · right
      have : E = expF p q := by omega
      rw [this]
      exact big_pred _ h2
  refine ⟨hEle, hD, ?_, ?_, ?_⟩
  · rw [← divRound_scale hD, hr, Nat.mul_comm (scaleF p q E).2, divRound_scale hpos]
  all_goals
    generalize q * 2 ^ (E + 1074).toNat = D at *
    generalize p * 2 ^ 1074 = P at *
    generalize (scaleF p q E).1 = a at *
    generalize (scaleF p q E).2 = b at *
  · have : a < 2 ^ 53 * b := by omega
    have h3 : a * D < 2 ^ 53 * b * D := Nat.mul_lt_mul_of_pos_right this hD
    rw [hr] at h3
    have h4 : P * b < 2 ^ 53 * D * b := by
      calc P * b < 2 ^ 53 * b * D := h3
        _ = 2 ^ 53 * D * b := by ac_rfl
    exact Nat.lt_of_mul_lt_mul_right h4
  · rcases hlow with h | h
    · exact .inl h
    · right
      have h3 : 2 ^ 52 * b * D ≤ a * D := Nat.mul_le_mul_right _ h
      rw [hr] at h3
      have h4 : 2 ^ 52 * D * b ≤ P * b := by
        calc 2 ^ 52 * D * b = 2 ^ 52 * b * D := by ac_rfl
          _ ≤ P * b := h3
      exact Nat.le_of_mul_le_mul_right h4 hpos

/-- The distances to the numbers in standard form. -/
theorem round_near {p q : Nat} {E : Int} (hE : -1074 ≤ E) (hD : 0 < q * 2 ^ (E + 1074).toNat)
    (hlow : E = -1074 ∨ 2 ^ 52 * (q * 2 ^ (E + 1074).toNat) ≤ p * 2 ^ 1074) {m : Nat}
    (hm : m = divRound (p * 2 ^ 1074) (q * 2 ^ (E + 1074).toNat)) (s' : Bool) (m' : Nat) (e' : Int)
    (hc : (F64.fin s' m' e').Canonical) : floatDist p q m E ≤ floatDist p q m' e' ∧
      (floatDist p q m E = floatDist p q m' e' → floatUnits m E = floatUnits m' e' ∨ m % 2 = 0) := by
  obtain ⟨hn1, hn2⟩ := divRound_near (p * 2 ^ 1074) (q * 2 ^ (E + 1074).toNat) hD
  rw [← hm] at hn1 hn2
  have hdist : floatDist p q m E = (((p * 2 ^ 1074 : Nat) : Int) - m * (q * 2 ^ (E + 1074).toNat : Nat)).natAbs := by
    unfold floatDist floatUnits
    congr 2
    push_cast
    rw [Int.mul_assoc, Int.mul_comm (2 ^ _) (q : Int)]
  -- the other number is a multiple of the last place, or far below
  have key : ∀ j : Nat, floatUnits m' e' = j * 2 ^ (E + 1074).toNat → floatDist p q m E ≤ floatDist p q m' e' ∧
      (floatDist p q m E = floatDist p q m' e' → floatUnits m E = floatUnits m' e' ∨ m % 2 = 0) := by
    intro j hj
    have hd' : floatDist p q m' e' = (((p * 2 ^ 1074 : Nat) : Int) - j * (q * 2 ^ (E + 1074).toNat : Nat)).natAbs := by
      unfold floatDist
      rw [hj]
      congr 2
      push_cast
      rw [Int.mul_assoc, Int.mul_comm (2 ^ _) (q : Int)]
    rw [hdist, hd']
    obtain ⟨g1, g2⟩ := near_multiple hD hn1 j
    refine ⟨g1, fun h => ?_⟩
    rcases g2 h with rfl | h
    · left; rw [hj]; rfl
    · exact .inr (hn2 h)
  by_cases hle : E ≤ e'
  · refine key (m' * 2 ^ (e' - E).toNat) ?_
    unfold floatUnits
    rw [Nat.mul_assoc, ← Nat.pow_add]
    congr 2
    omega
  · -- `e' < E`
    have hb : 2 ^ 52 * (q * 2 ^ (E + 1074).toNat) ≤ p * 2 ^ 1074 := by
      rcases hlow with h | h
      · rcases hc with ⟨hm0, he0⟩ | ⟨_, _, h1, _⟩
        · omega
        · omega
      · exact h
    by_cases h0 : m' = 0
    · exact key 0 (by simp [floatUnits, h0])
    have hu : floatUnits m' e' ≤ 2 ^ 52 * 2 ^ (E + 1074).toNat := by
      rcases hc with ⟨hm0, _⟩ | ⟨_, hm53, he, _⟩
      · exact absurd hm0 h0
      · have : (E + 1074).toNat = (e' + 1074).toNat + 1 + (E - e' - 1).toNat := by omega
        unfold floatUnits
        rw [this, Nat.pow_add, Nat.pow_add]
        have h1 : 1 ≤ 2 ^ (E - e' - 1).toNat := Nat.one_le_two_pow
        calc m' * 2 ^ (e' + 1074).toNat ≤ 2 ^ 53 * 2 ^ (e' + 1074).toNat := Nat.mul_le_mul_right _ (by omega)
          _ = 2 ^ 52 * (2 ^ (e' + 1074).toNat * 2 ^ 1) * 1 := by
            rw [show (2:Nat) ^ 53 = 2 ^ 52 * 2 ^ 1 from rfl]; ac_rfl
          _ ≤ 2 ^ 52 * (2 ^ (e' + 1074).toNat * 2 ^ 1) * 2 ^ (E - e' - 1).toNat := Nat.mul_le_mul_left _ h1
          _ = _ := by ac_rfl
    obtain ⟨g1, g2⟩ := near_multiple hD hn1 (2 ^ 52)
    have hq' : floatUnits m' e' * q ≤ 2 ^ 52 * (q * 2 ^ (E + 1074).toNat) := by
      calc floatUnits m' e' * q ≤ 2 ^ 52 * 2 ^ (E + 1074).toNat * q := Nat.mul_le_mul_right _ hu
        _ = _ := by ac_rfl
    have hd' : floatDist p q m' e' = p * 2 ^ 1074 - floatUnits m' e' * q := by
      unfold floatDist
      generalize p * 2 ^ 1074 = P at *
      omega
    have h2 : (((p * 2 ^ 1074 : Nat) : Int) - ((2 ^ 52 : Nat) : Int) * (q * 2 ^ (E + 1074).toNat : Nat)).natAbs =
        p * 2 ^ 1074 - 2 ^ 52 * (q * 2 ^ (E + 1074).toNat) := by
      rw [show (((2 ^ 52 : Nat) : Int) * ((q * 2 ^ (E + 1074).toNat : Nat) : Int)) =
        ((2 ^ 52 * (q * 2 ^ (E + 1074).toNat) : Nat) : Int) from (Int.natCast_mul ..).symm]
      generalize p * 2 ^ 1074 = P at *
      generalize q * 2 ^ (E + 1074).toNat = D at *
      omega
    rw [h2] at g1 g2
    rw [hdist, hd']
    generalize hX : (((p * 2 ^ 1074 : Nat) : Int) - m * (q * 2 ^ (E + 1074).toNat : Nat)).natAbs = X at *
    refine ⟨by generalize p * 2 ^ 1074 = P at *; omega, fun h => ?_⟩
    have h3 : X = p * 2 ^ 1074 - 2 ^ 52 * (q * 2 ^ (E + 1074).toNat) := by
      generalize p * 2 ^ 1074 = P at *; omega
    have h4 : floatUnits m' e' * q = 2 ^ 52 * (q * 2 ^ (E + 1074).toNat) := by
      generalize p * 2 ^ 1074 = P at *; omega
    rcases g2 h3 with h | h
    · left
      have hqpos : 0 < q := Nat.pos_of_mul_pos_right hD
      refine Nat.eq_of_mul_eq_mul_right hqpos ?_
      rw [h4, ← h]
      unfold floatUnits
      ac_rfl
    · exact .inr (hn2 h)

theorem floatDist_eq (p q m : Nat) (E : Int) :
    floatDist p q m E = (((p * 2 ^ 1074 : Nat) : Int) - m * (q * 2 ^ (E + 1074).toNat : Nat)).natAbs := by
  unfold floatDist floatUnits
  generalize p * 2 ^ 1074 = P
  congr 2
  push_cast
  rw [Int.mul_assoc, Int.mul_comm (2 ^ _) (q : Int)]

theorem pow_shift (d i q j : Nat) : d * 2 ^ i * q * 2 ^ j = d * (q * 2 ^ (i + j)) := by
  rw [Nat.pow_add]; ac_rfl

/-- Rounding is to nearest, ties to even. -/
theorem roundF64_rounded (neg : Bool) (p : Nat) {q : Nat} (hq : q ≠ 0) : Rounded neg p q (roundF64 neg p q) := by
  unfold roundF64
  split
  · rename_i hp
    subst hp
    refine ⟨rfl, ?_, fun s' m' e' _ => ⟨by simp [floatDist, floatUnits], fun _ => .inr rfl⟩⟩
    have := Nat.pos_of_ne_zero hq
    have h2 : 0 < (2:Nat) ^ 970 := Nat.two_pow_pos _
    exact Nat.mul_pos (Nat.mul_pos (by decide) h2) this
  · rename_i hp
    simp only
    generalize hE : max (expF p q) (-1074) = E
    obtain ⟨hEle, hD, hm, hhi, hlow⟩ := round_setup hp hq hE
    rw [hm]
    have hnear := fun s' m' e' => round_near hEle hD hlow (m := divRound (p * 2 ^ 1074) (q * 2 ^ (E + 1074).toNat)) rfl s' m' e'
    have hnr := divRound_near (p * 2 ^ 1074) (q * 2 ^ (E + 1074).toNat) hD
    have hmle : divRound (p * 2 ^ 1074) (q * 2 ^ (E + 1074).toNat) ≤ 2 ^ 53 := by
      have h1 := (divRound_bounds (p * 2 ^ 1074) (q * 2 ^ (E + 1074).toNat)).2
      have h2 : p * 2 ^ 1074 / (q * 2 ^ (E + 1074).toNat) < 2 ^ 53 := (Nat.div_lt_iff_lt_mul hD).2 hhi
      omega
    generalize divRound (p * 2 ^ 1074) (q * 2 ^ (E + 1074).toNat) = m at *
    obtain ⟨hn1, hn2⟩ := hnr
    -- the bound, in units
    have hWp : 0 < q * 2 ^ 2044 := Nat.mul_pos (Nat.pos_of_ne_zero hq) (Nat.two_pow_pos _)
    have hB : (2 ^ 54 - 1) * 2 ^ 970 * q * 2 ^ 1074 = (2 ^ 54 - 1) * (q * 2 ^ 2044) := by
      have h := pow_shift (2 ^ 54 - 1) 970 q 1074
      rw [h]
    have h1074 : 0 < (2:Nat) ^ 1074 := Nat.two_pow_pos _
    have hlt : p * 2 ^ 1074 < (2 ^ 54 - 1) * (q * 2 ^ 2044) → p < (2 ^ 54 - 1) * 2 ^ 970 * q := by
      rw [← hB]; exact fun h => Nat.lt_of_mul_lt_mul_right h
    have hge : (2 ^ 54 - 1) * (q * 2 ^ 2044) ≤ p * 2 ^ 1074 → (2 ^ 54 - 1) * 2 ^ 970 * q ≤ p := by
      rw [← hB]; exact fun h => Nat.le_of_mul_le_mul_right h h1074
    have hD1 : E ≤ 970 → q * 2 ^ (E + 1074).toNat ≤ q * 2 ^ 2044 := fun h =>
      Nat.mul_le_mul_left _ (Nat.pow_le_pow_right (by decide) (by omega))
    have hD2 : E = 971 → q * 2 ^ (E + 1074).toNat = 2 * (q * 2 ^ 2044) := by
      rintro rfl
      rw [show ((971 : Int) + 1074).toNat = 2044 + 1 from rfl, Nat.pow_succ]
      generalize (2:Nat) ^ 2044 = a
      ac_rfl
    have hD3 : 971 < E → 4 * (q * 2 ^ 2044) ≤ q * 2 ^ (E + 1074).toNat := by
      intro h
      have h1 : (2:Nat) ^ (2044 + 2) ≤ 2 ^ (E + 1074).toNat := Nat.pow_le_pow_right (by decide) (by omega)
      rw [Nat.pow_add] at h1
      calc 4 * (q * 2 ^ 2044) = q * (2 ^ 2044 * 2 ^ 2) := by generalize (2:Nat) ^ 2044 = a; ac_rfl
        _ ≤ _ := Nat.mul_le_mul_left _ h1
    have hdm : floatDist p q m E = (((p * 2 ^ 1074 : Nat) : Int) - m * (q * 2 ^ (E + 1074).toNat : Nat)).natAbs := floatDist_eq p q m E
    rw [← hdm] at hn1 hn2
    have hmD : ∀ k : Nat, m = k → floatDist p q m E = (((p * 2 ^ 1074 : Nat) : Int) - (k * (q * 2 ^ (E + 1074).toNat) : Nat)).natAbs := by
      rintro k rfl; rw [hdm]; push_cast; rfl
    have hle2 : m < 2 ^ 53 → m * (q * 2 ^ (E + 1074).toNat) ≤ (2 ^ 53 - 1) * (q * 2 ^ (E + 1074).toNat) := fun h =>
      Nat.mul_le_mul_right _ (by omega)
    have hmm := hmD m rfl
    unfold packF64
    split
    · rename_i h0
      subst h0
      refine ⟨rfl, hlt ?_, fun s' m' e' hc => ?_⟩
      · rw [hmD 0 rfl] at hn1
        generalize p * 2 ^ 1074 = P at *
        generalize q * 2 ^ (E + 1074).toNat = D at *
        generalize q * 2 ^ 2044 = W at *
        have : E ≤ 970 := by omega
        have := hD1 this
        omega
      · have hu : floatUnits 0 0 = floatUnits 0 E := by simp [floatUnits]
        have hd : floatDist p q 0 0 = floatDist p q 0 E := by unfold floatDist; rw [hu]
        rw [hu, hd]; exact hnear s' m' e' hc
    · split
      · rename_i h53
        rw [hmD _ h53] at hn1
        split
        · refine ⟨rfl, hge ?_⟩
          generalize p * 2 ^ 1074 = P at *
          generalize q * 2 ^ (E + 1074).toNat = D at *
          generalize q * 2 ^ 2044 = W at *
          have : E = 971 ∨ 971 < E := by omega
          rcases this with h | h
          · have := hD2 h; omega
          · have := hD3 h; omega
        · refine ⟨rfl, hlt ?_, fun s' m' e' hc => ?_⟩
          · generalize p * 2 ^ 1074 = P at *
            generalize q * 2 ^ (E + 1074).toNat = D at *
            generalize q * 2 ^ 2044 = W at *
            have := hD1 (by omega)
            omega
          · have hu : floatUnits (2 ^ 52) (E + 1) = floatUnits m E := by
              unfold floatUnits
              rw [h53, show (E + 1 + 1074).toNat = (E + 1074).toNat + 1 by omega, Nat.pow_succ 2 (E + 1074).toNat]
              rw [show (2:Nat) ^ 53 = 2 ^ 52 * 2 from rfl]
              ac_rfl
            have hd : floatDist p q (2 ^ 52) (E + 1) = floatDist p q m E := by unfold floatDist; rw [hu]
            rw [hu, hd]; exact ⟨(hnear s' m' e' hc).1, fun _ => .inr (by decide)⟩
      · split
        · refine ⟨rfl, hge ?_⟩
          have := hD3 (by omega)
          generalize p * 2 ^ 1074 = P at *
          generalize q * 2 ^ (E + 1074).toNat = D at *
          generalize q * 2 ^ 2044 = W at *
          omega
        · refine ⟨rfl, hlt ?_, hnear⟩
          have hm53 : m < 2 ^ 53 := by omega
          have hle2 := hle2 hm53
          by_cases hodd : m = 2 ^ 53 - 1
          · rw [hmD _ hodd] at hn1 hn2
            generalize p * 2 ^ 1074 = P at *
            generalize q * 2 ^ (E + 1074).toNat = D at *
            generalize q * 2 ^ 2044 = W at *
            have : E ≤ 970 ∨ E = 971 := by omega
            rcases this with h | h
            · have := hD1 h; omega
            · have := hD2 h; omega
          · have hle3 : m * (q * 2 ^ (E + 1074).toNat) ≤ (2 ^ 53 - 2) * (q * 2 ^ (E + 1074).toNat) :=
              Nat.mul_le_mul_right _ (by omega)
            rw [hmm] at hn1
            generalize p * 2 ^ 1074 = P at *
            generalize hX : m * (q * 2 ^ (E + 1074).toNat) = X at *
            generalize q * 2 ^ (E + 1074).toNat = D at *
            generalize q * 2 ^ 2044 = W at *
            have : E ≤ 970 ∨ E = 971 := by omega
            rcases this with h | h
            · have := hD1 h; omega
            · have := hD2 h; omega

theorem floatUnits_inj {s s' : Bool} {m m' : Nat} {e e' : Int} (h : (F64.fin s m e).Canonical) (h' : (F64.fin s' m' e').Canonical)
    (hu : floatUnits m e = floatUnits m' e') : m = m' ∧ e = e' := by
  have pos : ∀ {s : Bool} {m : Nat} {e : Int}, (F64.fin s m e).Canonical → (floatUnits m e = 0 ↔ m = 0) := by
    intro s m e _
    unfold floatUnits
    have := Nat.two_pow_pos (e + 1074).toNat
    constructor
    · intro h
      rcases Nat.mul_eq_zero.1 h with h | h
      · exact h
      · omega
    · rintro rfl; simp
  have lt : ∀ {s s' : Bool} {m m' : Nat} {e e' : Int}, (F64.fin s m e).Canonical → (F64.fin s' m' e').Canonical →
      0 < m → 0 < m' → e < e' → floatUnits m e < floatUnits m' e' := by
    intro s s' m m' e e' h h' hm hm' hlt
    have hc : m < 2 ^ 53 ∧ -1074 ≤ e := by rcases h with h | h <;> omega
    have hc' : 2 ^ 52 ≤ m' := by rcases h' with h | h <;> omega
    unfold floatUnits
    have : (e' + 1074).toNat = (e + 1074).toNat + 1 + (e' - e - 1).toNat := by omega
    rw [this, Nat.pow_add, Nat.pow_add]
    have h1 : 1 ≤ 2 ^ (e' - e - 1).toNat := Nat.one_le_two_pow
    calc m * 2 ^ (e + 1074).toNat < 2 ^ 53 * 2 ^ (e + 1074).toNat := Nat.mul_lt_mul_of_pos_right hc.1 (Nat.two_pow_pos _)
      _ = 2 ^ 52 * (2 ^ (e + 1074).toNat * 2 ^ 1) * 1 := by
        rw [show (2:Nat) ^ 53 = 2 ^ 52 * 2 ^ 1 from rfl]; ac_rfl
      _ ≤ m' * (2 ^ (e + 1074).toNat * 2 ^ 1) * 2 ^ (e' - e - 1).toNat :=
        Nat.mul_le_mul (Nat.mul_le_mul_right _ hc') h1
      _ = _ := by ac_rfl
  by_cases hm : m = 0
  · have : m' = 0 := (pos h').1 (by rw [← hu]; exact (pos h).2 hm)
    subst hm this
    refine ⟨rfl, ?_⟩
    rcases h with h | h <;> rcases h' with h' | h' <;> omega
  · have hm' : m' ≠ 0 := fun h0 => hm ((pos h).1 (by rw [hu]; exact (pos h').2 h0))
    have he : e = e' := by
      rcases Int.lt_trichotomy e e' with hl | hl | hl
      · have := lt h h' (by omega) (by omega) hl; omega
      · exact hl
      · have := lt h' h (by omega) (by omega) hl; omega
    subst he
    refine ⟨?_, rfl⟩
    unfold floatUnits at hu
    exact Nat.eq_of_mul_eq_mul_right (Nat.two_pow_pos _) hu

end YamlPeg
