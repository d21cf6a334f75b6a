import Verif.Proof.Float32
import Verif.Props.Floats
import Verif.Props.Serde
/-!
# C69: fields of type `f32`

`Rounded32 neg p q x` (Proof/Float32.lean): `x` is the binary32 number nearest to `±p/q`, of two
equally near ones the one with the even mantissa.  `y.HalfF32`: `y` lies in the middle between two
neighbouring binary32 numbers.  The code reads the text as `f64` first and rounds the
result to `f32`.
-/

namespace YamlPeg.Props
open YamlPeg

variable {h : HashCfg} {f : FloatFmt}

/-- **C69.** An `Int` read into an `f32` is the `f32` nearest to it. -/
theorem C69_int (pos : Nat) (tag s : Bytes) (i : Int) (hs : toI64 s = some i) :
    ∃ v, de h f .f32 (.mk pos tag (.int s)) = .ok (.f32 v) ∧ Rounded32 (decide (i < 0)) i.natAbs 1 v :=
  ⟨f32OfInt i, by simp only [de, Node.yaml, hs], roundF32_rounded _ _ Nat.one_ne_zero⟩

theorem lit_rounded (x : FloatLit) (hx : x.ok) {p q : Nat} (hv : x.AbsValue p q) :
    ∃ y, toF64 x.text = some y ∧ Rounded (x.sign == b!"-") p q y ∧ y.Canonical := by
  obtain ⟨y, p', q', h1, h2, h3⟩ := C35_float_number x hx
  refine ⟨y, h1, ?_, toF64_canonical h1⟩
  obtain ⟨hq, he⟩ := hv
  obtain ⟨hq', he'⟩ := h2
  refine Rounded.ratio hq' hq ?_ h3
  have h10 : 0 < 10 ^ x.down := Nat.pow_pos (by decide)
  refine Nat.eq_of_mul_eq_mul_right h10 ?_
  calc p' * q * 10 ^ x.down = (p' * 10 ^ x.down) * q := by ac_rfl
    _ = (numeralValue 10 (x.whole ++ x.point) * 10 ^ x.up * q) * q' := by rw [he']; ac_rfl
    _ = p * q' * 10 ^ x.down := by rw [← he]; ac_rfl

/-- **C69, partial.** A `Float` of the value `±p/q` read into an `f32` is the `f32` nearest to `±p/q`, unless the
`f64` nearest to it is in the middle between two `f32`s.  Missing: in the middle the nearest may be missed
(`C69_counterexample_double_rounding`). -/
theorem C69_float_nearest_partial (pos : Nat) (tag : Bytes) (x : FloatLit) (hx : x.ok) (p q : Nat) (hv : x.AbsValue p q) :
    ∃ y v, (Node.mk pos tag (.float x.text)).asFloat = .ok y ∧ Rounded (x.sign == b!"-") p q y ∧
      de h f .f32 (.mk pos tag (.float x.text)) = .ok (.f32 v) ∧
      (¬ y.HalfF32 → Rounded32 (x.sign == b!"-") p q v) := by
  obtain ⟨y, h1, h2, h3⟩ := lit_rounded x hx hv
  refine ⟨y, y.toF32, by simp only [Node.asFloat, Node.yaml, h1], h2, by simp only [de, Node.yaml, h1], fun hh => ?_⟩
  rw [toF32_of_rounded hv.1 h2 h3 hh]
  exact roundF32_rounded _ _ hv.1

/-- A number that is an `f32` is not in the middle between two. -/
theorem f32_not_half {s : Bool} {m k : Nat} {e j : Int} (hN : F32Num k j) (hu : floatUnits m e = floatUnits k j) :
    ¬ (F64.fin s m e).HalfF32 := by
  rintro ⟨a, b, hNa, hh⟩
  rw [hu] at hh
  have hp := Nat.two_pow_pos (b + 1074).toNat
  have hl : floatUnits a b < floatUnits k j := by
    rw [Nat.add_mul, Nat.mul_assoc] at hh
    unfold floatUnits at *
    omega
  obtain ⟨c, d, hNc, h1, h2⟩ := f32_pred hN hNa hl
  -- the number after `a·2^b` is at most `k·2^j`
  have hge : floatUnits a b + 2 ^ (b + 1074).toNat ≤ floatUnits k j := by
    obtain ⟨ha, hb1, hb2, hn⟩ := hNa
    obtain ⟨hk, hj1, hj2, hn'⟩ := hN
    by_cases hle : b ≤ j
    · have ht : floatUnits k j = k * 2 ^ (j - b).toNat * 2 ^ (b + 1074).toNat := by
        unfold floatUnits
        rw [Nat.mul_assoc, ← Nat.pow_add]
        congr 2
        omega
      rw [ht] at hl ⊢
      have := Nat.lt_of_mul_lt_mul_right hl
      have h3 := Nat.mul_le_mul_right (2 ^ (b + 1074).toNat) this
      rw [Nat.succ_mul] at h3
      exact h3
    · exfalso
      have ha' : 2 ^ 23 ≤ a := by omega
      have : floatUnits k j ≤ floatUnits a b := by
        unfold floatUnits
        calc k * 2 ^ (j + 1074).toNat ≤ 2 ^ 24 * 2 ^ (j + 1074).toNat := Nat.mul_le_mul_right _ (by omega)
          _ = 2 ^ 23 * 2 ^ ((j + 1074).toNat + 1) := by
            rw [Nat.pow_succ 2 (j + 1074).toNat, show (2:Nat) ^ 24 = 2 ^ 23 * 2 from rfl]; ac_rfl
          _ ≤ 2 ^ 23 * 2 ^ (b + 1074).toNat := Nat.mul_le_mul_left _ (Nat.pow_le_pow_right (by decide) (by omega))
          _ ≤ _ := Nat.mul_le_mul_right _ ha'
      omega
  rw [Nat.add_mul, Nat.mul_assoc] at hh
  unfold floatUnits at *
  omega

/-- **C69, partial.** What the library owes an `f32` it wrote.  `Display for f32` writes a number `x` of
the value `±p/q` to which `v` is the nearest `f32` (that is its contract); reading the text gives `v` again unless
the `f64` nearest to `±p/q` is in the middle between two `f32`s. -/
theorem C69_survives_partial (v : F64) (hc : v.Canonical) (x : FloatLit) (hx : x.ok) (p q : Nat) (hv : x.AbsValue p q)
    (ht : f.fmt32 v = x.text) (hr : Rounded32 (x.sign == b!"-") p q v)
    (hh : ∀ y, toF64 x.text = some y → ¬ y.HalfF32) :
    ∃ n, ser h f (.f32 v) = .ok n ∧ de h f .f32 n = .ok (.f32 v) := by
  obtain ⟨y, h1, h2, h3⟩ := lit_rounded x hx hv
  refine ⟨_, rfl, ?_⟩
  have : y.toF32 = v := by
    rw [toF32_of_rounded hv.1 h2 h3 (hh y h1)]
    exact Rounded32.unique hv.1 (roundF32_rounded _ _ hv.1) hr (roundF32_canonical ..) hc
  simp only [de, Node.ofYaml, Node.yaml, ht, h1, this]

/-- **C69.** An `f32` whose decimal text is its exact value survives. -/
theorem C69_exact_survives (neg : Bool) (m k : Nat) (e j : Int) (hN : F32Num k j) (hc : (F64.fin neg m e).Canonical)
    (hu : floatUnits m e = floatUnits k j) (ht : toF64 (f.fmt32 (.fin neg m e)) = some (.fin neg m e)) :
    ∃ n, ser h f (.f32 (.fin neg m e)) = .ok n ∧ de h f .f32 n = .ok (.f32 (.fin neg m e)) := by
  refine ⟨_, rfl, ?_⟩
  have hey : -1074 ≤ e := by rcases hc with h | h <;> omega
  obtain ⟨hPQ, hQ⟩ := scaleF_one_units m hey
  have hself : Rounded neg (scaleF m 1 (-e)).1 (scaleF m 1 (-e)).2 (roundF64 neg (scaleF m 1 (-e)).1 (scaleF m 1 (-e)).2) :=
    roundF64_rounded _ _ hQ
  have h32 := roundF32_rounded neg (scaleF m 1 (-e)).1 hQ
  have h32c := roundF32_canonical neg (scaleF m 1 (-e)).1 (scaleF m 1 (-e)).2
  have hd : floatDist (scaleF m 1 (-e)).1 (scaleF m 1 (-e)).2 k j = 0 := by
    unfold floatDist; rw [hPQ, hu]; simp
  have : (F64.fin neg m e).toF32 = .fin neg m e := by
    show roundF32 neg (scaleF m 1 (-e)).1 (scaleF m 1 (-e)).2 = _
    generalize (scaleF m 1 (-e)).1 = P at *
    generalize (scaleF m 1 (-e)).2 = Q at *
    have hQp := Nat.pos_of_ne_zero hQ
    cases hX : roundF32 neg P Q with
    | nan => rw [hX] at h32; exact h32.elim
    | inf s =>
      rw [hX] at h32
      obtain ⟨_, h5⟩ := h32
      exfalso
      have h1 : (2 ^ 25 - 1) * 2 ^ 103 * Q * 2 ^ 1074 ≤ P * 2 ^ 1074 := by
        generalize (2:Nat) ^ 1074 = a; exact Nat.mul_le_mul_right a h5
      have h2 : (2 ^ 25 - 1) * 2 ^ 103 * Q * 2 ^ 1074 = (2 ^ 25 - 1) * 2 ^ 1177 * Q := by
        have h := pow_shift (2 ^ 25 - 1) 103 Q 1074
        rw [h, show 103 + 1074 = 1177 from rfl]
        generalize (2:Nat) ^ 1177 = a
        ac_rfl
      rw [h2, hPQ, hu] at h1
      have h3 := Nat.le_of_mul_le_mul_right h1 hQp
      obtain ⟨hk, hj1, hj2, _⟩ := hN
      have h4 : floatUnits k j ≤ (2 ^ 24 - 1) * 2 ^ 1178 := by
        unfold floatUnits
        exact Nat.mul_le_mul (by omega) (Nat.pow_le_pow_right (by decide) (by omega))
      have h6 : (2:Nat) ^ 1178 = 2 ^ 1177 * 2 := Nat.pow_succ 2 1177
      rw [h6] at h4
      have hp := Nat.two_pow_pos 1177
      generalize (2:Nat) ^ 1177 = a at *
      omega
    | fin s a b =>
      rw [hX] at h32 h32c
      obtain ⟨rfl, _, k', j', hN', hu', hn⟩ := h32
      have h1 := (hn k j hN).1
      have h2 : floatDist P Q k' j' = 0 := by omega
      unfold floatDist at h2
      have h3 : floatUnits k' j' * Q = floatUnits m e * Q := by
        rw [hPQ] at h2
        generalize floatUnits m e * Q = x at *
        generalize floatUnits k' j' * Q = y at *
        omega
      have h4 := Nat.eq_of_mul_eq_mul_right hQp h3
      obtain ⟨g1, g2⟩ := floatUnits_inj h32c hc (by rw [hu', h4])
      rw [g1, g2]
  simp only [de, Node.ofYaml, Node.yaml, ht, this]

/-- A number in the middle between two `f32`s has 28 zero bits at the end. -/
theorem half_low_bits {s : Bool} {m : Nat} {e : Int} (hm : 2 ^ 52 ≤ m) (he : -1074 ≤ e) (hh : (F64.fin s m e).HalfF32) : m % 2 ^ 28 = 0 := by
  obtain ⟨k, j, ⟨hk, hj1, hj2, hn⟩, hu⟩ := hh
  unfold floatUnits at hu
  have h1 : (e + 1074).toNat + 29 ≤ (j + 1074).toNat := by
    refine Nat.le_of_not_lt fun h => ?_
    have h2 : (2:Nat) ^ (j + 1074).toNat ≤ 2 ^ ((e + 1074).toNat + 28) := Nat.pow_le_pow_right (by decide) (by omega)
    rw [Nat.pow_add] at h2
    have h3 : (2 * k + 1) * 2 ^ (j + 1074).toNat ≤ (2 ^ 25 - 1) * (2 ^ (e + 1074).toNat * 2 ^ 28) := Nat.mul_le_mul (by omega) h2
    have h4 : 2 ^ 52 * 2 ^ (e + 1074).toNat ≤ m * 2 ^ (e + 1074).toNat := Nat.mul_le_mul_right _ hm
    have hp := Nat.two_pow_pos (e + 1074).toNat
    generalize (2:Nat) ^ (e + 1074).toNat = a at *
    omega
  obtain ⟨d, hd⟩ : ∃ d, (j + 1074).toNat = (e + 1074).toNat + 29 + d := ⟨_, (Nat.add_sub_cancel' h1).symm⟩
  rw [hd, Nat.pow_add, Nat.pow_add] at hu
  have h5 : m = 2 ^ 28 * ((2 * k + 1) * 2 ^ d) := by
    refine Nat.eq_of_mul_eq_mul_right (Nat.two_pow_pos (e + 1074).toNat) (Nat.eq_of_mul_eq_mul_left (show 0 < 2 by decide) ?_)
    rw [hu, show (2:Nat) ^ 29 = 2 * 2 ^ 28 from rfl]
    ac_rfl
  rw [h5]
  exact Nat.mul_mod_right ..

/-- 7.038531e-26, the `f32` with mantissa 11420669 and exponent -107. -/
def f32Lost : F64 := .fin false 6131424981680128 (-136)

/-- The text Rust prints for it. -/
def f32LostText : Bytes := b!"0.00000000000000000000000007038531"

/-- **C69** fails for `7.038531e-26`: the text Rust writes for it is nearest to it (its contract), but read as `f64` first it
is in the middle between it and its neighbour, and becomes the neighbour. -/
theorem C69_counterexample_double_rounding (hf : f.fmt32 f32Lost = f32LostText) :
    F32Num 11420669 (-107) ∧ floatUnits 6131424981680128 (-136) = floatUnits 11420669 (-107) ∧
    Rounded32 false 7038531 (10 ^ 32) f32Lost ∧
    ∃ n v, ser h f (.f32 f32Lost) = .ok n ∧ de h f .f32 n = .ok (.f32 v) ∧ v ≠ f32Lost ∧ ¬ Rounded32 false 7038531 (10 ^ 32) v := by
  have h0 : roundF32 false 7038531 (10 ^ 32) = f32Lost := by decide +kernel
  have h1 : toF64 f32LostText = some (.fin false 6131425250115584 (-136)) := by decide +kernel
  have h2 : (F64.fin false 6131425250115584 (-136)).toF32 = .fin false 6131425518551040 (-136) := by decide +kernel
  have hr : Rounded32 false 7038531 (10 ^ 32) f32Lost := by
    rw [← h0]; exact roundF32_rounded _ _ (by decide)
  refine ⟨⟨by decide, by decide, by decide, .inl (by decide)⟩, by decide +kernel, hr, _, .fin false 6131425518551040 (-136), rfl, ?_, ?_, ?_⟩
  · simp only [de, Node.ofYaml, Node.yaml, hf, h1, h2]
  · decide
  · intro hv
    have := Rounded32.unique (by decide) hv hr (.inr ⟨by decide, by decide, by decide, by decide, .inl (by decide)⟩)
      (.inr ⟨by decide, by decide, by decide, by decide, .inl (by decide)⟩)
    revert this
    decide

/-- The text is a number of the value `7038531/10^32`. -/
example : FloatLit.ok ⟨[], b!"0", some b!"00000000000000000000000007038531", none⟩ ∧
    FloatLit.text ⟨[], b!"0", some b!"00000000000000000000000007038531", none⟩ = f32LostText ∧
    FloatLit.AbsValue ⟨[], b!"0", some b!"00000000000000000000000007038531", none⟩ 7038531 (10 ^ 32) :=
  ⟨⟨.inl rfl, ⟨by decide, by decide⟩, by simp⟩, by decide, by decide, by decide +kernel⟩

/-- `0.1`: not exact, nearest, survives. -/
example (hf : f.fmt32 (.fin false 7205759511166976 (-56)) = b!"0.1") :
    ∃ n, ser h f (.f32 (.fin false 7205759511166976 (-56))) = .ok n ∧
      de h f .f32 n = .ok (.f32 (.fin false 7205759511166976 (-56))) := by
  refine C69_survives_partial _ (.inr ⟨by decide, by decide, by decide, by decide, .inl (by decide)⟩)
    ⟨[], b!"0", some b!"1", none⟩ ⟨.inl rfl, ⟨by decide, by decide⟩, by simp⟩ 1 10 ⟨by decide, by decide⟩ hf ?_ ?_
  · have h0 : roundF32 false 1 10 = .fin false 7205759511166976 (-56) := by decide +kernel
    rw [← h0]; exact roundF32_rounded _ _ (by decide)
  · intro y hy
    have h1 : toF64 (FloatLit.text ⟨[], b!"0", some b!"1", none⟩) = some (.fin false 7205759403792794 (-56)) := by decide +kernel
    rw [h1] at hy
    cases hy
    intro hh
    have := half_low_bits (by decide) (by decide) hh
    revert this
    decide

/-- `0.5` is exact. -/
example (hf : f.fmt32 (.fin false 4503599627370496 (-53)) = b!"0.5") :
    ∃ n, ser h f (.f32 (.fin false 4503599627370496 (-53))) = .ok n ∧
      de h f .f32 n = .ok (.f32 (.fin false 4503599627370496 (-53))) := by
  refine C69_exact_survives false _ (2 ^ 23) _ (-24) ⟨by decide, by decide, by decide, .inl (by decide)⟩
    (.inr ⟨by decide, by decide, by decide, by decide, .inl (by decide)⟩) (by decide +kernel) ?_
  rw [hf]
  decide +kernel

example : ∃ v, de h f .f32 (.mk 0 [] (.int b!"16777217")) = .ok (.f32 v) ∧ Rounded32 false 16777217 1 v :=
  C69_int 0 [] b!"16777217" 16777217 (by decide +kernel)

/-! ## C53: numbers as `Stringify` -/

/-- **C53.** An integer outside `i32` is printed as the `f32` nearest to it. -/
theorem C53_large_int (g : F64 → Bytes) (pos : Nat) (tag s : Bytes) (i : Int) (hs : toI64 s = some i) (hi : ¬ IntTy.i32.holds i) :
    ∃ x v, Stringify.de h f (.mk pos tag (.int s)) = .ok x ∧ x.toString g = g v ∧ Rounded32 (decide (i < 0)) i.natAbs 1 v := by
  refine ⟨.float (f32OfInt i), f32OfInt i, ?_, rfl, roundF32_rounded _ _ Nat.one_ne_zero⟩
  simp [Stringify.de, bufferNode, deNode, deYaml, Node.yaml, hs, hi]

example (g : F64 → Bytes) : ∃ x v, Stringify.de h f (.mk 0 [] (.int b!"4294967297")) = .ok x ∧ x.toString g = g v ∧
    Rounded32 false 4294967297 1 v :=
  C53_large_int g 0 [] b!"4294967297" 4294967297 (by decide +kernel) (by decide)

/-- What a `Stringify` of Rust can be: the `Int` is an `i32`. -/
def Stringify.Valid : Stringify → Prop
  | .int i => -(2 ^ 31) ≤ i ∧ i < 2 ^ 31
  | _ => True

/-- **C53.** A `Stringify` comes back from `to_node` unchanged; a float exactly if it does so as an `f32` (C69). -/
theorem C53_round_trip (x : Stringify) (hx : Stringify.Valid x) :
    (∃ n, Stringify.ser h f x = .ok n ∧ Stringify.de h f n = .ok x) ↔ ∀ v, x = .float v → F32Back f v := by
  cases x with
  | bool v =>
    refine ⟨fun _ v h => (nomatch h), fun _ => ⟨_, rfl, ?_⟩⟩
    simp [Stringify.de, bufferNode, deNode, deYaml, Node.yaml, Node.ofYaml]
  | int i =>
    refine ⟨fun _ v h => (nomatch h), fun _ => ⟨.ofYaml (.int (intDec i)), ?_, ?_⟩⟩
    · rfl
    · have hx' : IntTy.i32.holds i := hx
      have hi : inI64 i = true := by
        have hx : -(2 ^ 31) ≤ i ∧ i < 2 ^ 31 := hx
        exact inI64_iff.2 ⟨by omega, by omega⟩
      simp [Stringify.de, bufferNode, deNode, deYaml, Node.yaml, Node.ofYaml, toI64_intDec, hi, hx']
  | float v =>
    refine ⟨?_, fun hv => ⟨_, rfl, ?_⟩⟩
    · rintro ⟨n, h1, h2⟩ w ⟨⟩
      have h1 : n = .ofYaml (.float (f.fmt32 v)) := by
        simp only [Stringify.ser, ser, SRes.ok.injEq] at h1; exact h1.symm
      subst h1
      unfold F32Back
      cases ht : toF64 (f.fmt32 v) with
      | none => simp [Stringify.de, bufferNode, deNode, deYaml, Node.yaml, Node.ofYaml, ht] at h2
      | some y =>
        simp [Stringify.de, bufferNode, deNode, deYaml, Node.yaml, Node.ofYaml, ht] at h2
        simp [h2]
    · have hb := hv v rfl
      unfold F32Back at hb
      cases ht : toF64 (f.fmt32 v) with
      | none => simp [ht] at hb
      | some y =>
        simp [ht] at hb
        simp [Stringify.de, bufferNode, deNode, deYaml, Node.yaml, Node.ofYaml, ht, hb]
  | str s =>
    refine ⟨fun _ v h => (nomatch h), fun _ => ⟨_, rfl, ?_⟩⟩
    simp [Stringify.de, bufferNode, deNode, deYaml, Node.yaml, Node.ofYaml, strNode]

end YamlPeg.Props
