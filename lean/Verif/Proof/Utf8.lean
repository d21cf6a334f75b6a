import Verif.Model.Text
/-! # UTF-8: valid text, `lossy`, cutting at ASCII bytes -/

namespace YamlPeg

theorem utf8Step_le (c : UInt8) (rest : Bytes) : (utf8Step c rest).2 ≤ rest.length := by
  unfold utf8Step
  repeat' split
  all_goals simp

/-- Valid UTF-8, as an induction principle. -/
inductive Utf8 : Bytes → Prop
  | nil : Utf8 []
  | char (c : UInt8) (rest : Bytes) (k : Nat) : utf8Step c rest = (true, k) → Utf8 (rest.drop k) →
      Utf8 (c :: rest)

theorem validAux_iff (n : Nat) (s : Bytes) (hn : s.length ≤ n) : validAux n s = true ↔ Utf8 s := by
  induction n generalizing s with
  | zero =>
    have : s = [] := List.eq_nil_of_length_eq_zero (by omega)
    subst this
    simp [validAux, Utf8.nil]
  | succ n ih =>
    cases s with
    | nil => simp [validAux, Utf8.nil]
    | cons c rest =>
      simp only [validAux]
      rcases h : utf8Step c rest with ⟨b, k⟩
      cases b with
      | true =>
        have := ih (rest.drop k) (by simp at hn ⊢; omega)
        simp only [this]
        constructor
        · exact fun hu => .char c rest k h hu
        · rintro (_ | ⟨_, _, k', h', hu⟩)
          rw [h] at h'; cases h'; exact hu
      | false =>
        simp only [Bool.false_eq_true, false_iff]
        rintro (_ | ⟨_, _, k', h', hu⟩)
        rw [h] at h'; cases h'

theorem validUtf8_iff (s : Bytes) : validUtf8 s = true ↔ Utf8 s := validAux_iff _ _ (Nat.le_refl _)

theorem lossyAux_utf8 {s : Bytes} (h : Utf8 s) (n : Nat) (hn : s.length ≤ n) : lossyAux n s = s := by
  induction h generalizing n with
  | nil => cases n <;> rfl
  | char c rest k hk _ ih =>
    cases n with
    | zero => simp at hn
    | succ n =>
      simp only [lossyAux, hk]
      rw [ih n (by simp at hn ⊢; omega)]
      simp

/-- `from_utf8_lossy` does not change valid text. -/
theorem lossy_utf8 {s : Bytes} (h : Utf8 s) : lossy s = s := lossyAux_utf8 h _ (Nat.le_refl _)

theorem Utf8.cons_ascii {c : UInt8} (hc : c < 0x80) {s : Bytes} : Utf8 (c :: s) ↔ Utf8 s := by
  have h : utf8Step c s = (true, 0) := by simp [utf8Step, hc]
  constructor
  · rintro (_ | ⟨_, _, k', h', hu⟩)
    rw [h] at h'; cases h'; simpa using hu
  · intro hu; exact .char c s 0 h (by simpa using hu)

theorem not_cont_ascii {c : UInt8} (hc : c < 0x80) : isCont c = false := by
  simp only [isCont, UInt8.le_iff_toNat_le, UInt8.lt_iff_toNat_lt, UInt8.toNat_ofNat,
    Bool.and_eq_false_iff, decide_eq_false_iff_not] at *
  left; omega

theorem not_ok3_ascii {b c : UInt8} (hc : c < 0x80) : ok3 b c = false := by
  have h1 : decide (0xA0 ≤ c) = false := by
    simp only [UInt8.le_iff_toNat_le, UInt8.lt_iff_toNat_lt, UInt8.toNat_ofNat,
      decide_eq_false_iff_not] at *; omega
  have h2 : decide (0x80 ≤ c) = false := by
    simp only [UInt8.le_iff_toNat_le, UInt8.lt_iff_toNat_lt, UInt8.toNat_ofNat,
      decide_eq_false_iff_not] at *; omega
  simp [ok3, h1, h2, not_cont_ascii hc]

theorem not_ok4_ascii {b c : UInt8} (hc : c < 0x80) : ok4 b c = false := by
  have h1 : decide (0x90 ≤ c) = false := by
    simp only [UInt8.le_iff_toNat_le, UInt8.lt_iff_toNat_lt, UInt8.toNat_ofNat,
      decide_eq_false_iff_not] at *; omega
  have h2 : decide (0x80 ≤ c) = false := by
    simp only [UInt8.le_iff_toNat_le, UInt8.lt_iff_toNat_lt, UInt8.toNat_ofNat,
      decide_eq_false_iff_not] at *; omega
  simp [ok4, h1, h2, not_cont_ascii hc]

/-- The shapes of a valid character: how its first byte and the bytes after it
look. -/
def CharShape (x : UInt8) (rest : Bytes) (k : Nat) : Prop :=
  (x < 0x80 ∧ k = 0) ∨
  (¬ x < 0x80 ∧ (0xC2 ≤ x && x ≤ 0xDF) = true ∧ k = 1 ∧ ∃ b1 r, rest = b1 :: r ∧ isCont b1 = true) ∨
  (¬ x < 0x80 ∧ (0xC2 ≤ x && x ≤ 0xDF) = false ∧ (0xE0 ≤ x && x ≤ 0xEF) = true ∧ k = 2 ∧
    ∃ b1 b2 r, rest = b1 :: b2 :: r ∧ ok3 x b1 = true ∧ isCont b2 = true) ∨
  (¬ x < 0x80 ∧ (0xC2 ≤ x && x ≤ 0xDF) = false ∧ (0xE0 ≤ x && x ≤ 0xEF) = false ∧
    (0xF0 ≤ x && x ≤ 0xF4) = true ∧ k = 3 ∧
    ∃ b1 b2 b3 r, rest = b1 :: b2 :: b3 :: r ∧ ok4 x b1 = true ∧ isCont b2 = true ∧ isCont b3 = true)

theorem utf8Step_true_iff (x : UInt8) (rest : Bytes) (k : Nat) :
    utf8Step x rest = (true, k) ↔ CharShape x rest k := by
  constructor
  · intro h
    unfold utf8Step at h
    unfold CharShape
    by_cases h0 : x < 0x80
    · rw [if_pos h0] at h
      left; simp at h; exact ⟨h0, h.symm⟩
    · rw [if_neg h0] at h
      right
      cases h1 : (0xC2 ≤ x && x ≤ 0xDF) with
      | true =>
        left
        rw [h1, if_pos rfl] at h
        match rest with
        | [] => simp at h
        | b1 :: r =>
          cases hb : isCont b1 <;> simp [hb] at h
          exact ⟨h0, rfl, h.symm, b1, r, rfl, hb⟩
      | false =>
        right
        rw [h1, if_neg (by simp)] at h
        cases h2 : (0xE0 ≤ x && x ≤ 0xEF) with
        | true =>
          left
          rw [h2, if_pos rfl] at h
          match rest with
          | [] => simp at h
          | [b1] => cases hb : ok3 x b1 <;> simp [hb] at h
          | b1 :: b2 :: r =>
            cases hb : ok3 x b1 <;> simp [hb] at h
            cases hb2 : isCont b2 <;> simp [hb2] at h
            exact ⟨h0, rfl, rfl, h.symm, b1, b2, r, rfl, hb, hb2⟩
        | false =>
          right
          rw [h2, if_neg (by simp)] at h
          cases h3 : (0xF0 ≤ x && x ≤ 0xF4) with
          | true =>
            rw [h3, if_pos rfl] at h
            match rest with
            | [] => simp at h
            | [b1] => cases hb : ok4 x b1 <;> simp [hb] at h
            | [b1, b2] =>
              cases hb : ok4 x b1 <;> simp [hb] at h
              cases hb2 : isCont b2 <;> simp [hb2] at h
            | b1 :: b2 :: b3 :: r =>
              cases hb : ok4 x b1 <;> simp [hb] at h
              cases hb2 : isCont b2 <;> simp [hb2] at h
              cases hb3 : isCont b3 <;> simp [hb3] at h
              exact ⟨h0, rfl, rfl, rfl, h.symm, b1, b2, b3, r, rfl, hb, hb2, hb3⟩
          | false => rw [h3, if_neg (by simp)] at h; simp at h
  · rintro (⟨h0, rfl⟩ | ⟨h0, h1, rfl, b1, r, rfl, hb⟩ | ⟨h0, h1, h2, rfl, b1, b2, r, rfl, hb, hb2⟩ |
      ⟨h0, h1, h2, h3, rfl, b1, b2, b3, r, rfl, hb, hb2, hb3⟩)
    · unfold utf8Step; rw [if_pos h0]
    · unfold utf8Step; rw [if_neg h0, h1, if_pos rfl]; simp [hb]
    · unfold utf8Step; rw [if_neg h0, h1, if_neg (by simp), h2, if_pos rfl]; simp [hb, hb2]
    · unfold utf8Step
      rw [if_neg h0, h1, if_neg (by simp), h2, if_neg (by simp), h3, if_pos rfl]; simp [hb, hb2, hb3]

theorem utf8Step_append (x : UInt8) (rest b : Bytes) {k : Nat} (h : utf8Step x rest = (true, k)) :
    utf8Step x (rest ++ b) = (true, k) := by
  rw [utf8Step_true_iff] at *
  rcases h with h | ⟨h0, h1, rfl, b1, r, rfl, hb⟩ | ⟨h0, h1, h2, rfl, b1, b2, r, rfl, hb⟩ |
      ⟨h0, h1, h2, h3, rfl, b1, b2, b3, r, rfl, hb⟩
  · exact .inl h
  · exact .inr (.inl ⟨h0, h1, rfl, b1, r ++ b, by simp, hb⟩)
  · exact .inr (.inr (.inl ⟨h0, h1, h2, rfl, b1, b2, r ++ b, by simp, hb⟩))
  · exact .inr (.inr (.inr ⟨h0, h1, h2, h3, rfl, b1, b2, b3, r ++ b, by simp, hb⟩))

/-- A character in front of an ASCII byte does not reach into it. -/
theorem utf8Step_cut {x c : UInt8} (hc : c < 0x80) (a b : Bytes) {k : Nat}
    (h : utf8Step x (a ++ c :: b) = (true, k)) : k ≤ a.length ∧ utf8Step x a = (true, k) := by
  have e1 := not_cont_ascii hc
  have e3 := fun b => not_ok3_ascii (b := b) hc
  have e4 := fun b => not_ok4_ascii (b := b) hc
  rw [utf8Step_true_iff] at *
  rcases h with h | ⟨h0, h1, rfl, b1, r, hr, hb⟩ | ⟨h0, h1, h2, rfl, b1, b2, r, hr, hb, hb2⟩ |
      ⟨h0, h1, h2, h3, rfl, b1, b2, b3, r, hr, hb, hb2, hb3⟩
  · exact ⟨by omega, .inl h⟩
  · match a with
    | [] => simp at hr; rw [← hr.1, e1] at hb; cases hb
    | a1 :: a' =>
      simp at hr; obtain ⟨rfl, hr⟩ := hr
      exact ⟨by simp, .inr (.inl ⟨h0, h1, rfl, _, a', rfl, hb⟩)⟩
  · match a with
    | [] => simp at hr; rw [← hr.1, e3] at hb; cases hb
    | [a1] => simp at hr; rw [← hr.2.1, e1] at hb2; cases hb2
    | a1 :: a2 :: a' =>
      simp at hr; obtain ⟨rfl, rfl, hr⟩ := hr
      exact ⟨by simp, .inr (.inr (.inl ⟨h0, h1, h2, rfl, _, _, a', rfl, hb, hb2⟩))⟩
  · match a with
    | [] => simp at hr; rw [← hr.1, e4] at hb; cases hb
    | [a1] => simp at hr; rw [← hr.2.1, e1] at hb2; cases hb2
    | [a1, a2] => simp at hr; rw [← hr.2.2.1, e1] at hb3; cases hb3
    | a1 :: a2 :: a3 :: a' =>
      simp at hr; obtain ⟨rfl, rfl, rfl, hr⟩ := hr
      exact ⟨by simp, .inr (.inr (.inr ⟨h0, h1, h2, h3, rfl, _, _, _, a', rfl, hb, hb2, hb3⟩))⟩

/-- Cutting valid text at an ASCII byte gives valid text on both sides. -/
theorem Utf8.cut {c : UInt8} (hc : c < 0x80) {a b : Bytes} :
    Utf8 (a ++ c :: b) ↔ Utf8 a ∧ Utf8 b := by
  constructor
  · intro h
    generalize hs : a ++ c :: b = s at h
    induction h generalizing a with
    | nil => simp at hs
    | char x rest k hk hu ih =>
      cases a with
      | nil =>
        simp only [List.nil_append, List.cons.injEq] at hs
        obtain ⟨rfl, rfl⟩ := hs
        exact ⟨.nil, (Utf8.cons_ascii hc).1 (.char _ _ _ hk hu)⟩
      | cons y a' =>
        simp only [List.cons_append, List.cons.injEq] at hs
        obtain ⟨rfl, rfl⟩ := hs
        obtain ⟨h1, h2⟩ := utf8Step_cut hc a' b hk
        have := ih (a := a'.drop k) (by rw [List.drop_append_of_le_length h1])
        exact ⟨.char _ _ _ h2 this.1, this.2⟩
  · rintro ⟨ha, hb⟩
    induction ha with
    | nil => exact (Utf8.cons_ascii hc).2 hb
    | char x rest k hk hu ih =>
      have hle : k ≤ rest.length := by have := utf8Step_le x rest; rw [hk] at this; exact this
      rw [List.cons_append]
      refine .char _ _ k (utf8Step_append _ _ _ hk) ?_
      rwa [List.drop_append_of_le_length hle]

theorem Utf8.append {a b : Bytes} (ha : Utf8 a) (hb : Utf8 b) : Utf8 (a ++ b) := by
  induction ha with
  | nil => exact hb
  | char x rest k hk hu ih =>
    have hle : k ≤ rest.length := by have := utf8Step_le x rest; rw [hk] at this; exact this
    rw [List.cons_append]
    refine .char _ _ k (utf8Step_append _ _ _ hk) ?_
    rwa [List.drop_append_of_le_length hle]

theorem Utf8.ascii {s : Bytes} (h : ∀ x ∈ s, x < 0x80) : Utf8 s := by
  induction s with
  | nil => exact .nil
  | cons c s ih =>
    exact (Utf8.cons_ascii (h c (by simp))).2 (ih fun x hx => h x (by simp [hx]))

/-- The longest run of bytes outside an ASCII set, cut from valid text, is
valid; so is what is left. -/
theorem Utf8.span {f : UInt8 → Bool} (hf : ∀ x, f x = false → x < 0x80) {s : Bytes} (h : Utf8 s) :
    Utf8 (s.takeWhile f) ∧ Utf8 (s.dropWhile f) := by
  have e := List.takeWhile_append_dropWhile (p := f) (l := s)
  rcases hd : s.dropWhile f with _ | ⟨c, r⟩
  · rw [hd] at e; simp at e; rw [e]; exact ⟨h, .nil⟩
  · have hc : f c = false := by
      have := List.head?_dropWhile_not (p := f) s
      rw [hd] at this; simpa using this
    rw [hd] at e
    rw [← e] at h
    have := (Utf8.cut (hf c hc)).1 h
    exact ⟨this.1, (Utf8.cons_ascii (hf c hc)).2 this.2⟩

end YamlPeg
