import Verif.Props.Floats
/-!
# C35: the texts that `as_int` reads

`as_int` takes every `0x` (or else every `0o`) out of the text and reads what is left as a signed
hexadecimal (octal) number; a text without them is a decimal number.
-/

namespace YamlPeg.Props
open YamlPeg

/-- `m` occurs in `s`. -/
def Inside (m s : Bytes) : Prop := ∃ a c, s = a ++ m ++ c

/-- An optional sign and at least one digit, with its value in `i64`. -/
def IntNumeral (radix : Nat) (s : Bytes) (v : Int) : Prop :=
  ∃ sg d, (sg = [] ∨ sg = b!"+" ∨ sg = b!"-") ∧ s = sg ++ d ∧ d ≠ [] ∧ (∀ c ∈ d, isRadixDigit radix c = true) ∧
    v = (if sg = b!"-" then -(numeralValue radix d : Int) else numeralValue radix d) ∧ -(2 ^ 63) ≤ v ∧ v < 2 ^ 63

/-- The text is `parts` with the mark `m` between them. -/
def Marked (m : Bytes) (parts : List Bytes) (s : Bytes) : Prop :=
  s = joinBytes m parts ∧ ∀ t ∈ parts, ¬Inside m t

/-- The texts of integers. -/
inductive IntText : Bytes → Int → Prop
  /-- digits around at least one `0x` -/
  | hex {s t : Bytes} {v u parts} : Marked b!"0x" (t :: u :: parts) s → IntNumeral 16 (t :: u :: parts).flatten v → IntText s v
  /-- digits around at least one `0o` -/
  | oct {s t : Bytes} {v u parts} : ¬Inside b!"0x" s → Marked b!"0o" (t :: u :: parts) s →
      IntNumeral 8 (t :: u :: parts).flatten v → IntText s v
  | dec {s v} : ¬Inside b!"0x" s → ¬Inside b!"0o" s → IntNumeral 10 s v → IntText s v

theorem containsSub_iff {m : Bytes} (hm : m ≠ []) : ∀ s : Bytes, containsSub s m = true ↔ Inside m s
  | [] => by
    rw [containsSub]
    constructor
    · intro h; simp at h; exact absurd h hm
    · rintro ⟨a, c, h⟩; simp at h; exact absurd h.2.1 hm
  | x :: s => by
    rw [containsSub, Bool.or_eq_true, containsSub_iff hm s, List.isPrefixOf_iff_prefix]
    constructor
    · rintro (⟨t, h⟩ | ⟨a, c, h⟩)
      · exact ⟨[], t, by simpa using h.symm⟩
      · exact ⟨x :: a, c, by simp [h]⟩
    · rintro ⟨a, c, h⟩
      cases a with
      | nil => exact .inl ⟨c, by simpa using h.symm⟩
      | cons y a => simp at h; exact .inr ⟨a, c, by simp [h.2]⟩

theorem digitsVal_iff {radix : Nat} : ∀ {d : Bytes} {acc n : Nat},
    digitsVal radix d acc = some n ↔ (∀ c ∈ d, isRadixDigit radix c = true) ∧ n = d.foldl (fun a c => a * radix + digitValue c) acc
  | [], acc, n => by
    simp only [digitsVal, Option.some.injEq, List.foldl_nil]
    exact ⟨fun h => ⟨by simp, h.symm⟩, fun h => h.2.symm⟩
  | c :: d, acc, n => by
    have hc : ∀ v, digitVal c = some v → (isRadixDigit radix c = true ↔ v < radix) := by
      intro v hv
      have h1 := byteAll (P := fun c => !(digitVal c).isSome ||
        (isDigit c || (0x41 ≤ c && c ≤ 0x46) || (0x61 ≤ c && c ≤ 0x66))) (by decide +kernel) c
      simp only [hv, Option.isSome_some, Bool.not_true, Bool.false_or] at h1
      simp [isRadixDigit, h1, ← digitVal_value hv]
    rw [digitsVal]
    cases hv : digitVal c with
    | none =>
      constructor
      · intro h; simp at h
      · rintro ⟨h, _⟩
        obtain ⟨v, h', _⟩ := isRadixDigit_val (h c (by simp))
        rw [hv] at h'; cases h'
    | some v =>
      simp only
      by_cases hlt : v < radix
      · rw [if_pos hlt, digitsVal_iff]
        simp [(hc v hv).2 hlt, ← digitVal_value hv]
      · rw [if_neg hlt]
        constructor
        · intro h; simp at h
        · rintro ⟨h, _⟩
          exact absurd ((hc v hv).1 (h c (by simp))) hlt
where
  byteAll {P : UInt8 → Bool} (h : (List.range 256).all (fun n => P (UInt8.ofNat n)) = true) (c : UInt8) :
      P c = true := by
    rw [List.all_eq_true] at h
    have := h c.toNat (List.mem_range.2 c.toNat_lt)
    simpa using this

theorem inI64_iff (v : Int) : inI64 v = true ↔ -(2 ^ 63) ≤ v ∧ v < 2 ^ 63 := by
  simp only [inI64, Bool.and_eq_true, decide_eq_true_eq]
  omega

theorem i64FromStrRadix_iff {radix : Nat} {s : Bytes} {v : Int} :
    i64FromStrRadix radix s = some v ↔ IntNumeral radix s v := by
  have key : ∀ (neg : Bool) (d : Bytes), (if d.isEmpty then none
      else match digitsVal radix d 0 with
        | none => none
        | some n => if inI64 (if neg then -(n : Int) else n) then some (if neg then -(n : Int) else n) else none) = some v ↔
      d ≠ [] ∧ (∀ c ∈ d, isRadixDigit radix c = true) ∧
        v = (if neg then -(numeralValue radix d : Int) else numeralValue radix d) ∧ -(2 ^ 63) ≤ v ∧ v < 2 ^ 63 := by
    intro neg d
    cases d with
    | nil => simp
    | cons c d =>
      simp only [List.isEmpty_cons, Bool.false_eq_true, if_false]
      cases hv : digitsVal radix (c :: d) 0 with
      | none =>
        constructor
        · intro h; simp at h
        · rintro ⟨_, h, _⟩
          have := (digitsVal_iff (radix := radix) (d := c :: d) (acc := 0)).2 ⟨h, rfl⟩
          rw [hv] at this; cases this
      | some n =>
        obtain ⟨h1, h2⟩ := digitsVal_iff.1 hv
        have h3 : n = numeralValue radix (c :: d) := h2
        simp only [h3]
        rw [← inI64_iff]
        constructor
        · intro h
          by_cases hi : inI64 (if neg = true then -(numeralValue radix (c :: d) : Int) else numeralValue radix (c :: d)) = true
          · rw [if_pos hi] at h
            injection h with h
            exact ⟨by simp, h1, h.symm, h ▸ hi⟩
          · rw [if_neg hi] at h; cases h
        · rintro ⟨_, _, rfl, hi⟩
          rw [if_pos hi]
  have hmain : i64FromStrRadix radix s = some v ↔ (splitSign s).2 ≠ [] ∧ (∀ c ∈ (splitSign s).2, isRadixDigit radix c = true) ∧
      v = (if (splitSign s).1 then -(numeralValue radix (splitSign s).2 : Int) else numeralValue radix (splitSign s).2) ∧
      -(2 ^ 63) ≤ v ∧ v < 2 ^ 63 := key (splitSign s).1 (splitSign s).2
  rw [hmain]
  constructor
  · rintro ⟨h1, h2, h3, h4⟩
    have hsp : ∃ sg t, (sg = [] ∨ sg = b!"+" ∨ sg = b!"-") ∧ s = sg ++ t ∧ splitSign s = (sg == b!"-", t) := by
      unfold splitSign
      split
      · exact ⟨b!"-", _, by simp, rfl, rfl⟩
      · exact ⟨b!"+", _, by simp, rfl, rfl⟩
      · exact ⟨[], _, by simp, rfl, rfl⟩
    obtain ⟨sg, t, hsg, hs, he⟩ := hsp
    rw [he] at h1 h2 h3
    exact ⟨sg, t, hsg, hs, h1, h2, by simpa using h3, h4⟩
  · rintro ⟨sg, d, hsg, rfl, h1, h2, h3, h4⟩
    have hs : splitSign (sg ++ d) = (sg == b!"-", d) := by
      rcases hsg with rfl | rfl | rfl
      · cases d with
        | nil => exact absurd rfl h1
        | cons c r =>
          have := h2 c (by simp)
          show splitSign (c :: r) = _
          unfold splitSign
          split
          · rename_i heq; simp at heq; obtain ⟨rfl, _⟩ := heq; simp [isRadixDigit, isDigit] at this
          · rename_i heq; simp at heq; obtain ⟨rfl, _⟩ := heq; simp [isRadixDigit, isDigit] at this
          · rfl
      · rfl
      · rfl
    rw [hs]
    refine ⟨h1, h2, ?_, h4⟩
    rw [h3]; simp

theorem replaceAux_nil (n : Nat) (m : Bytes) : replaceAux n m [] = [] := by cases n <;> rfl

/-- Taking a mark out of a text that is split at it. -/
theorem replaceAux_join {x : UInt8} (hx : x ≠ 0x30) : ∀ (n : Nat) (s : Bytes) (parts : List Bytes), s.length ≤ n → parts ≠ [] →
    Marked [0x30, x] parts s → replaceAux n [0x30, x] s = parts.flatten
  | 0, s, parts, hn, hp, hm => by
    obtain ⟨rfl, _⟩ := hm
    have : joinBytes [0x30, x] parts = [] := List.length_eq_zero_iff.1 (by omega)
    match parts, hp, this with
    | [t], _, h => simp [joinBytes] at h; simp [h, joinBytes, replaceAux]
    | t :: u :: r, _, h => simp [joinBytes] at h
  | n + 1, s, parts, hn, hp, hm => by
    obtain ⟨rfl, hin⟩ := hm
    match parts, hp with
    | [[]], _ => simp [joinBytes, replaceAux_nil]
    | [c :: t], _ =>
      have hno := hin (c :: t) (by simp)
      rw [joinBytes, replaceAux, if_neg]
      · have := replaceAux_join hx n t [t] (by simp [joinBytes] at hn; omega) (by simp)
          ⟨rfl, by simp only [List.mem_singleton, forall_eq]; rintro ⟨a, d, h⟩; exact hno ⟨c :: a, d, by simp [h]⟩⟩
        rw [this]; simp
      · intro h
        obtain ⟨r, h⟩ := List.isPrefixOf_iff_prefix.1 h
        exact hno ⟨[], r, by simpa using h.symm⟩
    | [] :: u :: r, _ =>
      have hl : joinBytes [0x30, x] ([] :: u :: r) = 0x30 :: x :: joinBytes [0x30, x] (u :: r) := by simp [joinBytes]
      rw [hl] at hn ⊢
      rw [replaceAux, if_pos (by simp [List.isPrefixOf])]
      simp only [List.length_cons, List.length_nil, List.drop_succ_cons, List.drop_zero]
      rw [replaceAux_join hx n _ (u :: r) (by simp at hn ⊢; omega) (by simp) ⟨rfl, fun t ht => hin t (by simp [ht])⟩]
      simp
    | (c :: t) :: u :: r, _ =>
      have hno := hin (c :: t) (by simp)
      have hl : joinBytes [0x30, x] ((c :: t) :: u :: r) = c :: joinBytes [0x30, x] (t :: u :: r) := by simp [joinBytes]
      rw [hl] at hn ⊢
      rw [replaceAux, if_neg]
      · rw [replaceAux_join hx n _ (t :: u :: r) (by simp at hn ⊢; omega) (by simp) ⟨rfl, ?_⟩]
        · simp
        · intro y hy
          rcases List.mem_cons.1 hy with rfl | hy
          · rintro ⟨a, d, h⟩; exact hno ⟨c :: a, d, by simp [h]⟩
          · exact hin y (by simp [hy])
      · intro h
        obtain ⟨q, h⟩ := List.isPrefixOf_iff_prefix.1 h
        simp only [List.cons_append, List.nil_append, List.cons.injEq] at h
        obtain ⟨rfl, h⟩ := h
        cases t with
        | nil => simp [joinBytes] at h; exact hx h
        | cons y t =>
          simp [joinBytes] at h
          exact hno ⟨[], t, by simp [h]⟩

/-- Every text can be split at a mark. -/
theorem marked_exists {x : UInt8} : ∀ (n : Nat) (s : Bytes), s.length ≤ n → ∃ parts, parts ≠ [] ∧ Marked [0x30, x] parts s
  | 0, s, hn => by
    obtain rfl := List.length_eq_zero_iff.1 (Nat.le_zero.1 hn)
    exact ⟨[[]], by simp, by simp [joinBytes], by simp [Inside]⟩
  | n + 1, s, hn => by
    by_cases h : Inside [0x30, x] s
    · -- the first place
      obtain ⟨a, c, hs, hfirst⟩ : ∃ a c, s = a ++ [0x30, x] ++ c ∧ ¬Inside [0x30, x] a := by
        clear hn
        induction s with
        | nil => obtain ⟨a, c, h⟩ := h; simp at h
        | cons y s ih =>
          by_cases hy : ∃ r, y :: s = [0x30, x] ++ r
          · obtain ⟨r, hr⟩ := hy
            exact ⟨[], r, by simpa using hr, by simp [Inside]⟩
          · have hin : Inside [0x30, x] s := by
              obtain ⟨a, c, h⟩ := h
              cases a with
              | nil => exact absurd ⟨c, by simpa using h⟩ hy
              | cons z a => simp at h; exact ⟨a, c, by simp [h.2]⟩
            obtain ⟨a, c, hs, hf⟩ := ih hin
            refine ⟨y :: a, c, by simp [hs], ?_⟩
            rintro ⟨a', c', ha⟩
            cases a' with
            | nil =>
              simp at ha
              obtain ⟨rfl, ha⟩ := ha
              exact hy ⟨c' ++ ([0x30, x] ++ c), by rw [hs, ha]; simp⟩
            | cons z a' => simp at ha; exact hf ⟨a', c', by simp [ha.2]⟩
      obtain ⟨parts, hp, he, hin⟩ := marked_exists (x := x) n c (by rw [hs] at hn; simp at hn; omega)
      refine ⟨a :: parts, by simp, ?_, ?_⟩
      · rw [hs, he]
        cases parts with
        | nil => exact absurd rfl hp
        | cons t r => simp [joinBytes]
      · intro t ht
        rcases List.mem_cons.1 ht with rfl | ht
        · exact hfirst
        · exact hin t ht
    · exact ⟨[s], by simp, rfl, by simpa using h⟩

theorem marked_two {m : Bytes} {t u : Bytes} {r : List Bytes} {s : Bytes} (h : Marked m (t :: u :: r) s) : Inside m s :=
  ⟨t, joinBytes m (u :: r), by rw [h.1]; simp [joinBytes]⟩

theorem marked_split {x : UInt8} (hx : x ≠ 0x30) {s : Bytes} (h : Inside [0x30, x] s) :
    ∃ t u parts, Marked [0x30, x] (t :: u :: parts) s ∧ removeAll s [0x30, x] = (t :: u :: parts).flatten := by
  obtain ⟨parts, hp, hm⟩ := marked_exists (x := x) s.length s (Nat.le_refl _)
  match parts, hp with
  | [t], _ =>
    obtain ⟨he, hno⟩ := hm
    rw [joinBytes] at he
    exact absurd h (he ▸ hno t (by simp))
  | t :: u :: r, _ => exact ⟨t, u, r, hm, replaceAux_join hx _ _ _ (Nat.le_refl _) (by simp) hm⟩

theorem toI64_iff (s : Bytes) (v : Int) : toI64 s = some v ↔ IntText s v := by
  have cx := containsSub_iff (m := b!"0x") (by simp) s
  have co := containsSub_iff (m := b!"0o") (by simp) s
  rw [toI64]
  by_cases hx : Inside b!"0x" s
  · rw [if_pos (cx.2 hx), i64FromStrRadix_iff]
    obtain ⟨t, u, parts, hm, hr⟩ := marked_split (x := 0x78) (by decide) hx
    constructor
    · intro h; exact .hex hm (by rw [← hr]; exact h)
    · rintro (⟨hm', hv⟩ | ⟨h, _⟩ | ⟨h, _⟩)
      · rw [← replaceAux_join (x := 0x78) (by decide) s.length s _ (Nat.le_refl _) (by simp) hm'] at hv
        exact hv
      · exact absurd hx h
      · exact absurd hx h
  · rw [if_neg (fun h => hx (cx.1 h))]
    by_cases ho : Inside b!"0o" s
    · rw [if_pos (co.2 ho), i64FromStrRadix_iff]
      obtain ⟨t, u, parts, hm, hr⟩ := marked_split (x := 0x6F) (by decide) ho
      constructor
      · intro h; exact .oct hx hm (by rw [← hr]; exact h)
      · rintro (⟨hm', _⟩ | ⟨_, hm', hv⟩ | ⟨_, h, _⟩)
        · exact absurd (marked_two hm') hx
        · rw [← replaceAux_join (x := 0x6F) (by decide) s.length s _ (Nat.le_refl _) (by simp) hm'] at hv
          exact hv
        · exact absurd ho h
    · rw [if_neg (fun h => ho (co.1 h)), i64FromStrRadix_iff]
      constructor
      · intro h; exact .dec hx ho h
      · rintro (⟨hm', _⟩ | ⟨_, hm', _⟩ | ⟨_, _, h⟩)
        · exact absurd (marked_two hm') hx
        · exact absurd (marked_two hm') ho
        · exact h

/-- **C35.** `as_int` reads exactly the texts of `IntText`, as their value; all others are `Err(pos)`. -/
theorem C35_int_texts (p : Nat) (tag s : Bytes) (v : Int) :
    ((Node.mk p tag (.int s)).asInt = .ok v ↔ IntText s v) ∧
    ((Node.mk p tag (.int s)).asInt = .error p ↔ ¬∃ v, IntText s v) := by
  simp only [Node.asInt, Node.yaml, Node.pos, ← toI64_iff]
  cases toI64 s with
  | none => simp
  | some w => simp

/-- **C35.** A text is read as at most one number. -/
theorem C35_int_one_value {s : Bytes} {v w : Int} (hv : IntText s v) (hw : IntText s w) : v = w := by
  rw [← toI64_iff] at hv hw
  rw [hv] at hw
  exact Option.some.inj hw

/-- **C35.** The mark need not stand in front: `10x5` is hexadecimal 15. -/
theorem C35_int_mark_inside : IntText b!"10x5" 21 :=
  .hex (t := b!"1") (u := b!"5") (parts := []) ⟨rfl, by
    simp only [List.mem_cons, List.not_mem_nil, or_false]
    rintro t (rfl | rfl) <;> (rw [← containsSub_iff (by simp)]; decide)⟩
    ⟨[], b!"15", by simp, rfl, by simp, by decide, by decide, by decide, by decide⟩

example : IntText b!"-42" (-42) := .dec (by rw [← containsSub_iff (by simp)]; decide) (by rw [← containsSub_iff (by simp)]; decide)
  ⟨b!"-", b!"42", by simp, rfl, by simp, by decide, by decide, by decide, by decide⟩

end YamlPeg.Props
