import Verif.Proof.Utf8
import Verif.Model.Text
import Verif.Model.Grammar
/-!
# Text over a set of characters

`Over P s`: the byte string `s` is valid UTF-8 and all its characters (each
given by its bytes) satisfy `P`.  The text functions the parser uses stay
inside any set that contains ASCII.
-/

namespace YamlPeg

inductive Over (P : Bytes → Prop) : Bytes → Prop
  | nil : Over P []
  | char (c : UInt8) (rest : Bytes) (k : Nat) : utf8Step c rest = (true, k) → P (c :: rest.take k) →
      Over P (rest.drop k) → Over P (c :: rest)

theorem Over.utf8 {P : Bytes → Prop} {s : Bytes} (h : Over P s) : Utf8 s := by
  induction h with
  | nil => exact .nil
  | char c rest k hk _ _ ih => exact .char c rest k hk ih

/-- The specification form: valid, and every character is in the set. -/
theorem over_iff_chars {P : Bytes → Prop} {s : Bytes} :
    Over P s ↔ validUtf8 s = true ∧ ∀ ch ∈ chars s, P ch := by
  rw [validUtf8_iff]
  have key : ∀ n (s : Bytes), s.length ≤ n → (Over P s ↔ Utf8 s ∧ ∀ ch ∈ charsAux n s, P ch) := by
    intro n
    induction n with
    | zero =>
      intro s hs
      have : s = [] := List.eq_nil_of_length_eq_zero (by omega)
      subst this
      exact ⟨fun _ => ⟨.nil, by simp [charsAux]⟩, fun _ => .nil⟩
    | succ n ih =>
      intro s hs
      cases s with
      | nil => exact ⟨fun _ => ⟨.nil, by simp [charsAux]⟩, fun _ => .nil⟩
      | cons c rest =>
        simp only [charsAux, List.mem_cons, forall_eq_or_imp]
        constructor
        · rintro (_ | ⟨_, _, k, hk, hp, ho⟩)
          have := (ih (rest.drop k) (by simp at hs ⊢; omega)).1 ho
          rw [hk]
          exact ⟨.char c rest k hk this.1, hp, this.2⟩
        · rintro ⟨_ | ⟨_, _, k, hk, hu⟩, hp, ho⟩
          rw [hk] at hp ho
          exact .char c rest k hk hp ((ih (rest.drop k) (by simp at hs ⊢; omega)).2 ⟨hu, ho⟩)
  exact key s.length s (Nat.le_refl _)

theorem Over.append {P : Bytes → Prop} {a b : Bytes} (ha : Over P a) (hb : Over P b) :
    Over P (a ++ b) := by
  induction ha with
  | nil => exact hb
  | char x rest k hk hp hu ih =>
    have hle : k ≤ rest.length := by have := utf8Step_le x rest; rw [hk] at this; exact this
    rw [List.cons_append]
    refine .char _ _ k (utf8Step_append _ _ _ hk) ?_ ?_
    · rwa [List.take_append_of_le_length hle]
    · rwa [List.drop_append_of_le_length hle]

/-- Cutting off a valid beginning. -/
theorem Over.split {P : Bytes → Prop} {a b : Bytes} (ha : Utf8 a) (h : Over P (a ++ b)) :
    Over P a ∧ Over P b := by
  induction ha with
  | nil => exact ⟨.nil, h⟩
  | char x rest k hk hu ih =>
    have hle : k ≤ rest.length := by have := utf8Step_le x rest; rw [hk] at this; exact this
    rw [List.cons_append] at h
    rcases h with _ | ⟨_, _, k', hk', hp, ho⟩
    rw [utf8Step_append _ _ _ hk] at hk'
    cases hk'
    rw [List.drop_append_of_le_length hle] at ho
    rw [List.take_append_of_le_length hle] at hp
    exact ⟨.char _ _ k hk hp (ih ho).1, (ih ho).2⟩

theorem ok3_cont {b c : UInt8} (hc : isCont c = false) : ok3 b c = false := by
  simp only [isCont, ok3, UInt8.le_iff_toNat_le, UInt8.toNat_ofNat, Bool.and_eq_false_iff,
    Bool.or_eq_false_iff, decide_eq_false_iff_not] at *
  omega

theorem ok4_cont {b c : UInt8} (hc : isCont c = false) : ok4 b c = false := by
  simp only [isCont, ok4, UInt8.le_iff_toNat_le, UInt8.toNat_ofNat, Bool.and_eq_false_iff,
    Bool.or_eq_false_iff, decide_eq_false_iff_not] at *
  omega

/-- A character in front of a byte that begins a character does not reach into
it. -/
theorem utf8Step_cutn {x c : UInt8} (hc : isCont c = false) (a b : Bytes) {k : Nat}
    (h : utf8Step x (a ++ c :: b) = (true, k)) : k ≤ a.length ∧ utf8Step x a = (true, k) := by
  have e1 := hc
  have e3 := fun b => ok3_cont (b := b) hc
  have e4 := fun b => ok4_cont (b := b) hc
  rw [utf8Step_true_iff] at *
  rcases h with h | ⟨h0, h1, rfl, b1, r, hr, hb⟩ | ⟨h0, h1, h2, rfl, b1, b2, r, hr, hb, hb2⟩ |
      ⟨h0, h1, h2, h3, rfl, b1, b2, b3, r, hr, hb, hb2, hb3⟩
  · exact ⟨by omega, .inl h⟩
  · match a with
    | [] => simp at hr; rw [← hr.1, e1] at hb; cases hb
    | a1 :: a' =>
      simp at hr; obtain ⟨rfl, hr⟩ := hr
      exact ⟨by simp, .inr (.inl ⟨h0, h1, rfl, _, a', rfl, hb⟩)⟩
  · match a with
    | [] => simp at hr; rw [← hr.1, e3] at hb; cases hb
    | [a1] => simp at hr; rw [← hr.2.1, e1] at hb2; cases hb2
    | a1 :: a2 :: a' =>
      simp at hr; obtain ⟨rfl, rfl, hr⟩ := hr
      exact ⟨by simp, .inr (.inr (.inl ⟨h0, h1, h2, rfl, _, _, a', rfl, hb, hb2⟩))⟩
  · match a with
    | [] => simp at hr; rw [← hr.1, e4] at hb; cases hb
    | [a1] => simp at hr; rw [← hr.2.1, e1] at hb2; cases hb2
    | [a1, a2] => simp at hr; rw [← hr.2.2.1, e1] at hb3; cases hb3
    | a1 :: a2 :: a3 :: a' =>
      simp at hr; obtain ⟨rfl, rfl, rfl, hr⟩ := hr
      exact ⟨by simp, .inr (.inr (.inr ⟨h0, h1, h2, h3, rfl, _, _, _, a', rfl, hb, hb2, hb3⟩))⟩

/-- Cutting in front of a byte that begins a character. -/
theorem Over.cut {P : Bytes → Prop} {c : UInt8} (hc : isCont c = false) {a b : Bytes}
    (h : Over P (a ++ c :: b)) : Over P a ∧ Over P (c :: b) := by
  have : Utf8 a := by
    replace h := h.utf8
    generalize hs : a ++ c :: b = s at h
    induction h generalizing a with
    | nil => simp at hs
    | char x rest k hk hu ih =>
      cases a with
      | nil => exact .nil
      | cons y a' =>
        simp only [List.cons_append, List.cons.injEq] at hs
        obtain ⟨rfl, rfl⟩ := hs
        obtain ⟨h1, h2⟩ := utf8Step_cutn hc a' b hk
        exact .char _ _ _ h2 (ih (a := a'.drop k) (by rw [List.drop_append_of_le_length h1]))
  exact Over.split this h

section
variable {P : Bytes → Prop}

theorem Over.cons_ascii (hP : ∀ b : UInt8, b < 0x80 → P [b]) {c : UInt8} (hc : c < 0x80) {s : Bytes} :
    Over P (c :: s) ↔ Over P s := by
  have h : utf8Step c s = (true, 0) := by simp [utf8Step, hc]
  constructor
  · rintro (_ | ⟨_, _, k', h', _, hu⟩)
    rw [h] at h'; cases h'; simpa using hu
  · intro hu; exact .char c s 0 h (by simpa using hP c hc) (by simpa using hu)

theorem Over.ascii (hP : ∀ b : UInt8, b < 0x80 → P [b]) {s : Bytes} (h : ∀ x ∈ s, x < 0x80) :
    Over P s := by
  induction s with
  | nil => exact .nil
  | cons c s ih =>
    exact (Over.cons_ascii hP (h c (by simp))).2 (ih fun x hx => h x (by simp [hx]))

theorem Over.span (hP : ∀ b : UInt8, b < 0x80 → P [b]) {f : UInt8 → Bool}
    (hf : ∀ x, f x = false → x < 0x80) {s : Bytes} (h : Over P s) :
    Over P (s.takeWhile f) := by
  have e := List.takeWhile_append_dropWhile (p := f) (l := s)
  rw [← e] at h
  exact (Over.split (Utf8.span hf (by rw [e] at h; exact h.utf8)).1 h).1

theorem isWs1_ascii {c : UInt8} (h : isWs1 c = true) : c < 0x80 := by
  simp only [isWs1, Bool.or_eq_true, Bool.and_eq_true, decide_eq_true_eq, beq_iff_eq] at h
  rcases h with ⟨_, h⟩ | rfl
  · simp only [UInt8.le_iff_toNat_le, UInt8.lt_iff_toNat_lt, UInt8.toNat_ofNat] at *; omega
  · decide

theorem Over.trimRev (r : Bytes) (h : Over P r.reverse) : Over P (trimRev r).reverse := by
  fun_induction YamlPeg.trimRev r with
  | case1 => exact h
  | case2 c r1 hc ih =>
    rw [List.reverse_cons] at h
    exact ih (Over.cut (not_cont_ascii (isWs1_ascii hc)) h).1
  | case3 => exact h
  | case4 c hc d r2 hd ih =>
    simp only [List.reverse_cons, List.append_assoc, List.cons_append, List.nil_append] at h
    simp only [isWs2, Bool.and_eq_true, beq_iff_eq] at hd
    have hcd : isCont d = false := by rw [hd.1]; rfl
    exact ih (Over.cut hcd h).1
  | case5 => exact h
  | case6 c hc d hd a r3 ha ih =>
    simp only [List.reverse_cons, List.append_assoc, List.cons_append, List.nil_append] at h
    have hca : isCont a = false := by
      simp only [isWs3, Bool.or_eq_true, Bool.and_eq_true, beq_iff_eq] at ha
      rcases ha with ((h | h) | h) | h <;> rw [h.1.1] <;> rfl
    exact ih (Over.cut hca h).1
  | case7 => exact h

theorem Over.trimEnd {s : Bytes} (h : Over P s) : Over P (trimEnd s) :=
  Over.trimRev _ (by simpa using h)

theorem Over.trimStart (hP : ∀ b : UInt8, b < 0x80 → P [b]) (s : Bytes) (h : Over P s) :
    Over P (trimStart s) := by
  fun_induction YamlPeg.trimStart s with
  | case1 => exact h
  | case2 c r1 hc ih => exact ih ((Over.cons_ascii hP (isWs1_ascii hc)).1 h)
  | case3 => exact h
  | case4 c hc d r2 hd ih =>
    refine ih ?_
    simp only [isWs2, Bool.and_eq_true, beq_iff_eq] at hd
    rw [hd.1] at h
    rcases h with _ | ⟨_, _, k, hk, hp, ho⟩
    have : k = 1 := by
      rw [utf8Step_true_iff] at hk
      rcases hk with h | h | h | h
      · exact absurd h.1 (by decide)
      · exact h.2.2.1
      · exact absurd h.2.1 (by decide)
      · exact absurd h.2.1 (by decide)
    subst this
    exact ho
  | case5 => exact h
  | case6 c hc d hd a r3 ha ih =>
    refine ih ?_
    have hca : c = 0xE1 ∨ c = 0xE2 ∨ c = 0xE3 := by
      simp only [isWs3, Bool.or_eq_true, Bool.and_eq_true, beq_iff_eq] at ha
      rcases ha with ((h | h) | h) | h <;> simp [h.1.1]
    rcases h with _ | ⟨_, _, k, hk, hp, ho⟩
    have : k = 2 := by
      rw [utf8Step_true_iff] at hk
      rcases hk with h | h | h | h
      · rcases hca with rfl | rfl | rfl <;> exact absurd h.1 (by decide)
      · rcases hca with rfl | rfl | rfl <;> exact absurd h.2.1 (by decide)
      · exact h.2.2.2.1
      · rcases hca with rfl | rfl | rfl <;> exact absurd h.2.2.1 (by decide)
    subst this
    exact ho
  | case7 => exact h

theorem Over.trimPrefixes {pat : Bytes} (hp : ∀ x ∈ pat, x < 0x80) (n : Nat) :
    ∀ r : Bytes, Over P r.reverse → Over P (trimPrefixes n pat r).reverse := by
  induction n with
  | zero => exact fun _ h => h
  | succ n ih =>
    intro r h
    simp only [YamlPeg.trimPrefixes]
    split
    · rename_i hpre
      rw [List.isPrefixOf_iff_prefix] at hpre
      obtain ⟨t, rfl⟩ := hpre
      refine ih _ ?_
      simp only [List.drop_left]
      rw [List.reverse_append] at h
      cases hr : pat.reverse with
      | nil => rw [hr] at h; simpa using h
      | cons y ys =>
        rw [hr] at h
        have : y ∈ pat := by rw [← List.mem_reverse, hr]; simp
        exact (Over.cut (not_cont_ascii (hp y this)) h).1
    · exact h

theorem Over.trimEndMatches {pat : Bytes} (hp : ∀ x ∈ pat, x < 0x80) {s : Bytes} (h : Over P s) :
    Over P (trimEndMatches s pat) :=
  Over.trimPrefixes (by simpa using hp) _ _ (by simpa using h)

/-! ### `escape` -/

theorem escapeGo_cont (l r : Bytes) (h : ∀ x ∈ l, isCont x = true) :
    escapeGo false (l ++ r) = l ++ escapeGo false r := by
  induction l with
  | nil => rfl
  | cons x l ih =>
    have hx : (x == 0x5C) = false := by
      have := h x (by simp)
      by_cases e : x = 0x5C
      · subst e; exact absurd this (by decide)
      · simpa using e
    simp only [List.cons_append, escapeGo, hx]
    simp only [Bool.false_and, Bool.false_eq_true, if_false]
    rw [ih fun y hy => h y (by simp [hy])]

theorem unescapeByte_ascii {c : UInt8} (h : c < 0x80) : unescapeByte c < 0x80 := by
  unfold unescapeByte
  repeat' split
  all_goals first | decide | exact h

theorem unescapeByte_other {c : UInt8} (h : ¬ c < 0x80) : unescapeByte c = c := by
  unfold unescapeByte
  have ne : ∀ x : UInt8, x < 0x80 → (c == x) = false := fun x hx => by
    by_cases e : c = x
    · subst e; exact absurd hx h
    · simpa using e
  simp [ne]

theorem charShape_cont {x : UInt8} {rest : Bytes} {k : Nat} (h : CharShape x rest k) :
    ∀ y ∈ rest.take k, isCont y = true := by
  have c3 : ∀ b c, ok3 b c = true → isCont c = true := fun b c h => by
    cases hc : isCont c with
    | true => rfl
    | false => rw [ok3_cont hc] at h; exact h
  have c4 : ∀ b c, ok4 b c = true → isCont c = true := fun b c h => by
    cases hc : isCont c with
    | true => rfl
    | false => rw [ok4_cont hc] at h; exact h
  rcases h with ⟨_, rfl⟩ | ⟨_, _, rfl, b1, r, rfl, hb⟩ | ⟨_, _, _, rfl, b1, b2, r, rfl, hb, hb2⟩ |
      ⟨_, _, _, _, rfl, b1, b2, b3, r, rfl, hb, hb2, hb3⟩
  · simp
  · simpa using hb
  · simpa using ⟨c3 _ _ hb, hb2⟩
  · simpa using ⟨c4 _ _ hb, hb2, hb3⟩

theorem Over.escapeGo (hP : ∀ b : UInt8, b < 0x80 → P [b]) {s : Bytes} (h : Over P s) :
    ∀ e, Over P (escapeGo e s) := by
  induction h with
  | nil => intro e; exact .nil
  | char c rest k hk hp _ ih =>
    intro e
    by_cases hc : c < 0x80
    · have hk0 : k = 0 := by
        have : utf8Step c rest = (true, 0) := by simp [utf8Step, hc]
        rw [this] at hk; simp at hk; exact hk.symm
      subst hk0
      simp only [YamlPeg.escapeGo]
      split
      · simpa using ih true
      · refine (Over.cons_ascii hP ?_).2 (by simpa using ih false)
        split
        · exact unescapeByte_ascii hc
        · exact hc
    · have hcont := charShape_cont ((utf8Step_true_iff _ _ _).1 hk)
      have hle : k ≤ rest.length := by have := utf8Step_le c rest; rw [hk] at this; exact this
      have hx : (c == 0x5C) = false := by
        by_cases e : c = 0x5C
        · subst e; exact absurd (by decide) hc
        · simpa using e
      simp only [YamlPeg.escapeGo, hx, Bool.false_and, Bool.false_eq_true, if_false,
        unescapeByte_other hc, ite_self]
      rw [← List.take_append_drop k rest, escapeGo_cont _ _ hcont]
      refine .char c _ k (utf8Step_append c (rest.take k) _ ?_) ?_ ?_
      · have h1 := (utf8Step_true_iff _ _ _).1 hk
        rw [utf8Step_true_iff]
        rcases h1 with ⟨h0, rfl⟩ | ⟨h0, h1, rfl, b1, r, rfl, hb⟩ |
          ⟨h0, h1, h2, rfl, b1, b2, r, rfl, hb⟩ | ⟨h0, h1, h2, h3, rfl, b1, b2, b3, r, rfl, hb⟩
        · exact .inl ⟨h0, rfl⟩
        · exact .inr (.inl ⟨h0, h1, rfl, b1, [], rfl, hb⟩)
        · exact .inr (.inr (.inl ⟨h0, h1, h2, rfl, b1, b2, [], rfl, hb⟩))
        · exact .inr (.inr (.inr ⟨h0, h1, h2, h3, rfl, b1, b2, b3, [], rfl, hb⟩))
      · rw [List.take_append_of_le_length (by simp; omega), List.take_take, Nat.min_self]; exact hp
      · rw [List.drop_append_of_le_length (by simp; omega)]
        have : (rest.take k).drop k = [] := by simp
        rw [this]; exact ih false

/-! ### The pieces of the scalars -/

theorem Over.snoc (hP : ∀ b : UInt8, b < 0x80 → P [b]) {s : Bytes} (h : Over P s) {c : UInt8}
    (hc : c < 0x80) : Over P (s ++ [c]) := h.append ((Over.cons_ascii hP hc).2 .nil)

theorem Over.replicate (hP : ∀ b : UInt8, b < 0x80 → P [b]) {n : Nat} {c : UInt8} (hc : c < 0x80) :
    Over P (List.replicate n c) := Over.ascii hP fun x hx => by
  rw [List.mem_replicate] at hx; rw [hx.2]; exact hc

theorem Over.quotedBreak (hP : ∀ b : UInt8, b < 0x80 → P [b]) {v : Bytes} (h : Over P v) (t : Nat) :
    Over P (quotedBreak v t) := by
  unfold YamlPeg.quotedBreak
  simp only
  generalize (if endsWith v b!"\\" = true then t - 1 else t) = t'
  split
  · exact h
  · split
    · split
      · exact h.trimEnd
      · exact h.trimEnd.snoc hP (by decide)
    · exact h.append (Over.replicate hP (by decide))

theorem Over.plainBreak (hP : ∀ b : UInt8, b < 0x80 → P [b]) {v : Bytes} (h : Over P v) (t : Nat) :
    Over P (plainBreak v t) := by
  unfold YamlPeg.plainBreak
  refine Over.append ?_ (Over.replicate hP (by decide))
  split
  · exact h.snoc hP (by decide)
  · exact h

theorem Over.wrappedPush (hP : ∀ b : UInt8, b < 0x80 → P [b]) {sep : UInt8} (hs : sep < 0x80)
    {leading : Bool} {v s : Bytes} (h : Over P v) (h' : Over P s) :
    Over P (wrappedPush sep leading v s) := by
  unfold YamlPeg.wrappedPush
  split
  · refine Over.append ?_ h'
    split
    · exact h.snoc hP hs
    · exact h
  · refine Over.append ?_ (Over.trimStart hP _ h')
    split
    · exact h.snoc hP hs
    · exact h

theorem Over.chomp (hP : ∀ b : UInt8, b < 0x80 → P [b]) {c : Chomp} {s : Bytes} (h : Over P s) :
    Over P (c.apply s) := by
  cases c
  · exact h.trimEnd
  · exact h
  · exact h.trimEnd.snoc hP (by decide)

end
end YamlPeg
