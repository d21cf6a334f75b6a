import Verif.Proof.Safety2
import Verif.Model.Number
/-! # The number texts the parser produces -/

namespace YamlPeg
open M Frame

theorem mem_takeWhile_true {f : UInt8 → Bool} {l : Bytes} {x : UInt8} (h : x ∈ l.takeWhile f) :
    f x = true := by
  induction l with
  | nil => simp at h
  | cons y ys ih =>
    simp only [List.takeWhile] at h
    cases hy : f y
    · simp [hy] at h
    · simp only [hy, List.mem_cons] at h
      rcases h with rfl | h
      · exact hy
      · exact ih h

/-! ## ASCII text -/

theorem lossyAux_ascii (n : Nat) (s : Bytes) (h : ∀ x ∈ s, x < 0x80) (hn : s.length ≤ n) :
    lossyAux n s = s := by
  induction n generalizing s with
  | zero =>
    have : s = [] := by simpa using hn
    subst this; rfl
  | succ n ih =>
    cases s with
    | nil => rfl
    | cons c r =>
      have hc : c < 0x80 := h c (List.mem_cons_self ..)
      have hstep : utf8Step c r = (true, 0) := by simp [utf8Step, hc]
      simp only [lossyAux, hstep, List.take_zero, List.drop_zero]
      rw [ih r (fun x hx => h x (List.mem_cons_of_mem _ hx)) (by simpa using hn)]
      rfl

theorem lossy_ascii (s : Bytes) (h : ∀ x ∈ s, x < 0x80) : lossy s = s :=
  lossyAux_ascii _ _ h (Nat.le_refl _)

theorem isDigit_ascii {x : UInt8} (h : isDigit x = true) : x < 0x80 := by
  simp [isDigit] at h
  have := UInt8.le_iff_toNat_le.1 h.2
  rw [UInt8.lt_iff_toNat_lt]
  simp at *; omega

/-- An optional minus sign. -/
def IsSign (s : Bytes) : Prop := s = [] ∨ s = [0x2D]

/-- A non-empty run of decimal digits. -/
def IsDigits (s : Bytes) : Prop := s ≠ [] ∧ ∀ x ∈ s, isDigit x = true

/-- The texts `Parser::int` returns. -/
def IntText (t : Bytes) : Prop :=
  (∃ sg d, IsSign sg ∧ IsDigits d ∧ t = sg ++ d) ∨
  (∃ d, d ≠ [] ∧ (∀ x ∈ d, asciiDigit 8 x = true) ∧ t = b!"0o" ++ d) ∨
  (∃ d, d ≠ [] ∧ (∀ x ∈ d, asciiDigit 16 x = true) ∧ t = b!"0x" ++ d)

/-- The texts of floats the parser returns. -/
def FloatText (t : Bytes) : Prop :=
  t = b!"NaN" ∨ t = b!"inf" ∨ t = b!"-inf" ∨
  (∃ sg d, IsSign sg ∧ IsDigits d ∧ t = sg ++ d) ∨
  (∃ sg d f, IsSign sg ∧ IsDigits d ∧ (∀ x ∈ f, isDigit x = true) ∧ t = sg ++ d ++ 0x2E :: f) ∨
  (∃ sg d e es x, IsSign sg ∧ IsDigits d ∧ (e = 0x65 ∨ e = 0x45) ∧
    (es = [] ∨ es = [0x2B] ∨ es = [0x2D]) ∧ IsDigits x ∧ t = sg ++ d ++ e :: (es ++ x))

theorem IsSign.ascii {s : Bytes} (h : IsSign s) : ∀ x ∈ s, x < 0x80 := by
  rcases h with rfl | rfl <;> simp

theorem IsDigits.ascii {s : Bytes} (h : IsDigits s) : ∀ x ∈ s, x < 0x80 :=
  fun x hx => isDigit_ascii (h.2 x hx)

/-- The cursor is on the mark, or no minus sign is next. -/
def NoMinus (s : Parser) : Prop := s.pos = s.eaten ∨ s.rest.head? ≠ some 0x2D

section
variable {c : PCfg}

theorem takeWhile_more1_ok {f : UInt8 → Bool} {k : Ctx} {pre mid post : Bytes} {s' : Parser}
    (h : takeWhile f (.more 1) (st k pre mid post) = (.ok (), s')) :
    post.takeWhile f ≠ [] ∧ s' = st k pre (mid ++ post.takeWhile f) (post.dropWhile f) := by
  rw [takeWhile_more1] at h
  split at h
  · simp at h
  · rename_i h0
    simp only [Prod.mk.injEq, true_and] at h
    exact ⟨h0, h.symm⟩

theorem bind_ok_inv {σ α β : Type} {x : M σ α} {f : α → M σ β} {s s' : σ} {b : β}
    (h : (x >>= f) s = (.ok b, s')) : ∃ a s1, x s = (.ok a, s1) ∧ f a s1 = (.ok b, s') := by
  rw [bind_run] at h
  rcases hx : x s with ⟨r, s1⟩
  rw [hx] at h
  cases r with
  | ok a => exact ⟨a, s1, rfl, h⟩
  | err e => simp at h
  | panic p => simp at h
  | diverge => simp at h

theorem numPrefix_shape {s s' : Parser} (hs : PWF c s) (hq : NoMinus s)
    (h : numPrefix s = (.ok (), s')) :
    ∃ k pre sg d post, s' = st k pre (sg ++ d) post ∧ IsSign sg ∧ IsDigits d := by
  obtain ⟨k, pre, mid, post, rfl⟩ := PWF.exists_st hs
  obtain ⟨u, s1, h1, h2⟩ := bind_ok_inv h
  have : ∃ pre sg post, s1 = st k pre sg post ∧ IsSign sg := by
    simp only [NoMinus, st_pos, st_eaten, st_rest] at hq
    cases post with
    | nil =>
      rw [orDefault_err (sym_nil k pre mid 0x2D)] at h1
      simp only [Prod.mk.injEq] at h1
      exact ⟨pre, [], mid, h1.2.symm, .inl rfl⟩
    | cons x r =>
      by_cases hx : x = 0x2D
      · subst hx
        rw [orDefault_ok (sym_hit k pre mid 0x2D r)] at h1
        simp only [Prod.mk.injEq] at h1
        rcases hq with hq | hq
        · have : mid = [] := by
            have : mid.length = 0 := by omega
            simpa using this
          subst this
          exact ⟨pre, [0x2D], r, h1.2.symm, .inr rfl⟩
        · simp at hq
      · rw [orDefault_err (sym_miss k pre mid 0x2D x r hx)] at h1
        simp only [Prod.mk.injEq] at h1
        exact ⟨pre, [], mid ++ x :: r, h1.2.symm, .inl rfl⟩
  obtain ⟨pre, sg, post, rfl, hsg⟩ := this
  obtain ⟨h3, rfl⟩ := takeWhile_more1_ok h2
  exact ⟨k, pre, sg, post.takeWhile isDigit, _, rfl, hsg, h3, fun x hx => mem_takeWhile_true hx⟩

theorem asciiDigit_ascii {i x : UInt8} (hi : i ≤ 16) (h : asciiDigit i x = true) : x < 0x80 := by
  simp only [asciiDigit, Bool.or_eq_true, Bool.and_eq_true, decide_eq_true_eq] at h
  rcases h with (h | h) | h
  · exact isDigit_ascii h
  · have h2 := UInt8.lt_iff_toNat_lt.1 h.2
    have hi := UInt8.le_iff_toNat_le.1 hi
    rw [UInt8.toNat_add] at h2
    rw [UInt8.lt_iff_toNat_lt]
    simp at *; omega
  · have h2 := UInt8.lt_iff_toNat_lt.1 h.2
    have hi := UInt8.le_iff_toNat_le.1 hi
    rw [UInt8.toNat_add] at h2
    rw [UInt8.lt_iff_toNat_lt]
    simp at *; omega

theorem int_shape {s s' : Parser} {t : Bytes} (hs : PWF c s) (hq : NoMinus s)
    (h : int s = (.ok t, s')) : IntText t ∧ t <:+: c.doc := by
  obtain ⟨_, s1, h1, h⟩ := bind_ok_inv h
  obtain ⟨k, pre, sg, d, post, rfl, hsg, hd⟩ := numPrefix_shape hs hq h1
  have w1 : PWF c (st k pre (sg ++ d) post) := by
    have := (numPrefix_pk (c := c) s hs).1; rw [h1] at this; exact this
  rw [bind_ok (text_st ..)] at h
  have hasc : lossy (sg ++ d) = sg ++ d := lossy_ascii _ fun x hx => by
    rcases List.mem_append.1 hx with hx | hx
    · exact hsg.ascii x hx
    · exact hd.ascii x hx
  rw [hasc] at h
  obtain ⟨u, s2, h2, h⟩ := bind_ok_inv h
  obtain ⟨_, _, _, h⟩ := bind_ok_inv h
  obtain ⟨_, _, _, h⟩ := bind_ok_inv h
  simp only [pure_run, Prod.mk.injEq, Out.ok.injEq] at h
  obtain ⟨rfl, -⟩ := h
  have hdec : IntText (sg ++ d) ∧ sg ++ d <:+: c.doc := by
    refine ⟨.inl ⟨sg, d, hsg, hd, rfl⟩, pre, post, ?_⟩
    rw [← w1.doc, st_doc]; simp
  split at h2
  · rename_i h0
    have h0 : sg ++ d = [0x30] := by simpa using h0
    rw [h0] at h2 hdec w1
    obtain ⟨b, s3, h3, h4⟩ := bind_ok_inv h2
    -- the two prefixes
    have key : ∃ m' post', octalOrHex (st k (pre ++ [0x30]) [] post) =
          (.ok b, st k (pre ++ [0x30] ++ []) m' post') ∧
        (b = true → IntText ([0x30] ++ m')) := by
      simp only [octalOrHex, bind_run]
      have hoct : ∃ bb m' post', isOk octal (st k (pre ++ [0x30]) [] post) =
            (.ok bb, st k (pre ++ [0x30]) m' post') ∧
          (bb = true → IntText ([0x30] ++ m')) ∧ (bb = false → m' = [] ∧ post' = post) := by
        cases post with
        | nil =>
          refine ⟨false, [], [], ?_, by simp, by simp⟩
          rw [isOk_err (e := .mismatch)]
          rw [octal, bind_err (sym_nil ..)]
        | cons x r =>
          by_cases hx : x = 0x6F
          · subst hx
            by_cases hr : r.takeWhile (asciiDigit 8) = []
            · refine ⟨false, [], 0x6F :: r, ?_, by simp, by simp⟩
              rw [isOk_err (e := .mismatch)]
              rw [octal, bind_ok (sym_hit ..), takeWhile_more1]
              simp [hr]
            · refine ⟨true, [0x6F] ++ r.takeWhile (asciiDigit 8), r.dropWhile (asciiDigit 8), ?_, ?_,
                by simp⟩
              · rw [isOk_ok (a := ())]
                rw [octal, bind_ok (sym_hit ..), takeWhile_more1]
                simp [hr]
              · intro _
                exact .inr (.inl ⟨_, hr, fun x hx => mem_takeWhile_true hx, by simp⟩)
          · refine ⟨false, [], x :: r, ?_, by simp, by simp⟩
            rw [isOk_err (e := .mismatch)]
            rw [octal, bind_err (sym_miss _ _ _ _ _ _ hx)]; simp
      obtain ⟨bb, m', post', ho, ht, hf⟩ := hoct
      rw [ho]
      cases bb with
      | true =>
        have hb : b = true := by
          have := h3
          simp only [context] at this
          have e : ({ st k pre [0x30] post with eaten := (st k pre [0x30] post).pos } : Parser)
              = st k (pre ++ [0x30]) [] post := by simp [st]
          rw [e] at this
          simp only [octalOrHex, bind_run, ho, if_true, pure_run, Prod.mk.injEq, Out.ok.injEq] at this
          exact this.1.symm
        subst hb
        exact ⟨m', post', by simp, ht⟩
      | false =>
        obtain ⟨rfl, rfl⟩ := hf rfl
        simp only [Bool.false_eq_true, if_false]
        have hhex : ∃ bb m' p', isOk hexadecimal (st k (pre ++ [0x30]) [] post') =
              (.ok bb, st k (pre ++ [0x30]) m' p') ∧ (bb = true → IntText ([0x30] ++ m')) := by
          cases post' with
          | nil =>
            refine ⟨false, [], [], ?_, by simp⟩
            rw [isOk_err (e := .mismatch)]
            rw [hexadecimal, bind_err (sym_nil ..)]
          | cons x r =>
            by_cases hx : x = 0x78
            · subst hx
              by_cases hr : r.takeWhile (asciiDigit 16) = []
              · refine ⟨false, [], 0x78 :: r, ?_, by simp⟩
                rw [isOk_err (e := .mismatch)]
                rw [hexadecimal, bind_ok (sym_hit ..), takeWhile_more1]
                simp [hr]
              · refine ⟨true, [0x78] ++ r.takeWhile (asciiDigit 16), r.dropWhile (asciiDigit 16), ?_, ?_⟩
                · rw [isOk_ok (a := ())]
                  rw [hexadecimal, bind_ok (sym_hit ..), takeWhile_more1]
                  simp [hr]
                · intro _
                  exact .inr (.inr ⟨_, hr, fun x hx => mem_takeWhile_true hx, by simp⟩)
            · refine ⟨false, [], x :: r, ?_, by simp⟩
              rw [isOk_err (e := .mismatch)]
              rw [hexadecimal, bind_err (sym_miss _ _ _ _ _ _ hx)]; simp
        obtain ⟨bb, m', p', hh, ht⟩ := hhex
        have hb : b = bb := by
          have := h3
          simp only [context] at this
          have e : ({ st k pre [0x30] post' with eaten := (st k pre [0x30] post').pos } : Parser)
              = st k (pre ++ [0x30]) [] post' := by simp [st]
          rw [e] at this
          simp only [octalOrHex, bind_run, ho, Bool.false_eq_true, if_false, hh, Prod.mk.injEq,
            Out.ok.injEq] at this
          exact this.1.symm
        subst hb
        exact ⟨m', p', by simpa using hh, ht⟩
    obtain ⟨m', post', hk, ht⟩ := key
    have w2 := (context_pk (c := c) (pk_pf octalOrHex_pk) _ w1).1
    rw [h3] at w2
    rw [context_st hk] at h3
    simp only [Prod.mk.injEq, true_and] at h3
    subst h3
    cases b with
    | false =>
      simp only [Bool.false_eq_true, if_false, pure_run, Prod.mk.injEq, Out.ok.injEq] at h4
      rw [← h4.1]; exact hdec
    | true =>
      simp only [if_true, text_st, Prod.mk.injEq, Out.ok.injEq] at h4
      have hT := ht rfl
      rw [List.nil_append] at h4
      have : lossy ([0x30] ++ m') = [0x30] ++ m' := by
        apply lossy_ascii
        intro x hx
        rcases hT with ⟨sg', d', hsg', hd', e⟩ | ⟨d', _, hd', e⟩ | ⟨d', _, hd', e⟩
        · rw [e] at hx
          rcases List.mem_append.1 hx with hx | hx
          · exact hsg'.ascii x hx
          · exact hd'.ascii x hx
        · rw [e] at hx
          rcases List.mem_append.1 hx with hx | hx
          · revert hx; simp; rintro (rfl | rfl) <;> decide
          · exact asciiDigit_ascii (by decide) (hd' x hx)
        · rw [e] at hx
          rcases List.mem_append.1 hx with hx | hx
          · revert hx; simp; rintro (rfl | rfl) <;> decide
          · exact asciiDigit_ascii (by decide) (hd' x hx)
      rw [this] at h4
      rw [← h4.1]
      refine ⟨hT, pre, post', ?_⟩
      have w2 : PWF c _ := w2
      rw [← w2.doc, st_doc]; simp
  · simp only [pure_run, Prod.mk.injEq, Out.ok.injEq] at h2
    rw [← h2.1]; exact hdec

theorem trimPrefixes_float (n : Nat) (f d : Bytes) (hd : ∀ x ∈ d, isDigit x = true)
    (hf : ∀ x ∈ f, isDigit x = true) (sg : Bytes) (hsg : IsSign sg) :
    trimPrefixes n [0x30, 0x2E] (f.reverse ++ 0x2E :: (sg ++ d).reverse) =
      if f = [0x30] ∧ n ≠ 0 then (sg ++ d).reverse
      else f.reverse ++ 0x2E :: (sg ++ d).reverse := by
  cases n with
  | zero => simp [trimPrefixes]
  | succ n =>
    have hend : ∀ m, trimPrefixes m [0x30, 0x2E] (sg ++ d).reverse = (sg ++ d).reverse := by
      intro m
      cases m with
      | zero => rfl
      | succ m =>
        simp only [trimPrefixes]
        rw [if_neg]
        intro h
        have h := List.isPrefixOf_iff_prefix.1 h
        obtain ⟨t, ht⟩ := h
        have : (0x2E : UInt8) ∈ (sg ++ d).reverse := by rw [← ht]; simp
        simp only [List.mem_reverse, List.mem_append] at this
        rcases this with h | h
        · rcases hsg with rfl | rfl <;> simp at h
        · have := hd _ h; simp [isDigit] at this
    have hrev : f = f.reverse.reverse := by simp
    have hf' : ∀ x ∈ f.reverse, isDigit x = true := fun x hx => hf x (by simpa using hx)
    generalize f.reverse = g at *
    subst hrev
    match g with
    | [] => simp [trimPrefixes]
    | [x] =>
      by_cases hx : x = 0x30
      · subst hx
        simp only [trimPrefixes, List.cons_append, List.nil_append]
        simpa using hend n
      · simp [trimPrefixes, hx, Ne.symm hx]
    | x :: y :: r =>
      have hy : y ≠ 0x2E := by
        rintro rfl
        have := hf' 0x2E (by simp)
        simp [isDigit] at this
      have hne : (x :: y :: r).reverse ≠ [0x30] := by
        intro h
        have := congrArg List.length h
        simp at this
      rw [if_neg (fun h => hne h.1)]
      simp [trimPrefixes, Ne.symm hy]

/-- `trim_end_matches(".0")` on a decimal fraction. -/
theorem trim_float (sg d f : Bytes) (hsg : IsSign sg) (hd : ∀ x ∈ d, isDigit x = true)
    (hf : ∀ x ∈ f, isDigit x = true) :
    trimEndMatches (sg ++ d ++ 0x2E :: f) b!".0" =
      if f = [0x30] then sg ++ d else sg ++ d ++ 0x2E :: f := by
  have := trimPrefixes_float (sg ++ d ++ 0x2E :: f).length f d hd hf sg hsg
  have hr : (sg ++ d ++ 0x2E :: f).reverse = f.reverse ++ 0x2E :: (sg ++ d).reverse := by simp
  simp only [trimEndMatches]
  rw [hr, show (b!".0" : Bytes).reverse = [0x30, 0x2E] from rfl, this]
  have : (sg ++ d ++ 0x2E :: f).length ≠ 0 := by simp
  simp only [this, ne_eq, not_false_eq_true, and_true]
  split <;> simp

theorem float_shape {s s' : Parser} {t : Bytes} (hs : PWF c s) (hq : NoMinus s)
    (h : float s = (.ok t, s')) : FloatText t := by
  obtain ⟨_, s1, h1, h⟩ := bind_ok_inv h
  obtain ⟨k, pre, sg, d, post, rfl, hsg, hd⟩ := numPrefix_shape hs hq h1
  obtain ⟨_, s2, h2, h⟩ := bind_ok_inv h
  cases post with
  | nil => simp at h2
  | cons x r =>
    rw [sym_cons] at h2
    split at h2
    · rename_i hx; subst hx
      simp only [Prod.mk.injEq, true_and] at h2
      subst h2
      rw [bind_ok (takeWhile_more0 ..), bind_ok (text_st ..)] at h
      obtain ⟨_, _, _, h⟩ := bind_ok_inv h
      simp only [pure_run, Prod.mk.injEq, Out.ok.injEq] at h
      rw [← h.1]
      have hf : ∀ x ∈ r.takeWhile isDigit, isDigit x = true := fun x hx => mem_takeWhile_true hx
      have e : sg ++ d ++ [0x2E] ++ r.takeWhile isDigit = sg ++ d ++ 0x2E :: r.takeWhile isDigit := by
        simp
      rw [e, lossy_ascii, trim_float sg d _ hsg hd.2 hf]
      · split
        · exact .inr (.inr (.inr (.inl ⟨sg, d, hsg, hd, rfl⟩)))
        · exact .inr (.inr (.inr (.inr (.inl ⟨sg, d, _, hsg, hd, hf, rfl⟩))))
      · intro x hx
        simp only [List.mem_append, List.mem_cons] at hx
        rcases hx with (hx | hx) | hx | hx
        · exact hsg.ascii x hx
        · exact hd.ascii x hx
        · subst hx; decide
        · exact isDigit_ascii (hf x hx)
    · simp at h2

/-- The first byte exists and satisfies `f`. -/
def headTrue (f : UInt8 → Bool) : Bytes → Bool
  | [] => false
  | x :: _ => f x

theorem takeCount_range1 (f : UInt8 → Bool) (l : Bytes) :
    takeCount f (.range 0 1) l 0 = if headTrue f l then 1 else 0 := by
  cases l with
  | nil => rfl
  | cons x xs => cases h : f x <;> simp [takeCount, headTrue, h]

/-- Exact behaviour of `take_while` with `Range(0, 1)`. -/
theorem takeWhile_range01 (f : UInt8 → Bool) (k : Ctx) (pre mid post : Bytes) :
    takeWhile f (.range 0 1) (st k pre mid post) =
      (.ok (), if headTrue f post then st k pre (mid ++ post.take 1) (post.drop 1)
        else st k pre mid post) := by
  simp only [takeWhile, st_le, if_true, st_rest, takeCount_range1, TakeOpt.lo?]
  cases hh : headTrue f post
  · simp
  · have : 1 ≤ post.length := by cases post with
      | nil => simp [headTrue] at hh
      | cons x xs => simp
    rw [← st_adv k pre mid post 1 this]
    simp

theorem sciFloat_shape {s s' : Parser} {t : Bytes} (hs : PWF c s) (hq : NoMinus s)
    (h : sciFloat s = (.ok t, s')) : FloatText t := by
  obtain ⟨_, s1, h1, h⟩ := bind_ok_inv h
  obtain ⟨k, pre, sg, d, post, rfl, hsg, hd⟩ := numPrefix_shape hs hq h1
  obtain ⟨_, s2, h2, h⟩ := bind_ok_inv h
  cases post with
  | nil => simp at h2
  | cons x r =>
    rw [symSet_cons] at h2
    split at h2
    · rename_i hx
      have hx : x = 0x65 ∨ x = 0x45 := by simpa using hx
      simp only [Prod.mk.injEq, true_and] at h2
      subst h2
      rw [bind_ok (takeWhile_range01 ..)] at h
      have : ∃ es r', (if headTrue (isIn b!"+-") r then st k pre (sg ++ d ++ [x] ++ r.take 1) (r.drop 1)
          else st k pre (sg ++ d ++ [x]) r) = st k pre (sg ++ d ++ [x] ++ es) r' ∧
          (es = [] ∨ es = [0x2B] ∨ es = [0x2D]) := by
        cases r with
        | nil => exact ⟨[], [], by simp [headTrue], .inl rfl⟩
        | cons y r =>
          by_cases hy : isIn b!"+-" y = true
          · have hy' : y = 0x2B ∨ y = 0x2D := by simpa [isIn, notIn] using hy
            refine ⟨[y], r, by simp [headTrue, hy], ?_⟩
            rcases hy' with rfl | rfl <;> simp
          · exact ⟨[], y :: r, by simp [headTrue, hy], .inl rfl⟩
      obtain ⟨es, r', he, hes⟩ := this
      rw [he] at h
      obtain ⟨_, s3, h3, h⟩ := bind_ok_inv h
      obtain ⟨hne, rfl⟩ := takeWhile_more1_ok h3
      rw [bind_ok (text_st ..)] at h
      obtain ⟨_, _, _, h⟩ := bind_ok_inv h
      simp only [pure_run, Prod.mk.injEq, Out.ok.injEq] at h
      rw [← h.1]
      have hf : ∀ x ∈ r'.takeWhile isDigit, isDigit x = true := fun x hx => mem_takeWhile_true hx
      rw [lossy_ascii]
      · exact .inr (.inr (.inr (.inr (.inr ⟨sg, d, x, es, _, hsg, hd, hx, hes, ⟨hne, hf⟩, by simp⟩))))
      · intro y hy
        simp only [List.mem_append, List.mem_cons, List.not_mem_nil, or_false] at hy
        rcases hy with (((hy | hy) | hy) | hy) | hy
        · exact hsg.ascii y hy
        · exact hd.ascii y hy
        · subst hy; rcases hx with rfl | rfl <;> decide
        · rcases hes with rfl | rfl | rfl
          · simp at hy
          · simp at hy; subst hy; decide
          · simp at hy; subst hy; decide
        · exact isDigit_ascii (hf y hy)
    · simp at h2

end
end YamlPeg
