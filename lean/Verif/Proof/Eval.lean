import Verif.Proof.Utf8
import Verif.Proof.NumText
/-!
# Symbolic evaluation: indentation, numbers that do not match, plain scalars
-/

namespace YamlPeg
open M

/-- The context after `ind level`. -/
def Ctx.at (k : Ctx) (level : Nat) : Ctx := { k with indent := indentFor level k.indent }

/-- How many spaces `ind level` wants. -/
def Ctx.want (k : Ctx) (level : Nat) : Nat := (indentFor level k.indent).sum

@[simp] theorem indentFor_len (level : Nat) (l : List Nat) : (indentFor level l).length = level + 1 := by
  unfold indentFor
  split
  · simp; omega
  · simp; omega

theorem indentFor_indentFor {p q : Nat} (h : p ≤ q) (l : List Nat) :
    indentFor p (indentFor q l) = indentFor p l := by
  have hlen := indentFor_len q l
  have hlt : ¬ p ≥ (indentFor q l).length := by omega
  rw [indentFor, if_neg hlt]
  unfold indentFor
  by_cases h1 : q ≥ l.length
  · rw [if_pos h1]
    by_cases h2 : p ≥ l.length
    · rw [if_pos h2, List.take_append, List.take_of_length_le (by omega), List.take_replicate]
      congr 2; omega
    · rw [if_neg h2, List.take_append_of_le_length (by omega)]
  · rw [if_neg h1, if_neg (by omega), List.take_take]
    congr 1; omega

@[simp] theorem indentFor_idem (p : Nat) (l : List Nat) : indentFor p (indentFor p l) = indentFor p l :=
  indentFor_indentFor (Nat.le_refl p) l

theorem Ctx.at_at {p q : Nat} (h : p ≤ q) (k : Ctx) : (k.at q).at p = k.at p := by
  simp [Ctx.at, indentFor_indentFor h]

@[simp] theorem Ctx.at_idem (p : Nat) (k : Ctx) : (k.at p).at p = k.at p := Ctx.at_at (Nat.le_refl p) k
@[simp] theorem Ctx.at_consumed (p : Nat) (k : Ctx) : (k.at p).consumed = k.consumed := rfl
@[simp] theorem Ctx.at_indent (p : Nat) (k : Ctx) : (k.at p).indent = indentFor p k.indent := rfl
@[simp] theorem Ctx.want_at (p : Nat) (k : Ctx) : (k.at p).want p = k.want p := by
  simp [Ctx.want, Ctx.at]

/-- The table is padded with 2s. -/
theorem Ctx.want_succ (k : Ctx) (p : Nat) (h : k.indent.length ≤ p + 1) :
    k.want (p + 1) = k.want p + 2 := by
  unfold Ctx.want indentFor
  rw [if_pos h]
  by_cases h2 : p ≥ k.indent.length
  · rw [if_pos h2]
    rw [show p + 1 - k.indent.length + 1 = (p - k.indent.length + 1) + 1 by omega,
      List.replicate_succ']
    simp [List.sum_append]; omega
  · rw [if_neg h2, List.take_of_length_le (by omega)]
    have : p + 1 - k.indent.length + 1 = 1 := by omega
    simp [this]

variable (k : Ctx) (pre mid post : Bytes)

theorem symTimes_eq (c : UInt8) (n : Nat) : symTimes c n = symSeq (List.replicate n c) := by
  induction n with
  | zero => rfl
  | succ n ih => simp only [symTimes, List.replicate_succ, symSeq, ih]

theorem ind_eq (level : Nat) : ind level (st k pre mid post) =
    if (spaces (k.want level)).isPrefixOf post then
      (.ok (), st (k.at level) pre (mid ++ spaces (k.want level)) (post.drop (k.want level)))
    else (.err .mismatch, st (k.at level) pre [] (mid ++ post)) := by
  have ht : (indentFor level k.indent).take (level + 1) = indentFor level k.indent :=
    List.take_of_length_le (by simp)
  have h2 : ind level (st k pre mid post) =
      symTimes 0x20 (((st (k.at level) pre mid post).indent.take (level + 1)).sum)
        (st (k.at level) pre mid post) := rfl
  rw [h2, symTimes_eq, symSeq_eq]
  simp only [st_indent, Ctx.at_indent, ht, spaces, Ctx.want, List.length_replicate]
  rfl

theorem ind_hit (level : Nat) : ind level (st k pre mid (spaces (k.want level) ++ post)) =
    (.ok (), st (k.at level) pre (mid ++ spaces (k.want level)) post) := by
  rw [ind_eq, if_pos (by simp [List.isPrefixOf_iff_prefix])]
  simp [spaces]

theorem ind_miss (level : Nat) (h : (spaces (k.want level)).isPrefixOf post = false) :
    ind level (st k pre mid post) = (.err .mismatch, st (k.at level) pre [] (mid ++ post)) := by
  rw [ind_eq, h]; simp

/-- Fewer spaces than wanted. -/
theorem spaces_not_prefix {j n : Nat} (h : j < n) {c : UInt8} (hc : c ≠ 0x20) (r : Bytes) :
    (spaces n).isPrefixOf (spaces j ++ c :: r) = false := by
  induction j generalizing n with
  | zero =>
    obtain ⟨n, rfl⟩ : ∃ m, n = m + 1 := ⟨n - 1, by omega⟩
    simp [spaces, List.replicate_succ, List.isPrefixOf, Ne.symm hc]
  | succ j ih =>
    obtain ⟨n, rfl⟩ : ∃ m, n = m + 1 := ⟨n - 1, by omega⟩
    have := ih (n := n) (by omega)
    simpa [spaces, List.replicate_succ, List.isPrefixOf] using this

theorem spaces_not_prefix_nil {n : Nat} (h : 0 < n) : (spaces n).isPrefixOf [] = false := by
  obtain ⟨n, rfl⟩ : ∃ m, n = m + 1 := ⟨n - 1, by omega⟩
  rfl

theorem spaces_not_prefix_cons {n : Nat} (h : 0 < n) {c : UInt8} (hc : c ≠ 0x20) (r : Bytes) :
    (spaces n).isPrefixOf (c :: r) = false := spaces_not_prefix (j := 0) h hc r

/-! ## Number prefixes -/

/-- An optional minus sign at the front. -/
def signOf : Bytes → Bytes
  | 0x2D :: _ => [0x2D]
  | _ => []

/-- What is behind the optional minus sign. -/
def unsigned : Bytes → Bytes
  | 0x2D :: r => r
  | r => r

theorem signOf_append : signOf post ++ unsigned post = post := by
  unfold signOf unsigned
  split <;> simp_all

theorem numPrefix_eq : numPrefix (st k pre [] post) =
    if (unsigned post).takeWhile isDigit = [] then (.err .mismatch, st k pre [] post)
    else (.ok (), st k pre (signOf post ++ (unsigned post).takeWhile isDigit)
      ((unsigned post).dropWhile isDigit)) := by
  have h1 : orDefault () (sym 0x2D) (st k pre [] post) =
      (.ok (), st k pre (signOf post) (unsigned post)) := by
    match post with
    | [] => rw [orDefault_err (sym_nil ..)]; rfl
    | c :: r =>
      by_cases hc : c = 0x2D
      · subst hc; rw [orDefault_ok (sym_hit ..)]; rfl
      · rw [orDefault_err (sym_miss _ _ _ _ _ _ hc)]
        have h1 : signOf (c :: r) = [] := by unfold signOf; split <;> simp_all
        have h2 : unsigned (c :: r) = c :: r := by unfold unsigned; split <;> simp_all
        rw [h1, h2]; simp
  rw [numPrefix, bind_ok h1, takeWhile_more1, signOf_append]

/-- The text does not begin like a number: there are no digits behind the
optional minus sign, or the digits run into a byte that no number goes on with. -/
def NotNum (post : Bytes) : Prop :=
  (unsigned post).takeWhile isDigit = [] ∨
  ∃ c r, (unsigned post).dropWhile isDigit = c :: r ∧ c ∉ b!".eEox:{}[], \n\r" ∧ isBlank c = false

theorem float_no (h : NotNum post) : float (st k pre [] post) = (.err .mismatch, st k pre [] post) := by
  rw [float]
  by_cases h0 : (unsigned post).takeWhile isDigit = []
  · rw [bind_err (by rw [numPrefix_eq, if_pos h0])]
  · rcases h with h | ⟨c, r, hd, hc, _⟩
    · exact absurd h h0
    · rw [bind_ok (by rw [numPrefix_eq, if_neg h0]), hd, bind_err (sym_miss _ _ _ _ _ _ ?_), ← hd]
      · simp [signOf_append]
      · rintro rfl; simp at hc

theorem sciFloat_no (h : NotNum post) :
    sciFloat (st k pre [] post) = (.err .mismatch, st k pre [] post) := by
  rw [sciFloat]
  by_cases h0 : (unsigned post).takeWhile isDigit = []
  · rw [bind_err (by rw [numPrefix_eq, if_pos h0])]
  · rcases h with h | ⟨c, r, hd, hc, _⟩
    · exact absurd h h0
    · rw [bind_ok (by rw [numPrefix_eq, if_neg h0]), hd, bind_err (symSet_miss _ _ _ _ _ _ ?_), ← hd]
      · simp [signOf_append]
      · simp at hc ⊢; simp [hc]

/-- `octalOrHex` when the next byte is neither `o` nor `x`. -/
theorem octalOrHex_no (c : UInt8) (r : Bytes) (h1 : c ≠ 0x6F) (h2 : c ≠ 0x78) :
    context octalOrHex (st k pre mid (c :: r)) = (.ok false, st k pre mid (c :: r)) := by
  have := context_st (f := octalOrHex) (k := k) (k' := k) (pre := pre) (mid := mid) (post := c :: r)
    (p' := []) (m' := []) (post' := c :: r) (o := .ok false) (by
      rw [octalOrHex, bind_ok (isOk_err (e := .mismatch) (s' := st k (pre ++ mid) [] (c :: r)) ?_)]
      · simp only [Bool.false_eq_true, if_false]
        rw [isOk_err (e := .mismatch) (s' := st k (pre ++ mid) [] (c :: r))]
        · simp
        · rw [hexadecimal, bind_err (sym_miss _ _ _ _ _ _ h2)]; simp
      · rw [octal, bind_err (sym_miss _ _ _ _ _ _ h1)]; simp)
  simpa using this

theorem octalOrHex_nil :
    context octalOrHex (st k pre mid []) = (.ok false, st k pre mid []) := by
  have := context_st (f := octalOrHex) (k := k) (k' := k) (pre := pre) (mid := mid) (post := [])
    (p' := []) (m' := []) (post' := []) (o := .ok false) (by
      rw [octalOrHex, bind_ok (isOk_err (e := .mismatch) (s' := st k (pre ++ mid) [] []) ?_)]
      · simp only [Bool.false_eq_true, if_false]
        rw [isOk_err (e := .mismatch) (s' := st k (pre ++ mid) [] [])]
        · simp
        · rw [hexadecimal, bind_err (sym_nil ..)]
      · rw [octal, bind_err (sym_nil ..)])
  simpa using this

/-- The part of `int` behind the digits, when no `0o`/`0x` follows. -/
theorem int_tail (s : Bytes) (h : ∀ c r, post = c :: r → c ≠ 0x6F ∧ c ≠ 0x78) :
    (do
      if s == b!"0" then
        if ← context octalOrHex then text else pure s
      else pure s : PM Bytes) (st k pre mid post) = (.ok s, st k pre mid post) := by
  have e : context octalOrHex (st k pre mid post) = (.ok false, st k pre mid post) := by
    cases post with
    | nil => exact octalOrHex_nil ..
    | cons c r => exact octalOrHex_no _ _ _ _ _ (h c r rfl).1 (h c r rfl).2
  split
  · rw [bind_ok e]; simp
  · simp

theorem int_no (h : NotNum post) : int (st k pre [] post) = (.err .mismatch, st k pre [] post) := by
  rw [int]
  by_cases h0 : (unsigned post).takeWhile isDigit = []
  · rw [bind_err (by rw [numPrefix_eq, if_pos h0])]
  · rcases h with h | ⟨c, r, hd, hc, hb⟩
    · exact absurd h h0
    · rw [bind_ok (by rw [numPrefix_eq, if_neg h0]), hd, bind_ok (text_st ..)]
      rw [bind_ok (int_tail ..)]
      · rw [bind_ok (ws_st ..)]
        have e1 : (c :: r).takeWhile isBlank = [] := by simp [List.takeWhile, hb]
        have e2 : (c :: r).dropWhile isBlank = c :: r := by simp [List.dropWhile, hb]
        rw [e1, e2, bind_err (by rw [bound_eq, if_neg]; simp at hc ⊢; simp [headIn, hc]), ← hd]
        simp [signOf_append]
      · rintro _ _ ⟨⟩
        simp at hc; simp [hc]

end YamlPeg
