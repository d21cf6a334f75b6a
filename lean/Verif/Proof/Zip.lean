import Verif.Model.Grammar
import Verif.Proof.Safety
/-!
# Symbolic evaluation of the base parser

`st k pre mid post` is the parser state over the document `pre ++ mid ++ post`
with the mark behind `pre` and the cursor behind `mid`.  The lemmas below say
exactly what the basic methods do on such states.
-/

namespace YamlPeg
open M Frame

/-- The parts of the parser state besides document and cursors. -/
structure Ctx where
  indent : List Nat
  consumed : Nat
  versionChecked : Bool
  tag : List (Bytes × Bytes)

/-- The parser state over `pre ++ mid ++ post`. -/
def st (k : Ctx) (pre mid post : Bytes) : Parser :=
  { doc := pre ++ (mid ++ post), indent := k.indent, consumed := k.consumed,
    versionChecked := k.versionChecked, tag := k.tag,
    pos := pre.length + mid.length, eaten := pre.length }

def Parser.ctx (s : Parser) : Ctx := ⟨s.indent, s.consumed, s.versionChecked, s.tag⟩

/-- Every state with its cursors in order is such a state. -/
theorem exists_st (s : Parser) (h1 : s.eaten ≤ s.pos) (h2 : s.pos ≤ s.doc.length) :
    ∃ k pre mid post, s = st k pre mid post := by
  refine ⟨s.ctx, s.doc.take s.eaten, (s.doc.take s.pos).drop s.eaten, s.doc.drop s.pos, ?_⟩
  have e1 : (s.doc.take s.eaten).length = s.eaten := by simp; omega
  have e2 : ((s.doc.take s.pos).drop s.eaten).length = s.pos - s.eaten := by
    simp only [List.length_drop, List.length_take]; omega
  have e3 : s.doc.take s.eaten = (s.doc.take s.pos).take s.eaten := by
    rw [List.take_take]; congr 1; omega
  have e4 : s.doc.take s.eaten ++ ((s.doc.take s.pos).drop s.eaten ++ s.doc.drop s.pos) = s.doc := by
    rw [← List.append_assoc, e3, List.take_append_drop, List.take_append_drop]
  rcases s with ⟨doc, ind, con, vc, tag, pos, eaten⟩
  simp only [st, Parser.ctx] at *
  simp only [e1, e2, e4]
  congr 1
  omega

variable (k : Ctx) (pre mid post : Bytes)

@[simp] theorem st_rest : (st k pre mid post).rest = post := by
  have : pre.length + mid.length = (pre ++ mid).length := by simp
  simp only [Parser.rest, st, this, ← List.append_assoc, List.drop_left]

@[simp] theorem st_doc : (st k pre mid post).doc = pre ++ (mid ++ post) := rfl
@[simp] theorem st_pos : (st k pre mid post).pos = pre.length + mid.length := rfl
@[simp] theorem st_eaten : (st k pre mid post).eaten = pre.length := rfl
@[simp] theorem st_indent : (st k pre mid post).indent = k.indent := rfl
@[simp] theorem st_consumed : (st k pre mid post).consumed = k.consumed := rfl
@[simp] theorem st_versionChecked : (st k pre mid post).versionChecked = k.versionChecked := rfl
@[simp] theorem st_tag : (st k pre mid post).tag = k.tag := rfl
@[simp] theorem st_indicator :
    (st k pre mid post).indicator = k.consumed + (pre.length + mid.length) := rfl

theorem st_le : (st k pre mid post).pos ≤ (st k pre mid post).doc.length := by
  simp

theorem st_new (doc : Bytes) : Parser.new doc =
    st ⟨[0], 0, false, mapInsert b!"!!" tagPrefix (mapInsert b!"!" [] [])⟩ [] [] doc := by
  simp [Parser.new, st]

@[simp] theorem forward_st :
    forward (st k pre mid post) = (.ok (), st k (pre ++ mid) [] post) := by
  simp [forward, M.modify, st]

@[simp] theorem backward_st :
    backward (st k pre mid post) = (.ok (), st k pre [] (mid ++ post)) := by
  simp [backward, M.modify, st]

@[simp] theorem food_st : food (st k pre mid post) = (.ok post, st k pre mid post) := by
  simp only [food, st_le, if_true, st_rest]

@[simp] theorem text_st : text (st k pre mid post) = (.ok (lossy mid), st k pre mid post) := by
  simp only [text, st_le, if_true]
  split
  · have h : (st k pre mid post).doc.take (st k pre mid post).pos = pre ++ mid := by
      simp only [st_doc, st_pos, ← List.append_assoc]
      rw [show pre.length + mid.length = (pre ++ mid).length by simp, List.take_left]
    rw [h]; simp
  · rename_i h
    have : mid = [] := by
      simp at h
      exact h
    subst this
    rfl

theorem drop_takeWhile (f : UInt8 → Bool) (l : Bytes) :
    l.drop (l.takeWhile f).length = l.dropWhile f := by
  induction l with
  | nil => rfl
  | cons x xs ih =>
    simp only [List.takeWhile, List.dropWhile]
    cases f x <;> simp [ih]

theorem takeCount_more_eq (f : UInt8 → Bool) (lo : Nat) (l : Bytes) (j : Nat) :
    takeCount f (.more lo) l j = j + (l.takeWhile f).length := by
  induction l generalizing j with
  | nil => simp [takeCount]
  | cons x xs ih =>
    simp only [takeCount, List.takeWhile]
    cases h : f x
    · simp
    · simp [ih]; omega

theorem st_adv (n : Nat) (h : n ≤ post.length) :
    { st k pre mid post with pos := (st k pre mid post).pos + n } =
      st k pre (mid ++ post.take n) (post.drop n) := by
  simp only [st, List.length_append, List.length_take, Nat.min_eq_left h, List.append_assoc,
    List.take_append_drop, Nat.add_assoc]

theorem st_back : { st k pre mid post with pos := (st k pre mid post).eaten } =
    st k pre [] (mid ++ post) := by
  simp [st]

@[simp] theorem takeWhile_more0 (f : UInt8 → Bool) :
    takeWhile f (.more 0) (st k pre mid post) =
      (.ok (), st k pre (mid ++ post.takeWhile f) (post.dropWhile f)) := by
  have hadv := st_adv k pre mid post (post.takeWhile f).length
    (by exact (List.takeWhile_prefix f).length_le)
  have ht : post.take (post.takeWhile f).length = post.takeWhile f := by
    exact (List.prefix_iff_eq_take.1 (List.takeWhile_prefix f)).symm
  have hd : post.drop (post.takeWhile f).length = post.dropWhile f := by
    exact drop_takeWhile f post
  rw [ht, hd] at hadv
  simp only [takeWhile, st_le, if_true, st_rest, takeCount_more_eq, Nat.zero_add, TakeOpt.lo?]
  split
  · rename_i h0
    rw [← hadv, h0]; rfl
  · simp only [Nat.not_lt_zero, if_false]
    rw [← hadv]

theorem takeWhile_more1 (f : UInt8 → Bool) :
    takeWhile f (.more 1) (st k pre mid post) =
      if post.takeWhile f = [] then (.err .mismatch, st k pre [] (mid ++ post))
      else (.ok (), st k pre (mid ++ post.takeWhile f) (post.dropWhile f)) := by
  have hadv := st_adv k pre mid post (post.takeWhile f).length
    (by exact (List.takeWhile_prefix f).length_le)
  have ht : post.take (post.takeWhile f).length = post.takeWhile f := by
    exact (List.prefix_iff_eq_take.1 (List.takeWhile_prefix f)).symm
  have hd : post.drop (post.takeWhile f).length = post.dropWhile f := by
    exact drop_takeWhile f post
  rw [ht, hd] at hadv
  simp only [takeWhile, st_le, if_true, st_rest, takeCount_more_eq, Nat.zero_add, TakeOpt.lo?]
  by_cases h0 : post.takeWhile f = []
  · simp only [h0, List.length_nil, if_true]
    rw [← st_back]; simp
  · have h1 : (post.takeWhile f).length ≠ 0 := by simpa using h0
    have h2 : ¬ (post.takeWhile f).length < 1 := by omega
    simp only [h0, h1, h2, if_false]
    rw [← hadv]

theorem symSet_cons (l : Bytes) (x : UInt8) (r : Bytes) :
    symSet l (st k pre mid (x :: r)) =
      if l.contains x then (.ok (), st k pre (mid ++ [x]) r)
      else (.err .mismatch, st k pre [] (mid ++ x :: r)) := by
  have hadv := st_adv k pre mid (x :: r) 1 (by simp)
  simp only [symSet, takeWhile, st_le, if_true, st_rest, takeCount, isIn, notIn, Bool.not_not,
    TakeOpt.lo?]
  by_cases h : x ∈ l
  · simp [h]
    simpa using hadv
  · simp [h]
    rw [← st_back]; simp

@[simp] theorem symSet_nil (l : Bytes) :
    symSet l (st k pre mid []) = (.err .mismatch, st k pre [] mid) := by
  simp only [symSet, takeWhile, st_le, if_true, st_rest, takeCount, TakeOpt.lo?]
  simp
  have := st_back k pre mid []
  simpa using this

@[simp] theorem symSet_miss (l : Bytes) (x : UInt8) (r : Bytes) (h : x ∉ l) :
    symSet l (st k pre mid (x :: r)) = (.err .mismatch, st k pre [] (mid ++ x :: r)) := by
  rw [symSet_cons]; simp [h]

theorem symSet_hit (l : Bytes) (x : UInt8) (r : Bytes) (h : x ∈ l) :
    symSet l (st k pre mid (x :: r)) = (.ok (), st k pre (mid ++ [x]) r) := by
  rw [symSet_cons]; simp [h]

theorem sym_cons (c x : UInt8) (r : Bytes) :
    sym c (st k pre mid (x :: r)) =
      if x = c then (.ok (), st k pre (mid ++ [x]) r)
      else (.err .mismatch, st k pre [] (mid ++ x :: r)) := by
  rw [sym, symSet_cons]; simp

@[simp] theorem sym_nil (c : UInt8) :
    sym c (st k pre mid []) = (.err .mismatch, st k pre [] mid) := by
  rw [sym]; simp

@[simp] theorem sym_hit (c : UInt8) (r : Bytes) :
    sym c (st k pre mid (c :: r)) = (.ok (), st k pre (mid ++ [c]) r) := by
  rw [sym_cons]; simp

theorem sym_miss (c x : UInt8) (r : Bytes) (h : x ≠ c) :
    sym c (st k pre mid (x :: r)) = (.err .mismatch, st k pre [] (mid ++ x :: r)) := by
  rw [sym_cons]; simp [h]

/-! Monadic plumbing -/

section plumbing
variable {σ α β : Type}

theorem bind_run (x : M σ α) (f : α → M σ β) (s : σ) : (x >>= f) s = match x s with
    | (.ok a, s') => f a s'
    | (.err e, s') => (.err e, s')
    | (.panic p, s') => (.panic p, s')
    | (.diverge, s') => (.diverge, s') := rfl

theorem bind_ok {x : M σ α} {f : α → M σ β} {s s' : σ} {a : α} (h : x s = (.ok a, s')) :
    (x >>= f) s = f a s' := by rw [bind_run, h]

theorem bind_err {x : M σ α} {f : α → M σ β} {s s' : σ} {e : PErr} (h : x s = (.err e, s')) :
    (x >>= f) s = (.err e, s') := by rw [bind_run, h]

theorem bind_diverge {x : M σ α} {f : α → M σ β} {s s' : σ} (h : x s = (.diverge, s')) :
    (x >>= f) s = (.diverge, s') := by rw [bind_run, h]

theorem bind_panic {x : M σ α} {f : α → M σ β} {s s' : σ} {p : Panic} (h : x s = (.panic p, s')) :
    (x >>= f) s = (.panic p, s') := by rw [bind_run, h]

@[simp] theorem pure_run (a : α) (s : σ) : (pure a : M σ α) s = (.ok a, s) := rfl
@[simp] theorem get_run (s : σ) : (M.get : M σ σ) s = (.ok s, s) := rfl
@[simp] theorem modify_run (f : σ → σ) (s : σ) : (M.modify f : M σ Unit) s = (.ok (), f s) := rfl
@[simp] theorem throw_run (e : PErr) (s : σ) : (M.throw e : M σ α) s = (.err e, s) := rfl
@[simp] theorem mismatch_run (s : σ) : (M.mismatch : M σ α) s = (.err .mismatch, s) := rfl
@[simp] theorem panic_run (p : Panic) (s : σ) : (M.panic p : M σ α) s = (.panic p, s) := rfl
@[simp] theorem diverge_run (s : σ) : (M.diverge : M σ α) s = (.diverge, s) := rfl

theorem isOk_ok {x : M σ α} {s s' : σ} {a : α} (h : x s = (.ok a, s')) :
    M.isOk x s = (.ok true, s') := by simp [M.isOk, h]
theorem isOk_err {x : M σ α} {s s' : σ} {e : PErr} (h : x s = (.err e, s')) :
    M.isOk x s = (.ok false, s') := by simp [M.isOk, h]
theorem try_ok {x : M σ α} {s s' : σ} {a : α} (h : x s = (.ok a, s')) :
    M.try? x s = (.ok (some a), s') := by simp [M.try?, h]
theorem try_err {x : M σ α} {s s' : σ} {e : PErr} (h : x s = (.err e, s')) :
    M.try? x s = (.ok none, s') := by simp [M.try?, h]
theorem try_diverge {x : M σ α} {s s' : σ} (h : x s = (.diverge, s')) :
    M.try? x s = (.diverge, s') := by simp [M.try?, h]
theorem try_panic {x : M σ α} {s s' : σ} {p : Panic} (h : x s = (.panic p, s')) :
    M.try? x s = (.panic p, s') := by simp [M.try?, h]
theorem orDefault_ok {x : M σ α} {d : α} {s s' : σ} {a : α} (h : x s = (.ok a, s')) :
    M.orDefault d x s = (.ok a, s') := by simp [M.orDefault, h]
theorem orDefault_err {x : M σ α} {d : α} {s s' : σ} {e : PErr} (h : x s = (.err e, s')) :
    M.orDefault d x s = (.ok d, s') := by simp [M.orDefault, h]
theorem orElse_ok {x y : M σ α} {s s' : σ} {a : α} (h : x s = (.ok a, s')) :
    M.orElseMismatch x y s = (.ok a, s') := by simp [M.orElseMismatch, h]
theorem orElse_mismatch {x y : M σ α} {s s' : σ} (h : x s = (.err .mismatch, s')) :
    M.orElseMismatch x y s = y s' := by simp [M.orElseMismatch, h]

@[simp] theorem runIf_true (x : M σ Unit) : M.runIf true x = x := rfl
@[simp] theorem runIf_false (x : M σ Unit) : M.runIf false x = pure () := rfl

theorem ite_run {c : Prop} [Decidable c] (x y : M σ α) (s : σ) :
    (if c then x else y) s = if c then x s else y s := by split <;> rfl

end plumbing

theorem context_st {α : Type} {f : PM α} {k k' : Ctx} {pre mid post p' m' post' : Bytes} {o : Out α}
    (h : f (st k (pre ++ mid) [] post) = (o, st k' (pre ++ mid ++ p') m' post')) :
    context f (st k pre mid post) = (o, st k' pre (mid ++ (p' ++ m')) post') := by
  have : ({ st k pre mid post with eaten := (st k pre mid post).pos } : Parser)
      = st k (pre ++ mid) [] post := by simp [st]
  simp only [context, this, h]
  simp [st, Nat.add_assoc]

end YamlPeg
