import Verif.Proof.NumText
import Verif.Model.Loader
/-!
# A program logic for the loader

Like `Frame`, but nothing is required of the state after a `Terminate` error, a
panic or running out of fuel: these always end the whole parse.
-/

namespace YamlPeg
open M Frame

structure LFrame (σ : Type) where
  W : σ → Prop
  R : σ → σ → Prop
  /-- what is known of the state after a mismatch -/
  Em : σ → Prop
  T : Bytes → Prop
  X : Panic → Prop
  D : Prop
  refl : ∀ s, W s → R s s
  trans : ∀ a b c, R a b → R b c → R a c

namespace LFrame
variable {σ α β : Type} (F : LFrame σ)

/-- The allowed outcomes when started in `s`. -/
def Good (V : α → Prop) (s : σ) (r : Out α × σ) : Prop :=
  match r.1 with
  | .ok a => F.W r.2 ∧ F.R s r.2 ∧ V a
  | .err .mismatch => F.W r.2 ∧ F.R s r.2 ∧ F.Em r.2
  | .err (.terminate _ m) => F.T m
  | .panic p => F.X p
  | .diverge => F.D

def Holds (x : M σ α) (V : α → Prop) : Prop := ∀ s, F.W s → F.Good V s (x s)

variable {F}

theorem Good.trans {V : α → Prop} {s s' : σ} {r : Out α × σ} (h : F.R s s') (g : F.Good V s' r) :
    F.Good V s r := by
  unfold Good at *
  split at g
  · exact ⟨g.1, F.trans _ _ _ h g.2.1, g.2.2⟩
  · exact ⟨g.1, F.trans _ _ _ h g.2.1, g.2.2⟩
  · exact g
  · exact g
  · exact g

theorem Good.mono {V V' : α → Prop} {s : σ} {r : Out α × σ} (g : F.Good V s r)
    (h : ∀ a, V a → V' a) : F.Good V' s r := by
  unfold Good at *
  split at g
  · exact ⟨g.1, g.2.1, h _ g.2.2⟩
  · exact g
  · exact g
  · exact g
  · exact g

/-- Sequencing, pointwise: the continuation is only considered on the state
actually reached. -/
theorem Good.bind {x : M σ α} {f : α → M σ β} {V : α → Prop} {V' : β → Prop} {s : σ}
    (hx : F.Good V s (x s))
    (hf : ∀ a s', x s = (.ok a, s') → F.W s' → F.R s s' → V a → F.Good V' s' (f a s')) :
    F.Good V' s ((x >>= f) s) := by
  rcases hr : x s with ⟨r, s'⟩
  rw [hr] at hx
  cases r with
  | ok a =>
    rw [bind_ok hr]
    obtain ⟨h1, h2, h3⟩ := hx
    exact Good.trans h2 (hf a s' hr h1 h2 h3)
  | err e =>
    rw [bind_err hr]
    cases e with
    | mismatch => exact hx
    | terminate n m => exact hx
  | panic p => rw [bind_panic hr]; exact hx
  | diverge => rw [bind_diverge hr]; exact hx

theorem Good.orElse {x y : M σ α} {V : α → Prop} {s : σ} (hx : F.Good V s (x s))
    (hy : ∀ s', x s = (.err .mismatch, s') → F.W s' → F.R s s' → F.Em s' → F.Good V s' (y s')) :
    F.Good V s (orElseMismatch x y s) := by
  rcases hr : x s with ⟨r, s'⟩
  rw [hr] at hx
  unfold orElseMismatch
  rw [hr]
  cases r with
  | ok a => exact hx
  | err e =>
    cases e with
    | mismatch => exact Good.trans hx.2.1 (hy s' hr hx.1 hx.2.1 hx.2.2)
    | terminate n m => exact hx
  | panic p => exact hx
  | diverge => exact hx

theorem Holds.mono {x : M σ α} {V V' : α → Prop} (h : F.Holds x V) (hv : ∀ a, V a → V' a) :
    F.Holds x V' := fun s hs => (h s hs).mono hv

theorem Holds.pure {a : α} {V : α → Prop} (h : V a) : F.Holds (pure a : M σ α) V :=
  fun s hs => ⟨hs, F.refl s hs, h⟩

theorem Holds.bind {x : M σ α} {f : α → M σ β} {V : α → Prop} {V' : β → Prop}
    (hx : F.Holds x V) (hf : ∀ a, V a → F.Holds (f a) V') : F.Holds (x >>= f) V' :=
  fun s hs => Good.bind (hx s hs) fun a s' _ h1 _ h3 => hf a h3 s' h1

theorem Holds.get {V : σ → Prop} (h : ∀ s, F.W s → V s) : F.Holds (M.get : M σ σ) V :=
  fun s hs => ⟨hs, F.refl s hs, h s hs⟩

theorem Holds.modify {f : σ → σ} {V : Unit → Prop} (hW : ∀ s, F.W s → F.W (f s))
    (hR : ∀ s, F.W s → F.R s (f s)) (hV : V ()) : F.Holds (M.modify f : M σ Unit) V :=
  fun s hs => ⟨hW s hs, hR s hs, hV⟩

theorem Holds.diverge {V : α → Prop} (h : F.D) : F.Holds (M.diverge : M σ α) V := fun _ _ => h

theorem Holds.panic {p : Panic} {V : α → Prop} (h : F.X p) : F.Holds (M.panic p : M σ α) V :=
  fun _ _ => h

theorem Holds.orElse {x y : M σ α} {V : α → Prop} (hx : F.Holds x V) (hy : F.Holds y V) :
    F.Holds (orElseMismatch x y) V :=
  fun s hs => Good.orElse (hx s hs) fun s' _ h1 _ _ => hy s' h1

theorem Holds.ite {c : Prop} [Decidable c] {x y : M σ α} {V : α → Prop} (hx : c → F.Holds x V)
    (hy : ¬c → F.Holds y V) : F.Holds (if c then x else y) V := by
  split
  · exact hx ‹_›
  · exact hy ‹_›

theorem Holds.runIf {b : Bool} {x : M σ Unit} {V : Unit → Prop} (h : b = true → F.Holds x V) (hV : V ()) :
    F.Holds (M.runIf b x) V := by
  cases b
  · exact Holds.pure hV
  · exact h rfl

end LFrame

/-! ## Where the cursor is after a mismatch -/

/-- After an error the cursor is back on the mark. -/
def Returns {α : Type} (x : PM α) : Prop :=
  ∀ s e, (x s).1 = .err e → (x s).2.pos = (x s).2.eaten

/-- Never fails. -/
def Total {α : Type} (x : PM α) : Prop := ∀ s e, (x s).1 ≠ .err e

section
variable {α β : Type}

theorem Total.returns {x : PM α} (h : Total x) : Returns x := fun s e hs => absurd hs (h s e)

theorem Returns.pure {a : α} : Returns (pure a : PM α) := fun s e h => by simp [pure_run] at h

theorem Returns.bind {x : PM α} {f : α → PM β} (hx : Returns x) (hf : ∀ a, Returns (f a)) :
    Returns (x >>= f) := by
  intro s e0 h
  rcases hr : x s with ⟨r, s'⟩
  cases r with
  | ok a => rw [bind_ok hr] at h ⊢; exact hf a s' e0 h
  | err e =>
    have := hx s
    rw [hr] at this
    rw [bind_err hr] at h ⊢
    exact this e0 (by simpa using h)
  | panic p => rw [bind_panic hr] at h; simp at h
  | diverge => rw [bind_diverge hr] at h; simp at h

theorem takeWhile_returns {f : UInt8 → Bool} {opt : TakeOpt} : Returns (takeWhile f opt) := by
  intro s e0 h
  simp only [takeWhile] at h ⊢
  split at h
  · split at h
    · split at h
      · simp at h
      · simp [*]
    · split at h
      · split at h
        · simp [*]
        · simp at h
      · simp at h
  · simp at h

theorem sym_returns {x : UInt8} : Returns (sym x) := takeWhile_returns
theorem symSet_returns {l : Bytes} : Returns (symSet l) := takeWhile_returns

theorem text_total : Total text := by
  intro s e0; simp only [text]; split
  · split <;> simp
  · simp
theorem back_total {n : Nat} : Total (back n) := by
  intro s e0; simp only [back]; split <;> simp
theorem food_total : Total food := by
  intro s e0; simp only [food]; split <;> simp
theorem forward_total : Total forward := by intro s e0; simp [forward]
theorem backward_total : Total backward := by intro s e0; simp [backward]
theorem isOk_total {x : PM α} : Total (isOk x) := by
  intro s e0; simp only [isOk]; rcases x s with ⟨r, s'⟩; cases r <;> simp
theorem try_total {x : PM α} : Total (try? x) := by
  intro s e0; simp only [try?]; rcases x s with ⟨r, s'⟩; cases r <;> simp
theorem orDefault_total {x : PM α} {d : α} : Total (orDefault d x) := by
  intro s e0; simp only [orDefault]; rcases x s with ⟨r, s'⟩; cases r <;> simp
theorem Total.bind {x : PM α} {f : α → PM β} (hx : Total x) (hf : ∀ a, Total (f a)) :
    Total (x >>= f) := by
  intro s e0
  rcases hr : x s with ⟨r, s'⟩
  cases r with
  | ok a => rw [bind_ok hr]; exact hf a s' e0
  | err e => have := hx s e0; rw [hr] at this; rw [bind_err hr]; simpa using this
  | panic p => rw [bind_panic hr]; simp
  | diverge => rw [bind_diverge hr]; simp
theorem Total.pure {a : α} : Total (pure a : PM α) := fun s _ => by simp [pure_run]
theorem Total.context {x : PM α} (h : Total x) : Total (context x) := fun s => h _
theorem takeWhile_total {f : UInt8 → Bool} : Total (takeWhile f (.more 0)) := by
  intro s e0
  simp only [takeWhile]
  split
  · split
    · simp [TakeOpt.lo?]
    · simp [TakeOpt.lo?]
  · simp
theorem Total.ite {c : Prop} [Decidable c] {x y : PM α} (hx : Total x) (hy : Total y) :
    Total (if c then x else y) := by split <;> assumption
theorem Total.runIf {b : Bool} {x : PM Unit} (hx : Total x) : Total (runIf b x) := by
  cases b
  · exact Total.pure
  · exact hx
theorem Returns.ite {c : Prop} [Decidable c] {x y : PM α} (hx : Returns x) (hy : Returns y) :
    Returns (if c then x else y) := by split <;> assumption
theorem Returns.runIf {b : Bool} {x : PM Unit} (hx : Returns x) : Returns (runIf b x) := by
  cases b
  · exact Returns.pure
  · exact hx

theorem get_total : Total (M.get : PM Parser) := fun s _ => by simp
theorem modify_total {f : Parser → Parser} : Total (M.modify f) := fun s _ => by simp
theorem panic_total {p : Panic} : Total (M.panic p : PM α) := fun s _ => by simp

theorem bound_returns : Returns bound :=
  Returns.bind symSet_returns fun _ => Returns.bind back_total.returns fun _ => takeWhile_returns
theorem symTimes_returns {c : UInt8} {n : Nat} : Returns (symTimes c n) := by
  induction n with
  | zero => exact Returns.pure
  | succ n ih => exact Returns.bind sym_returns fun _ => ih
theorem ind_returns {level : Nat} : Returns (ind level) :=
  Returns.bind modify_total.returns fun _ => Returns.bind get_total.returns fun _ => symTimes_returns
theorem count_returns {x : PM α} (h : Returns x) : Returns (count x) :=
  Returns.bind get_total.returns fun _ => Returns.bind h fun _ => Returns.bind get_total.returns
    fun _ => Returns.ite Returns.pure panic_total.returns
theorem indDefine_returns {level : Nat} : Returns (indDefine level) :=
  Returns.bind (Returns.runIf ind_returns) fun _ => Returns.bind (count_returns takeWhile_returns)
    fun _ => Returns.bind get_total.returns fun _ => Returns.ite modify_total.returns
      (Returns.ite modify_total.returns panic_total.returns)
theorem numPrefix_returns : Returns numPrefix :=
  Returns.bind orDefault_total.returns fun _ => takeWhile_returns
theorem floatTail_returns : Returns floatTail :=
  Returns.bind (count_returns takeWhile_returns) fun _ =>
    Returns.bind (Returns.runIf back_total.returns) fun _ => bound_returns
theorem float_returns : Returns float :=
  Returns.bind numPrefix_returns fun _ => Returns.bind sym_returns fun _ =>
    Returns.bind takeWhile_returns fun _ => Returns.bind text_total.returns fun _ =>
      Returns.bind floatTail_returns fun _ => Returns.pure
theorem sciFloat_returns : Returns sciFloat :=
  Returns.bind numPrefix_returns fun _ => Returns.bind symSet_returns fun _ =>
    Returns.bind takeWhile_returns fun _ => Returns.bind takeWhile_returns fun _ =>
      Returns.bind text_total.returns fun _ => Returns.bind floatTail_returns fun _ => Returns.pure
theorem int_returns : Returns int := by
  refine Returns.bind numPrefix_returns fun _ => Returns.bind text_total.returns fun _ => ?_
  refine Returns.bind (Total.returns ?_) fun _ => Returns.bind takeWhile_returns fun _ =>
    Returns.bind bound_returns fun _ => Returns.pure
  refine Total.ite (Total.bind (Total.context ?_) fun _ => Total.ite text_total Total.pure) Total.pure
  exact Total.bind isOk_total fun _ => Total.ite Total.pure isOk_total

end
end YamlPeg
