import Verif.Model.Basic
/-!
# A small program logic for `M σ`

A `Frame` fixes what has to hold before and after every piece of code: an
invariant `W` on states, a preorder `R` between the state before and after, and
which errors, panics and running out of fuel are allowed.  `F.Holds x V` says
that `x` respects the frame and that values it returns satisfy `V`.
-/

namespace YamlPeg

structure Frame (σ : Type) where
  W : σ → Prop
  R : σ → σ → Prop
  E : PErr → σ → Prop
  X : Panic → Prop
  D : Prop
  refl : ∀ s, W s → R s s
  trans : ∀ a b c, R a b → R b c → R a c

namespace Frame
variable {σ α β : Type} (F : Frame σ)

/-- The allowed outcomes. -/
def OutOk (V : α → Prop) (s : σ) : Out α → Prop
  | .ok a => V a
  | .err e => F.E e s
  | .panic p => F.X p
  | .diverge => F.D

def Holds (x : M σ α) (V : α → Prop) : Prop :=
  ∀ s, F.W s → F.W (x s).2 ∧ F.R s (x s).2 ∧ F.OutOk V (x s).2 (x s).1

variable {F}

theorem Holds.mono {x : M σ α} {V V' : α → Prop} (h : F.Holds x V) (hv : ∀ a, V a → V' a) :
    F.Holds x V' := by
  intro s hs
  obtain ⟨h1, h2, h3⟩ := h s hs
  refine ⟨h1, h2, ?_⟩
  revert h3
  cases (x s).1 with
  | ok a => exact hv a
  | err e => exact id
  | panic p => exact id
  | diverge => exact id

theorem Holds.pure {a : α} {V : α → Prop} (h : V a) : F.Holds (pure a : M σ α) V :=
  fun s hs => ⟨hs, F.refl s hs, h⟩

theorem Holds.bind {x : M σ α} {f : α → M σ β} {V : α → Prop} {V' : β → Prop}
    (hx : F.Holds x V) (hf : ∀ a, V a → F.Holds (f a) V') : F.Holds (x >>= f) V' := by
  intro s hs
  have hb : (x >>= f) s = match x s with
    | (.ok a, s') => f a s'
    | (.err e, s') => (.err e, s')
    | (.panic p, s') => (.panic p, s')
    | (.diverge, s') => (.diverge, s') := rfl
  rw [hb]
  obtain ⟨h1, h2, h3⟩ := hx s hs
  rcases hxs : x s with ⟨r, s'⟩
  rw [hxs] at h1 h2 h3
  cases r with
  | ok a =>
    obtain ⟨g1, g2, g3⟩ := hf a h3 s' h1
    exact ⟨g1, F.trans _ _ _ h2 g2, g3⟩
  | err e => exact ⟨h1, h2, h3⟩
  | panic p => exact ⟨h1, h2, h3⟩
  | diverge => exact ⟨h1, h2, h3⟩

/-- Case split on the outcome of a sub-computation. -/
theorem Holds.cases {x : M σ α} {V : α → Prop} (hx : F.Holds x V) (s : σ) (hs : F.W s) :
    F.W (x s).2 ∧ F.R s (x s).2 ∧ F.OutOk V (x s).2 (x s).1 := hx s hs

theorem Holds.get {V : σ → Prop} (h : ∀ s, F.W s → V s) : F.Holds (M.get : M σ σ) V :=
  fun s hs => ⟨hs, F.refl s hs, h s hs⟩

theorem Holds.modify {f : σ → σ} {V : Unit → Prop} (hW : ∀ s, F.W s → F.W (f s))
    (hR : ∀ s, F.W s → F.R s (f s)) (hV : V ()) : F.Holds (M.modify f : M σ Unit) V :=
  fun s hs => ⟨hW s hs, hR s hs, hV⟩

theorem Holds.throw {e : PErr} {V : α → Prop} (h : ∀ s, F.W s → F.E e s) : F.Holds (M.throw e : M σ α) V :=
  fun s hs => ⟨hs, F.refl s hs, h s hs⟩

theorem Holds.mismatch {V : α → Prop} (h : ∀ s, F.W s → F.E .mismatch s) : F.Holds (M.mismatch : M σ α) V :=
  Holds.throw h

theorem Holds.panic {p : Panic} {V : α → Prop} (h : F.X p) : F.Holds (M.panic p : M σ α) V :=
  fun s hs => ⟨hs, F.refl s hs, h⟩

theorem Holds.diverge {V : α → Prop} (h : F.D) : F.Holds (M.diverge : M σ α) V :=
  fun s hs => ⟨hs, F.refl s hs, h⟩

theorem Holds.try? {x : M σ α} {V : α → Prop} {V' : Option α → Prop} (hx : F.Holds x V)
    (hs : ∀ a, V a → V' (some a)) (hn : V' none) : F.Holds (M.try? x) V' := by
  intro s h
  obtain ⟨h1, h2, h3⟩ := hx s h
  simp only [M.try?]
  rcases hxs : x s with ⟨r, s'⟩
  rw [hxs] at h1 h2 h3
  cases r with
  | ok a => exact ⟨h1, h2, hs a h3⟩
  | err e => exact ⟨h1, h2, hn⟩
  | panic p => exact ⟨h1, h2, h3⟩
  | diverge => exact ⟨h1, h2, h3⟩

theorem Holds.isOk {x : M σ α} {V : α → Prop} {V' : Bool → Prop} (hx : F.Holds x V)
    (h : ∀ b, V' b) : F.Holds (M.isOk x) V' := by
  intro s hs
  obtain ⟨h1, h2, h3⟩ := hx s hs
  simp only [M.isOk]
  rcases hxs : x s with ⟨r, s'⟩
  rw [hxs] at h1 h2 h3
  cases r with
  | ok a => exact ⟨h1, h2, h _⟩
  | err e => exact ⟨h1, h2, h _⟩
  | panic p => exact ⟨h1, h2, h3⟩
  | diverge => exact ⟨h1, h2, h3⟩

theorem Holds.orDefault {x : M σ α} {d : α} {V : α → Prop} (hx : F.Holds x V) (hd : V d) :
    F.Holds (M.orDefault d x) V := by
  intro s hs
  obtain ⟨h1, h2, h3⟩ := hx s hs
  simp only [M.orDefault]
  rcases hxs : x s with ⟨r, s'⟩
  rw [hxs] at h1 h2 h3
  cases r with
  | ok a => exact ⟨h1, h2, h3⟩
  | err e => exact ⟨h1, h2, hd⟩
  | panic p => exact ⟨h1, h2, h3⟩
  | diverge => exact ⟨h1, h2, h3⟩

theorem Holds.orElseMismatch {x y : M σ α} {V : α → Prop} (hx : F.Holds x V)
    (hy : F.Holds y V) : F.Holds (M.orElseMismatch x y) V := by
  intro s hs
  obtain ⟨h1, h2, h3⟩ := hx s hs
  simp only [M.orElseMismatch]
  rcases hxs : x s with ⟨r, s'⟩
  rw [hxs] at h1 h2 h3
  cases r with
  | ok a => exact ⟨h1, h2, h3⟩
  | err e =>
    cases e with
    | mismatch =>
      obtain ⟨g1, g2, g3⟩ := hy s' h1
      exact ⟨g1, F.trans _ _ _ h2 g2, g3⟩
    | terminate n m => exact ⟨h1, h2, h3⟩
  | panic p => exact ⟨h1, h2, h3⟩
  | diverge => exact ⟨h1, h2, h3⟩

theorem Holds.ite {c : Prop} [Decidable c] {x y : M σ α} {V : α → Prop} (hx : c → F.Holds x V)
    (hy : ¬c → F.Holds y V) : F.Holds (if c then x else y) V := by
  split
  · exact hx ‹_›
  · exact hy ‹_›

end Frame
end YamlPeg
