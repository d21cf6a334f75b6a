import Verif.Proof.LoaderTop
import Verif.Proof.Eval
/-!
# A logic for termination

`Runs x s Q E`: started in `s`, the code `x` does not run out of fuel; if it
succeeds, `Q` holds of the result and the new state, if it fails, `E` holds of
the error and the new state.  Nothing is said after a panic.
-/

namespace YamlPeg
open M Frame

def Runs {σ α : Type} (x : M σ α) (s : σ) (Q : α → σ → Prop) (E : PErr → σ → Prop) : Prop :=
  match x s with
  | (.ok a, s') => Q a s'
  | (.err e, s') => E e s'
  | (.panic _, _) => True
  | (.diverge, _) => False

namespace Runs
variable {σ α β : Type} {s : σ}

theorem mono {x : M σ α} {Q Q' : α → σ → Prop} {E E' : PErr → σ → Prop} (h : Runs x s Q E)
    (hq : ∀ a s', Q a s' → Q' a s') (he : ∀ e s', E e s' → E' e s') : Runs x s Q' E' := by
  unfold Runs at *
  rcases hx : x s with ⟨r, s'⟩
  rw [hx] at h
  cases r with
  | ok a => exact hq _ _ h
  | err e => exact he _ _ h
  | panic p => trivial
  | diverge => exact h

theorem pure {a : α} {Q : α → σ → Prop} {E : PErr → σ → Prop} (h : Q a s) :
    Runs (Pure.pure a : M σ α) s Q E := h

theorem bind {x : M σ α} {f : α → M σ β} {Q : β → σ → Prop} {E : PErr → σ → Prop}
    (h : Runs x s (fun a s' => Runs (f a) s' Q E) E) : Runs (x >>= f) s Q E := by
  unfold Runs at h ⊢
  rw [bind_run]
  rcases hx : x s with ⟨r, s'⟩
  rw [hx] at h
  cases r <;> exact h

theorem isOk {x : M σ α} {Q : Bool → σ → Prop} {E : PErr → σ → Prop}
    (h : Runs x s (fun _ s' => Q true s') (fun _ s' => Q false s')) : Runs (M.isOk x) s Q E := by
  unfold Runs at h ⊢
  unfold M.isOk
  rcases hx : x s with ⟨r, s'⟩
  rw [hx] at h
  cases r <;> exact h

theorem try? {x : M σ α} {Q : Option α → σ → Prop} {E : PErr → σ → Prop}
    (h : Runs x s (fun a s' => Q (some a) s') (fun _ s' => Q none s')) : Runs (M.try? x) s Q E := by
  unfold Runs at h ⊢
  unfold M.try?
  rcases hx : x s with ⟨r, s'⟩
  rw [hx] at h
  cases r <;> exact h

theorem orDefault {x : M σ α} {d : α} {Q : α → σ → Prop} {E : PErr → σ → Prop}
    (h : Runs x s Q (fun _ s' => Q d s')) : Runs (M.orDefault d x) s Q E := by
  unfold Runs at h ⊢
  unfold M.orDefault
  rcases hx : x s with ⟨r, s'⟩
  rw [hx] at h
  cases r <;> exact h

theorem orElse {x y : M σ α} {Q : α → σ → Prop} {E : PErr → σ → Prop}
    (h : Runs x s Q (fun e s' => match e with
      | .mismatch => Runs y s' Q E
      | e => E e s')) : Runs (M.orElseMismatch x y) s Q E := by
  unfold Runs at h ⊢
  unfold M.orElseMismatch
  rcases hx : x s with ⟨r, s'⟩
  rw [hx] at h
  cases r with
  | err e => cases e <;> exact h
  | _ => exact h

theorem ite {c : Prop} [Decidable c] {x y : M σ α} {Q : α → σ → Prop} {E : PErr → σ → Prop}
    (hx : c → Runs x s Q E) (hy : ¬c → Runs y s Q E) : Runs (if c then x else y) s Q E := by
  split
  · exact hx ‹_›
  · exact hy ‹_›

theorem lift {x : PM α} {l : Loader} {Q : α → Loader → Prop} {E : PErr → Loader → Prop}
    (h : Runs x l.parser (fun a p => Q a { l with parser := p }) (fun e p => E e { l with parser := p })) :
    Runs (YamlPeg.lift x) l Q E := by
  unfold Runs at h ⊢
  unfold YamlPeg.lift
  rcases hx : x l.parser with ⟨r, p⟩
  rw [hx] at h
  cases r <;> exact h

theorem modify {f : σ → σ} {Q : Unit → σ → Prop} {E : PErr → σ → Prop} (h : Q () (f s)) :
    Runs (M.modify f) s Q E := h

theorem get {Q : σ → σ → Prop} {E : PErr → σ → Prop} (h : Q s s) : Runs M.get s Q E := h

theorem and {x : M σ α} {Q Q' : α → σ → Prop} {E E' : PErr → σ → Prop} (h : Runs x s Q E)
    (h' : Runs x s Q' E') : Runs x s (fun a t => Q a t ∧ Q' a t) (fun e t => E e t ∧ E' e t) := by
  unfold Runs at *
  rcases hx : x s with ⟨r, s'⟩
  rw [hx] at h h'
  cases r with
  | ok a => exact ⟨h, h'⟩
  | err e => exact ⟨h, h'⟩
  | panic p => trivial
  | diverge => exact h

end Runs

/-! ## Code that leaves the indentation table alone -/

/-- The indentation table is not changed. -/
def IK : Frame Parser where
  W _ := True
  R s s' := s'.indent = s.indent
  E _ _ := True
  X _ := True
  D := True
  refl _ _ := rfl
  trans _ _ _ h1 h2 := h2.trans h1

section
variable {α : Type}

/-- `x` leaves the indentation table alone. -/
def SameInd (x : PM α) : Prop := IK.Holds x (fun _ => True)

theorem sameInd_of {x : PM α} (h : ∀ s, (x s).2.indent = s.indent) : SameInd x := by
  intro s _
  refine ⟨trivial, h s, ?_⟩
  cases (x s).1 <;> trivial

theorem takeWhile_si {f : UInt8 → Bool} {o : TakeOpt} : SameInd (takeWhile f o) := by
  refine sameInd_of fun s => ?_
  simp only [takeWhile]
  split
  · split
    · split <;> rfl
    · split
      · split <;> rfl
      · rfl
  · rfl

theorem context_si {x : PM α} (h : SameInd x) : SameInd (context x) := by
  intro s _
  obtain ⟨-, h2, h3⟩ := h { s with eaten := s.pos } trivial
  exact ⟨trivial, h2, h3⟩

theorem text_si : SameInd text := by
  refine sameInd_of fun s => ?_
  simp only [text]
  split
  · split <;> rfl
  · rfl
theorem food_si : SameInd food := by
  refine sameInd_of fun s => ?_
  simp only [food]
  split <;> rfl
theorem back_si {n : Nat} : SameInd (back n) := by
  refine sameInd_of fun s => ?_
  simp only [back]
  split <;> rfl
theorem forward_si : SameInd forward := sameInd_of fun _ => rfl
theorem backward_si : SameInd backward := sameInd_of fun _ => rfl
theorem errAt_si {name : String} : SameInd (errAt name : PM α) := by
  refine sameInd_of fun s => ?_
  simp only [errAt]
  split <;> rfl
theorem mismatch_si : SameInd (mismatch : PM α) := sameInd_of fun _ => rfl
theorem diverge_si : SameInd (M.diverge : PM α) := sameInd_of fun _ => rfl
theorem sym_si {c : UInt8} : SameInd (sym c) := takeWhile_si
theorem symSet_si {l : Bytes} : SameInd (symSet l) := takeWhile_si
theorem pure_si {a : α} : SameInd (pure a : PM α) := Holds.pure trivial
theorem bind_si {β : Type} {x : PM α} {f : α → PM β} (h : SameInd x) (hf : ∀ a, SameInd (f a)) :
    SameInd (x >>= f) := Holds.bind h fun a _ => hf a
theorem ite_si {c : Prop} [Decidable c] {x y : PM α} (h : SameInd x) (h' : SameInd y) :
    SameInd (if c then x else y) := Holds.ite (fun _ => h) fun _ => h'
theorem isOk_si {x : PM α} (h : SameInd x) : SameInd (isOk x) := Holds.isOk h fun _ => trivial
theorem try_si {x : PM α} (h : SameInd x) : SameInd (try? x) :=
  Holds.try? (V := fun _ => True) h (fun _ _ => trivial) trivial
theorem orDefault_si {x : PM α} {d : α} (h : SameInd x) : SameInd (orDefault d x) :=
  Holds.orDefault h trivial
theorem runIf_si {c : Bool} {x : PM Unit} (h : SameInd x) : SameInd (runIf c x) := by
  cases c
  · exact pure_si
  · exact h
theorem symSeq_si {l : Bytes} : SameInd (symSeq l) := by
  induction l with
  | nil => exact pure_si
  | cons c r ih => exact bind_si sym_si fun _ => ih
theorem nl_si : SameInd nl := by
  refine context_si (bind_si (isOk_si symSeq_si) fun _ => ite_si pure_si ?_)
  refine bind_si (isOk_si symSeq_si) fun _ => ite_si pure_si ?_
  refine bind_si (isOk_si sym_si) fun _ => ite_si pure_si ?_
  exact bind_si (isOk_si sym_si) fun _ => ite_si pure_si mismatch_si
theorem comment_si : SameInd comment :=
  bind_si takeWhile_si fun _ => bind_si sym_si fun _ => takeWhile_si
theorem gapLoop_si {c : Bool} {n t : Nat} : SameInd (gapLoop c n t) := by
  induction n generalizing t with
  | zero => exact diverge_si
  | succ n ih =>
    refine bind_si forward_si fun _ => bind_si takeWhile_si fun _ => ?_
    refine bind_si (runIf_si (orDefault_si comment_si)) fun _ => ?_
    exact bind_si (isOk_si nl_si) fun _ => ite_si ih (bind_si backward_si fun _ => pure_si)
theorem get_si : SameInd (M.get : PM Parser) := sameInd_of fun _ => rfl
theorem gap_si {c : Bool} : SameInd (gap c) :=
  context_si (bind_si (runIf_si (orDefault_si comment_si)) fun _ => bind_si nl_si fun _ =>
    bind_si get_si fun _ => gapLoop_si)
theorem bound_si : SameInd bound := bind_si symSet_si fun _ => bind_si back_si fun _ => takeWhile_si
theorem complexMapping_si : SameInd complexMapping := bind_si sym_si fun _ => bound_si
theorem numPrefix_si : SameInd numPrefix := bind_si (orDefault_si sym_si) fun _ => takeWhile_si
theorem count_si {x : PM α} (h : SameInd x) : SameInd (count x) :=
  bind_si get_si fun _ => bind_si h fun _ => bind_si get_si fun _ =>
    ite_si pure_si (sameInd_of fun _ => rfl)
theorem floatTail_si : SameInd floatTail :=
  bind_si (count_si takeWhile_si) fun _ => bind_si (runIf_si back_si) fun _ => bound_si
theorem float_si : SameInd float :=
  bind_si numPrefix_si fun _ => bind_si sym_si fun _ => bind_si takeWhile_si fun _ =>
    bind_si text_si fun _ => bind_si floatTail_si fun _ => pure_si
theorem sciFloat_si : SameInd sciFloat :=
  bind_si numPrefix_si fun _ => bind_si symSet_si fun _ => bind_si takeWhile_si fun _ =>
    bind_si takeWhile_si fun _ => bind_si text_si fun _ => bind_si floatTail_si fun _ => pure_si
theorem int_si : SameInd int := by
  refine bind_si numPrefix_si fun _ => bind_si text_si fun _ => bind_si (ite_si ?_ pure_si) fun _ =>
    bind_si takeWhile_si fun _ => bind_si bound_si fun _ => pure_si
  refine bind_si (context_si ?_) fun _ => ite_si text_si pure_si
  exact bind_si (isOk_si (bind_si sym_si fun _ => takeWhile_si)) fun _ => ite_si pure_si
    (isOk_si (bind_si sym_si fun _ => takeWhile_si))
theorem identifier_si : SameInd identifier := bind_si takeWhile_si fun _ => takeWhile_si
theorem anchor_si : SameInd anchor :=
  bind_si sym_si fun _ => context_si (bind_si identifier_si fun _ => text_si)
theorem anchorUse_si : SameInd anchorUse :=
  bind_si sym_si fun _ => context_si (bind_si identifier_si fun _ => text_si)
theorem tagLookup_si {b : Bytes} : SameInd (tagLookup b) := by
  refine sameInd_of fun s => ?_
  simp only [tagLookup]
  split <;> rfl
theorem tag_si : SameInd tag := by
  refine bind_si sym_si fun _ => context_si (bind_si (orDefault_si identifier_si) fun _ =>
    bind_si text_si fun _ => bind_si ?_ fun _ => bind_si (context_si ?_) fun _ => pure_si)
  · refine ite_si (bind_si (isOk_si sym_si) fun _ => ite_si tagLookup_si pure_si) ?_
    refine bind_si (isOk_si sym_si) fun _ => ite_si ?_ ?_
    · exact bind_si (context_si (bind_si takeWhile_si fun _ => text_si)) fun _ =>
        bind_si sym_si fun _ => pure_si
    · exact bind_si (isOk_si sym_si) fun _ => ite_si tagLookup_si tagLookup_si
  · exact bind_si (isOk_si identifier_si) fun _ => ite_si text_si pure_si
theorem chomp_si : SameInd chomp :=
  context_si (bind_si (isOk_si sym_si) fun _ => ite_si pure_si
    (bind_si (isOk_si sym_si) fun _ => ite_si pure_si pure_si))
theorem plainStop_si : SameInd plainStop := by
  refine bind_si food_si fun _ => ite_si pure_si (bind_si (isOk_si symSeq_si) fun _ => ite_si pure_si ?_)
  refine bind_si (bind_si (isOk_si sym_si) fun _ => ite_si (isOk_si nl_si) pure_si) fun _ => ?_
  exact ite_si pure_si (isOk_si symSeq_si)
theorem directive_si : SameInd directive := by
  refine bind_si sym_si fun _ => bind_si (context_si ?_) fun _ => bind_si gap_si fun _ => pure_si
  refine bind_si (isOk_si symSeq_si) fun _ => ite_si ?_ (bind_si (isOk_si symSeq_si) fun _ => ite_si ?_ takeWhile_si)
  · refine bind_si takeWhile_si fun _ => bind_si get_si fun s => ite_si errAt_si ?_
    refine bind_si (context_si ?_) fun _ => ite_si (sameInd_of fun _ => rfl) errAt_si
    exact bind_si (isOk_si symSeq_si) fun _ => ite_si pure_si (isOk_si symSeq_si)
  · refine bind_si takeWhile_si fun _ => bind_si sym_si fun _ => context_si (bind_si ?_ fun _ =>
      bind_si takeWhile_si fun _ => bind_si (context_si (bind_si takeWhile_si fun _ => text_si)) fun _ =>
      sameInd_of fun _ => rfl)
    refine bind_si (isOk_si identifier_si) fun _ => ite_si
      (bind_si text_si fun _ => bind_si sym_si fun _ => pure_si) ?_
    exact bind_si (isOk_si sym_si) fun _ => ite_si pure_si pure_si

/-! ## The indentation table -/

/-- Entries below `L` are kept; new ones are 2. -/
def Keep (L : Nat) (t t' : List Nat) : Prop :=
  ∀ i, i < L → t'[i]? = t[i]? ∨ (t[i]? = none ∧ t'[i]? = some 2)

theorem Keep.refl (L : Nat) (t : List Nat) : Keep L t t := fun _ _ => .inl rfl
theorem Keep.trans {L : Nat} {a b c : List Nat} (h1 : Keep L a b) (h2 : Keep L b c) : Keep L a c := by
  intro i hi
  rcases h1 i hi with e1 | ⟨e1, e1'⟩ <;> rcases h2 i hi with e2 | ⟨e2, e2'⟩
  · exact .inl (e2.trans e1)
  · exact .inr ⟨e1 ▸ e2, e2'⟩
  · exact .inr ⟨e1, e2.trans e1'⟩
  · rw [e1'] at e2; simp at e2
theorem Keep.le {L L' : Nat} {a b : List Nat} (h : Keep L a b) (hl : L' ≤ L) : Keep L' a b :=
  fun i hi => h i (by omega)

theorem keep_indentFor (L : Nat) (t : List Nat) : Keep (L + 1) t (indentFor L t) := by
  intro i hi
  unfold indentFor
  split
  · by_cases h : i < t.length
    · left; rw [List.getElem?_append_left h]
    · right
      refine ⟨by rw [List.getElem?_eq_none]; omega, ?_⟩
      rw [List.getElem?_append_right (by omega), List.getElem?_replicate]
      simp; omega
  · left
    rw [List.getElem?_take_of_lt (by omega)]

/-- From level `L` on a continuation line must be indented. -/
def Deep (L : Nat) (t : List Nat) : Prop := t.length ≤ L ∨ 0 < (t.take (L + 1)).sum

theorem deep_of_len {L : Nat} {t : List Nat} (h : t.length ≤ L) : Deep L t := .inl h

theorem sum_pos_iff (t : List Nat) : 0 < t.sum ↔ ∃ v ∈ t, 0 < v := by
  induction t with
  | nil => simp
  | cons a r ih =>
    simp only [List.sum_cons, List.mem_cons, exists_eq_or_imp, ← ih]
    omega

theorem deep_iff {L : Nat} {t : List Nat} :
    Deep L t ↔ t.length ≤ L ∨ ∃ i v, i ≤ L ∧ t[i]? = some v ∧ 0 < v := by
  unfold Deep
  rw [sum_pos_iff]
  constructor
  · rintro (h | ⟨v, hv, hp⟩)
    · exact .inl h
    · obtain ⟨i, hi⟩ := List.getElem?_of_mem hv
      rw [List.getElem?_take] at hi
      split at hi
      · exact .inr ⟨i, v, by omega, hi, hp⟩
      · simp at hi
  · rintro (h | ⟨i, v, hi, hv, hp⟩)
    · exact .inl h
    · refine .inr ⟨v, List.mem_of_getElem? (i := i) ?_, hp⟩
      rw [List.getElem?_take, if_pos (by omega)]
      exact hv

theorem Deep.mono {L L' : Nat} {t : List Nat} (h : Deep L t) (hl : L ≤ L') : Deep L' t := by
  rw [deep_iff] at *
  rcases h with h | ⟨i, v, hi, hv, hp⟩
  · exact .inl (by omega)
  · exact .inr ⟨i, v, by omega, hv, hp⟩

theorem Deep.keep {L : Nat} {t t' : List Nat} (h : Deep L t) (hk : Keep (L + 1) t t') : Deep L t' := by
  rw [deep_iff] at *
  by_cases h' : t'.length ≤ L
  · exact .inl h'
  refine .inr ?_
  have hlt : L < t'.length := by omega
  rcases h with h | ⟨i, v, hi, hv, hp⟩
  · rcases hk L (by omega) with e | ⟨-, e⟩
    · rw [List.getElem?_eq_none (l := t) h, List.getElem?_eq_none_iff] at e
      omega
    · exact ⟨L, 2, by omega, e, by omega⟩
  · rcases hk i (by omega) with e | ⟨e, -⟩
    · exact ⟨i, v, hi, by rw [e, hv], hp⟩
    · rw [hv] at e; simp at e

/-- Then `ind` wants at least one space. -/
theorem Deep.want {L : Nat} {t : List Nat} (h : Deep L t) : 0 < (indentFor L t).sum := by
  have h' := h.keep (keep_indentFor L t)
  rcases h' with h' | h'
  · simp at h'; omega
  · rwa [List.take_of_length_le (by simp)] at h'

end
end YamlPeg
