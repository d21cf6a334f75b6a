import Verif.Proof.RunsL
import Verif.Proof.LoaderTop
/-!
# Which errors a parse can end with

Every `Terminate` error carries one of fifteen names, and a construct is blamed
only in a document that has the sign of that construct in it.
-/

namespace YamlPeg
open M Frame

/-- The names of the errors, each with the signs one of which the document must
contain (parser/mod.rs:10-46; the names of parser/mod.rs:173-474 and
directive.rs:24-26). -/
def ErrorFits (doc : Bytes) (name : String) : Prop :=
  name = "document splitter" ∨
  (name = "checked version" ∧ 0x25 ∈ doc) ∨
  (name = "invalid version" ∧ 0x25 ∈ doc) ∨
  (name = "duplicated anchor definition" ∧ 0x26 ∈ doc) ∨
  (name = "anchor referenced before definition" ∧ 0x2A ∈ doc) ∨
  (name = "flow sequence item" ∧ 0x5B ∈ doc) ∨
  (name = "flow map key" ∧ 0x7B ∈ doc) ∨
  (name = "flow map value" ∧ 0x7B ∈ doc) ∨
  (name = "flow map splitter" ∧ 0x7B ∈ doc) ∨
  (name = "sequence item" ∧ 0x2D ∈ doc) ∨
  (name = "sequence terminator" ∧ 0x2D ∈ doc) ∨
  (name = "map key" ∧ (0x3A ∈ doc ∨ 0x3F ∈ doc)) ∨
  (name = "map value" ∧ 0x3A ∈ doc) ∨
  (name = "map splitter" ∧ 0x3A ∈ doc) ∨
  (name = "map terminator" ∧ 0x3A ∈ doc)

def ErrFits (d : Bytes) : PErr → Prop
  | .mismatch => True
  | .terminate name _ => ErrorFits d name

/-- A parser on the document `d`, any panic. -/
def dc (d : Bytes) : PCfg := ⟨d, 0, True, fun _ => True, True⟩

/-- The parser: the document stays. -/
def NP (d : Bytes) : Frame Parser where
  W s := PWF (dc d) s
  R s s' := s.eaten ≤ s'.eaten
  E e _ := ErrFits d e
  X _ := True
  D := True
  refl _ _ := Nat.le_refl _
  trans _ _ _ := Nat.le_trans

/-- The loader: the document stays. -/
def NF (d : Bytes) : Frame Loader where
  W l := PWF (dc d) l.parser
  R _ _ := True
  E e _ := ErrFits d e
  X _ := True
  D := True
  refl _ _ := trivial
  trans _ _ _ _ _ := trivial

section
variable {d : Bytes} {α : Type}

theorem keep {x : PM α} {V : α → Prop} (h : (PK (dc d)).Holds x V) {s : Parser} (hs : PWF (dc d) s) :
    PWF (dc d) (x s).2 := (h s hs).1

/-- A method that fails with `Mismatch` only. -/
def Only (x : PM α) : Prop := ∀ s n m, (x s).1 ≠ .err (.terminate n m)

theorem Only.bind {β : Type} {x : PM α} {f : α → PM β} (hx : Only x) (hf : ∀ a, Only (f a)) : Only (x >>= f) := by
  intro s n m h
  rcases hr : x s with ⟨r, s'⟩
  cases r with
  | ok a => rw [bind_ok hr] at h; exact hf a s' n m h
  | err e =>
    rw [bind_err hr] at h
    simp only [Out.err.injEq] at h
    subst h
    exact hx s n m (by rw [hr])
  | panic p => rw [bind_panic hr] at h; simp at h
  | diverge => rw [bind_diverge hr] at h; simp at h

theorem Only.pure {a : α} : Only (pure a : PM α) := fun s n m => by simp
theorem Only.get : Only (M.get : PM Parser) := fun s n m => by simp
theorem Only.modify {f : Parser → Parser} : Only (M.modify f) := fun s n m => by simp
theorem Only.mismatch : Only (M.mismatch : PM α) := fun s n m => by simp [M.mismatch, M.throw]
theorem Only.diverge : Only (M.diverge : PM α) := fun s n m => by simp [M.diverge]
theorem Only.isOk {x : PM α} : Only (M.isOk x) := fun s n m => by unfold M.isOk; split <;> simp
theorem Only.orDefault {x : PM α} {a : α} : Only (M.orDefault a x) := fun s n m => by
  unfold M.orDefault; split <;> simp
theorem Only.context {x : PM α} (h : Only x) : Only (context x) := fun s n m => by
  simp only [YamlPeg.context]; exact h _ n m
theorem Only.runIf {b : Bool} {x : PM Unit} (h : Only x) : Only (M.runIf b x) := by
  cases b
  · exact Only.pure
  · exact h
theorem Only.ite {p : Prop} [Decidable p] {x y : PM α} (hx : Only x) (hy : Only y) : Only (if p then x else y) := by
  split
  · exact hx
  · exact hy
theorem Only.takeWhile {f : UInt8 → Bool} {opt : TakeOpt} : Only (takeWhile f opt) := fun s n m => by
  unfold YamlPeg.takeWhile; dsimp only; repeat' split
  all_goals simp
theorem Only.sym {x : UInt8} : Only (sym x) := Only.takeWhile
theorem Only.symTimes {x : UInt8} {n : Nat} : Only (symTimes x n) := by
  induction n with
  | zero => exact Only.pure
  | succ n ih => exact Only.bind Only.sym fun _ => ih
theorem Only.ind {level : Nat} : Only (ind level) :=
  Only.bind .modify fun _ => Only.bind .get fun _ => .symTimes
theorem Only.nl : Only nl := by
  refine Only.context (Only.bind .isOk fun _ => Only.ite .pure (Only.bind .isOk fun _ => Only.ite .pure
    (Only.bind .isOk fun _ => Only.ite .pure (Only.bind .isOk fun _ => Only.ite .pure .mismatch))))
theorem Only.gapLoop {cmt : Bool} {n t : Nat} : Only (gapLoop cmt n t) := by
  induction n generalizing t with
  | zero => exact .diverge
  | succ n ih =>
    exact Only.bind .modify fun _ => Only.bind .takeWhile fun _ => Only.bind (.runIf .orDefault) fun _ =>
      Only.bind .isOk fun _ => Only.ite ih (Only.bind .modify fun _ => .pure)
theorem Only.gap {cmt : Bool} : Only (gap cmt) :=
  Only.context (Only.bind (.runIf .orDefault) fun _ => Only.bind .nl fun _ => Only.bind .get fun _ => .gapLoop)
theorem Only.back {n : Nat} : Only (back n) := fun s a m => by unfold YamlPeg.back; split <;> simp
theorem Only.bound : Only bound := Only.bind .takeWhile fun _ => Only.bind .back fun _ => .takeWhile
theorem Only.indDefine {level : Nat} : Only (indDefine level) := by
  refine Only.bind (.runIf .ind) fun _ => Only.bind ?_ fun _ => Only.bind .get fun _ => Only.ite .modify
    (Only.ite .modify fun s a m => by simp [M.panic])
  exact Only.bind .get fun _ => Only.bind .takeWhile fun _ => Only.bind .get fun _ =>
    Only.ite .pure fun s a m => by simp [M.panic]
theorem Only.text : Only text := by
  intro s a m
  unfold YamlPeg.text
  repeat' split
  all_goals simp
theorem Only.food : Only food := fun s a m => by unfold YamlPeg.food; split <;> simp

theorem np {x : PM α} {V : α → Prop} (h : (PF (dc d)).Holds x V) (ho : Only x) : (NP d).Holds x V := by
  intro s hs
  obtain ⟨h1, h2, h3⟩ := h s hs
  refine ⟨h1, h2, ?_⟩
  revert h3
  cases hx : (x s).1 with
  | ok a => exact id
  | err e => cases e with
    | mismatch => exact fun _ => trivial
    | terminate n m => exact absurd hx (ho s n m)
  | panic p => exact fun _ => trivial
  | diverge => exact fun _ => trivial

theorem errAt_np {name : String} {V : α → Prop} (h : ErrorFits d name) : (NP d).Holds (errAt name : PM α) V := by
  intro s hs
  unfold errAt
  split
  · exact ⟨hs, Nat.le_refl _, h⟩
  · exact ⟨hs, Nat.le_refl _, trivial⟩

/-- A sign that was read is in the document. -/
theorem sym_mem {x : UInt8} {s s' : Parser} {u : Unit} (hs : PWF (dc d) s) (h : sym x s = (.ok u, s')) : x ∈ d := by
  have hr : s.rest.head? = some x := by
    unfold sym symSet takeWhile at h
    split at h
    · dsimp only at h
      cases hr : s.rest with
      | nil => rw [hr] at h; simp [takeCount, TakeOpt.lo?] at h
      | cons y r =>
        rw [hr] at h
        by_cases hy : y = x
        · rw [hy]; rfl
        · have : isIn [x] y = false := by simp [isIn, notIn, hy]
          simp [takeCount, this, TakeOpt.lo?] at h
    · simp at h
  have : x ∈ s.doc := List.mem_of_mem_drop (i := s.pos) (List.mem_of_head? hr)
  rwa [hs.doc] at this

theorem sym_np {x : UInt8} : (NP d).Holds (sym x) (fun _ => x ∈ d) := by
  intro s hs
  obtain ⟨h1, h2, h3⟩ := np (pk_pf (sym_pk (x := x))) .sym s hs
  refine ⟨h1, h2, ?_⟩
  rcases hr : sym x s with ⟨r, s'⟩
  rw [hr] at h3
  cases r with
  | ok a => exact sym_mem hs hr
  | err e => exact h3
  | panic p => exact h3
  | diverge => exact h3

theorem context_np {x : PM α} {V : α → Prop} (h : (NP d).Holds x V) : (NP d).Holds (context x) V := by
  intro s hs
  have hs : PWF (dc d) s := hs
  obtain ⟨h1, h2, h3⟩ := h { s with eaten := s.pos }
    ⟨hs.doc, hs.consumed, Nat.zero_le _, Nat.le_refl _, hs.pos, hs.indent, hs.tag1, hs.tag2⟩
  have h1 : PWF (dc d) _ := h1
  have h2 : s.pos ≤ _ := h2
  have he := h1.eaten
  have he' := hs.eaten
  refine ⟨⟨h1.doc, h1.consumed, hs.lo, ?_, h1.pos, h1.indent, h1.tag1, h1.tag2⟩, Nat.le_refl _, ?_⟩
  · show s.eaten ≤ (x { s with eaten := s.pos }).2.pos
    omega
  · simp only [context]
    revert h3
    cases (x { s with eaten := s.pos }).1 <;> exact id

theorem symThen_np {x : UInt8} {f : PM α} {V : α → Prop} (h : (NP d).Holds f V) :
    (NP d).Holds (do sym x; f) (fun _ => x ∈ d) :=
  Holds.bind sym_np fun _ hm => h.mono fun _ _ => hm

theorem lift_nf {x : PM α} {V : α → Prop} (h : (NP d).Holds x V) : (NF d).Holds (lift x) V := by
  intro l hl
  obtain ⟨h1, _, h3⟩ := h l.parser hl
  simp only [lift]
  rcases hx : x l.parser with ⟨r, p⟩
  rw [hx] at h1 h3
  exact ⟨h1, trivial, by cases r <;> exact h3⟩

theorem try_nf {x : PM α} {V : α → Prop} (h : (PK (dc d)).Holds x V) :
    (NF d).Holds (try? (lift x)) (fun _ => True) := by
  intro l hl
  have := keep h (s := l.parser) hl
  simp only [M.try?, lift]
  rcases hx : x l.parser with ⟨r, p⟩
  rw [hx] at this
  cases r <;> exact ⟨this, trivial, trivial⟩

theorem isOk_nf {x : PM α} {V : α → Prop} (h : (PK (dc d)).Holds x V) :
    (NF d).Holds (isOk (lift x)) (fun _ => True) := by
  intro l hl
  have := keep h (s := l.parser) hl
  simp only [M.isOk, lift]
  rcases hx : x l.parser with ⟨r, p⟩
  rw [hx] at this
  cases r <;> exact ⟨this, trivial, trivial⟩

theorem isOkIf_nf {x : PM α} {p : Prop} (h : (NP d).Holds x (fun _ => p)) :
    (NF d).Holds (isOk (lift x)) (fun b => b = true → p) := by
  intro l hl
  obtain ⟨h1, _, h3⟩ := h l.parser hl
  simp only [M.isOk, lift]
  rcases hx : x l.parser with ⟨r, s'⟩
  rw [hx] at h1 h3
  cases r with
  | ok a => exact ⟨h1, trivial, fun _ => h3⟩
  | err e => exact ⟨h1, trivial, fun h => by simp at h⟩
  | panic q => exact ⟨h1, trivial, trivial⟩
  | diverge => exact ⟨h1, trivial, trivial⟩

theorem orDefault_nf {x : PM α} {V : α → Prop} {a : α} (h : (PK (dc d)).Holds x V) :
    (NF d).Holds (lift (orDefault a x)) (fun _ => True) := by
  intro l hl
  have := keep h (s := l.parser) hl
  simp only [M.orDefault, lift]
  rcases hx : x l.parser with ⟨r, p⟩
  rw [hx] at this
  cases r <;> exact ⟨this, trivial, trivial⟩

theorem lerr_nf {name : String} {V : α → Prop} (h : ErrorFits d name) : (NF d).Holds (lerr name : LM α) V :=
  lift_nf (errAt_np h)

theorem orErr_nf {x : LM α} {name : String} {V : α → Prop} (h : (NF d).Holds x V) (hn : ErrorFits d name) :
    (NF d).Holds (orErr x name) V := Holds.orElseMismatch h (lerr_nf hn)

theorem runIf_nf {b : Bool} {x : LM Unit} (h : (NF d).Holds x (fun _ => True)) :
    (NF d).Holds (runIf b x) (fun _ => True) := by
  cases b
  · exact Holds.pure trivial
  · exact h

theorem forward_nf : (NF d).Holds (lift forward) (fun _ => True) := lift_nf (np forward_pf .modify)
theorem backward_nf : (NF d).Holds (lift backward) (fun _ => True) := lift_nf (np (pk_pf backward_pk) .modify)
theorem sym_nf {x : UInt8} : (NF d).Holds (lift (sym x)) (fun _ => x ∈ d) := lift_nf sym_np
theorem bound_nf : (NF d).Holds (lift bound) (fun _ => True) := lift_nf (np (pk_pf bound_pk) .bound)
theorem inv_nf : (NF d).Holds (lift (inv (.more 0))) (fun _ => True) :=
  lift_nf (np (pk_pf inv_pk) .takeWhile)
theorem ind_nf {level : Nat} : (NF d).Holds (lift (ind level)) (fun _ => True) :=
  lift_nf (np (pk_pf ind_pk) .ind)
theorem gap_nf : (NF d).Holds (lift (gap true)) (fun _ => True) := lift_nf (np (pk_pf gap_pk) .gap)
theorem indDefine_nf {level : Nat} : (NF d).Holds (lift (indDefine level)) (fun _ => True) :=
  lift_nf (np (pk_pf indDefine_pk) .indDefine)

theorem docEnd_nf : (NF d).Holds docEnd (fun _ => True) := by
  refine lift_nf (np (V := fun _ => True) (pk_pf ?_) ?_)
  · refine Frame.Holds.bind food_pk fun _ _ => Frame.Holds.ite (fun _ => Frame.Holds.pure trivial)
      fun _ => context_pk (pk_pf ?_)
    refine Frame.Holds.bind (V := fun _ => True) ?_ fun _ _ =>
      Frame.Holds.bind (runIf_pk backward_pk) fun _ _ => Frame.Holds.pure trivial
    exact Frame.Holds.bind (isOk_pk symSeq_pk) fun _ _ => Frame.Holds.ite
      (fun _ => Frame.Holds.pure trivial) fun _ => isOk_pk symSeq_pk
  refine Only.bind .food fun _ => Only.ite .pure (Only.context (Only.bind ?_ fun _ => Only.bind (.runIf .modify)
    fun _ => .pure))
  exact Only.bind .isOk fun _ => Only.ite .pure .isOk

theorem collectMap_nf {m : List (Node × Node)} : (NF d).Holds (collectMap m) (fun _ => True) := by
  intro l hl
  unfold collectMap
  split
  · exact ⟨hl, trivial, trivial⟩
  · rename_i e he
    refine ⟨hl, trivial, ?_⟩
    have := entriesCollect_settled l.hash [] m
    rw [he] at this
    exact this.elim
  · exact ⟨hl, trivial, trivial⟩
  · exact ⟨hl, trivial, trivial⟩

theorem curAnchors_nf : (NF d).Holds curAnchors (fun _ => True) := by
  intro l hl
  unfold curAnchors
  split <;> exact ⟨hl, trivial, trivial⟩

theorem anchorInsert_nf {a : Bytes} {n : Node} : (NF d).Holds (anchorInsert a n) (fun _ => True) :=
  Holds.bind curAnchors_nf fun _ _ => Holds.bind (V := fun _ => True)
    (Holds.modify (fun _ hs => hs) (fun _ _ => trivial) trivial) fun _ _ => Holds.pure trivial

theorem anchorOr_nf : (NF d).Holds (lift (orDefault [] anchor)) (fun a => a.isEmpty = false → 0x26 ∈ d) := by
  have h : (NP d).Holds anchor (fun _ => 0x26 ∈ d) := symThen_np (np (V := fun _ => True)
    (pk_pf (context_pk (pk_pf (Holds.bind identifier_pk fun _ _ => text_pk))))
    (Only.context (Only.bind (Only.bind .takeWhile fun _ => .takeWhile) fun _ => .text)))
  refine lift_nf (Holds.orDefault (h.mono fun _ hm _ => hm) ?_)
  intro h; simp at h

/-- One of the names, with what it needs. -/
macro "fits" : tactic => `(tactic| (unfold ErrorFits; simp_all))

theorem nodeProps_nf : (NF d).Holds nodeProps (fun r => r.1.isEmpty = false → 0x26 ∈ d) := by
  refine Holds.bind anchorOr_nf fun a ha => ?_
  refine Holds.bind (runIf_nf bound_nf) fun _ _ => ?_
  refine Holds.bind forward_nf fun _ _ => ?_
  refine Holds.bind (orDefault_nf (tag_pk trivial)) fun t _ => ?_
  refine Holds.bind (runIf_nf bound_nf) fun _ _ => ?_
  refine Holds.bind forward_nf fun _ _ => ?_
  refine Holds.bind anchorOr_nf fun a2 h2 => ?_
  refine Holds.bind (V := fun a => a.isEmpty = false → 0x26 ∈ d) ?_
    fun _ h => Holds.bind forward_nf fun _ _ => Holds.pure h
  refine Holds.ite (fun hn => Holds.ite (fun _ => ?_) fun _ => ?_) fun _ => Holds.pure ha
  · exact Holds.bind bound_nf fun _ _ => Holds.pure h2
  · have : 0x26 ∈ d := h2 (by simpa using hn)
    exact lerr_nf (by fits)

theorem scalarNode_nf {f : LM Yaml} (h : (NF d).Holds f (fun _ => True)) :
    (NF d).Holds (scalarNode f) (fun _ => True) := by
  refine Holds.bind nodeProps_nf fun r hr => ?_
  obtain ⟨a, t⟩ := r
  refine Holds.bind (V := fun _ => True) (Holds.get fun _ _ => trivial) fun _ _ => ?_
  refine Holds.bind h fun _ _ => Holds.bind forward_nf fun _ _ => ?_
  refine Holds.ite (fun ha => ?_) fun _ => Holds.pure trivial
  have : 0x26 ∈ d := hr (by simpa using ha)
  exact Holds.bind anchorInsert_nf fun _ _ => Holds.ite (fun _ => lerr_nf (by fits)) fun _ => Holds.pure trivial

theorem useAlias_nf {s : Bytes} (h : 0x2A ∈ d) : (NF d).Holds (useAlias s) (fun _ => True) := by
  refine Holds.bind (V := fun _ => True) (Holds.get fun _ _ => trivial) fun l _ => ?_
  refine Holds.ite (fun _ => Holds.pure trivial) fun _ => Holds.bind curAnchors_nf fun A _ => ?_
  split
  · exact Holds.pure trivial
  · exact lerr_nf (by fits)

theorem tryAlias_nf : (NF d).Holds (try? (lift anchorUse)) (fun o => ∀ a, o = some a → 0x2A ∈ d) := by
  have h : (NP d).Holds anchorUse (fun _ => 0x2A ∈ d) := symThen_np (np (V := fun _ => True)
    (pk_pf (context_pk (pk_pf (Holds.bind identifier_pk fun _ _ => text_pk))))
    (Only.context (Only.bind (Only.bind .takeWhile fun _ => .takeWhile) fun _ => .text)))
  exact Holds.try? (lift_nf h) (fun _ hm _ _ => hm) (by simp)

theorem scalarAtom_nf {n level : Nat} {flow : Bool} : (NF d).Holds (scalarAtom n level flow) (fun _ => True) := by
  refine Holds.bind (try_nf float_pk) fun o _ => ?_
  split
  · exact Holds.pure trivial
  refine Holds.bind (try_nf sciFloat_pk) fun o _ => ?_
  split
  · exact Holds.pure trivial
  refine Holds.bind (try_nf int_pk) fun o _ => ?_
  split
  · exact Holds.pure trivial
  refine Holds.bind tryAlias_nf fun o ho => ?_
  split
  · exact Holds.bind (useAlias_nf (ho _ rfl)) fun _ _ => Holds.pure trivial
  refine Holds.bind (try_nf (stringQuoted_pk trivial)) fun o _ => ?_
  split
  · exact Holds.pure trivial
  refine Holds.bind (try_nf (stringQuoted_pk trivial)) fun o _ => ?_
  split
  · exact Holds.pure trivial
  refine Holds.bind (try_nf (stringPlain_pk trivial)) fun o _ => ?_
  split
  · exact Holds.pure trivial
  · exact Holds.pure trivial

/-- The recursive call keeps to the names. -/
def ScFits (d : Bytes) (sc : ScalarCall) : Prop := ∀ level map flow, (NF d).Holds (sc level map flow) (fun _ => True)

theorem seqFlowLoop_nf {sc : ScalarCall} (hsc : ScFits d sc) (h : 0x5B ∈ d) {level n : Nat} {v : List Node} :
    (NF d).Holds (seqFlowLoop sc level n v) (fun _ => True) := by
  induction n generalizing v with
  | zero => exact Holds.diverge trivial
  | succ n ih =>
    refine Holds.bind inv_nf fun _ _ => Holds.bind forward_nf fun _ _ => Holds.bind (isOk_nf sym_pk) fun _ _ => ?_
    refine Holds.ite (fun _ => Holds.pure trivial) fun _ => Holds.bind forward_nf fun _ _ => ?_
    refine Holds.bind (orErr_nf (hsc _ _ _) (by fits)) fun x _ => ?_
    refine Holds.bind inv_nf fun _ _ => Holds.bind (isOk_nf sym_pk) fun _ _ => Holds.ite (fun _ => ih) fun _ => ?_
    exact Holds.bind inv_nf fun _ _ => Holds.bind sym_nf fun _ _ => Holds.pure trivial

theorem seqFlow_nf {sc : ScalarCall} (hsc : ScFits d sc) {level n : Nat} :
    (NF d).Holds (seqFlow sc n level) (fun _ => True) :=
  Holds.bind sym_nf fun _ h => Holds.bind (seqFlowLoop_nf hsc h) fun _ _ =>
    Holds.bind forward_nf fun _ _ => Holds.pure trivial

theorem gapThenInd_nf {level : Nat} : (NF d).Holds (gapThenInd level) (fun _ => True) :=
  Holds.bind (isOk_nf gap_pk) fun _ _ => Holds.ite (fun _ => ind_nf) fun _ => Holds.pure trivial

theorem complexKey_nf {sc : ScalarCall} (hsc : ScFits d sc) {level : Nat} {map flow : Bool} {name : String}
    (h : ErrorFits d name) : (NF d).Holds (complexKey sc level map flow name) (fun _ => True) :=
  Holds.bind forward_nf fun _ _ => Holds.bind (orErr_nf (hsc _ _ _) h) fun _ _ =>
    Holds.bind gapThenInd_nf fun _ _ => Holds.pure trivial

theorem mapFlowLoop_nf {sc : ScalarCall} (hsc : ScFits d sc) {sf : LM Node} (hsf : (NF d).Holds sf (fun _ => True))
    (h : 0x7B ∈ d) {level n : Nat} {m : List (Node × Node)} :
    (NF d).Holds (mapFlowLoop sc sf level n m) (fun _ => True) := by
  induction n generalizing m with
  | zero => exact Holds.diverge trivial
  | succ n ih =>
    refine Holds.bind inv_nf fun _ _ => Holds.bind forward_nf fun _ _ => Holds.bind (isOk_nf sym_pk) fun _ _ => ?_
    refine Holds.ite (fun _ => Holds.pure trivial) fun _ => Holds.bind forward_nf fun _ _ => ?_
    refine Holds.bind (V := fun _ => True) ?_ fun k _ => ?_
    · refine Holds.bind (isOk_nf complexMapping_pk) fun _ _ => Holds.ite (fun _ => complexKey_nf hsc (by fits)) fun _ => ?_
      exact orErr_nf hsf (by fits)
    refine Holds.bind (isOk_nf sym_pk) fun _ _ => Holds.ite (fun _ => ?_) fun _ => lerr_nf (by fits)
    refine Holds.bind (V := fun _ => True) (lift_nf (np (pk_pf (context_pk (pk_pf (Holds.orDefault bound_pk trivial))))
      (.context .orDefault))) fun _ _ => ?_
    refine Holds.bind forward_nf fun _ _ => Holds.bind (orErr_nf (hsc _ _ _) (by fits)) fun _ _ => ?_
    refine Holds.bind (isOk_nf sym_pk) fun _ _ => Holds.ite (fun _ => ih) fun _ => ?_
    exact Holds.bind inv_nf fun _ _ => Holds.bind sym_nf fun _ _ => Holds.pure trivial

theorem scalarTerm_nf {sc : ScalarCall} (hsc : ScFits d sc) {n k level : Nat} {flow : Bool} :
    (NF d).Holds (scalarTerm sc n k level flow) (fun _ => True) := by
  induction k generalizing level flow with
  | zero => exact Holds.diverge trivial
  | succ k ih =>
    refine Holds.bind scalarAtom_nf fun o _ => ?_
    split
    · exact Holds.pure trivial
    refine Holds.orElseMismatch (Holds.orElseMismatch (seqFlow_nf hsc) ?_) (Holds.pure trivial)
    exact Holds.bind sym_nf fun _ h => Holds.bind (mapFlowLoop_nf hsc (scalarNode_nf ih) h) fun _ _ =>
      Holds.bind forward_nf fun _ _ => collectMap_nf

theorem firstItem_nf {level : Nat} {map : Bool} : (NF d).Holds (firstItem level map) (fun _ => True) :=
  Holds.ite (fun _ => Holds.bind gap_nf fun _ _ => indDefine_nf) fun _ => gapThenInd_nf

theorem nextItem_nf {level : Nat} {name : String} (h : ErrorFits d name) :
    (NF d).Holds (nextItem level name) (fun _ => True) := by
  refine Holds.bind (isOk_nf gap_pk) fun _ _ => Holds.bind (V := fun _ => True) ?_ fun _ _ => ?_
  · exact Holds.ite (fun _ => Holds.pure trivial) fun _ => Holds.bind docEnd_nf fun _ _ => Holds.pure trivial
  · refine Holds.ite (fun _ => lerr_nf h) fun _ => Holds.bind docEnd_nf fun _ _ =>
      Holds.ite (fun _ => Holds.pure trivial) fun _ => ?_
    exact Holds.bind (isOk_nf ind_pk) fun _ _ => Holds.pure trivial

theorem seqLoop_nf {sc : ScalarCall} (hsc : ScFits d sc) {level : Nat} {map : Bool} {n : Nat} {v : List Node}
    (hv : v.isEmpty = false → 0x2D ∈ d) : (NF d).Holds (seqLoop sc level map n v) (fun _ => True) := by
  induction n generalizing v with
  | zero => exact Holds.diverge trivial
  | succ n ih =>
    refine Holds.bind forward_nf fun _ _ => ?_
    refine Holds.bind (V := fun _ => 0x2D ∈ d) ?_ fun stop h => ?_
    · refine Holds.ite (fun _ => ?_) fun hn => ?_
      · exact Holds.bind firstItem_nf fun _ _ => Holds.bind sym_nf fun _ h => Holds.bind bound_nf fun _ _ =>
          Holds.pure h
      · have h : 0x2D ∈ d := hv (by simpa using hn)
        refine Holds.bind (nextItem_nf (by fits)) fun _ _ => Holds.ite (fun _ => Holds.pure h) fun _ => ?_
        refine Holds.bind (isOk_nf sym_pk) fun _ _ => Holds.ite (fun _ => ?_) fun _ => Holds.pure h
        exact Holds.bind (isOk_nf bound_pk) fun _ _ => Holds.ite
          (fun _ => Holds.bind forward_nf fun _ _ => Holds.pure h) fun _ => Holds.pure h
    · refine Holds.ite (fun _ => Holds.pure trivial) fun _ => Holds.bind forward_nf fun _ _ => ?_
      exact Holds.bind (orErr_nf (hsc _ _ _) (by fits)) fun _ _ => ih fun _ => h

theorem seq_nf {sc : ScalarCall} (hsc : ScFits d sc) {n level : Nat} {map : Bool} :
    (NF d).Holds (seq sc n level map) (fun _ => True) :=
  Holds.bind (seqLoop_nf hsc (by simp)) fun _ _ => Holds.bind backward_nf fun _ _ => Holds.pure trivial

theorem colonBound_nf : (NF d).Holds colonBound (fun b => b = true → 0x3A ∈ d) := by
  refine Holds.bind (isOkIf_nf sym_np) fun b hb => Holds.ite (fun h => ?_) fun _ => Holds.pure (by simp)
  exact (isOk_nf bound_pk).mono fun _ _ _ => hb h

def StepFits (d : Bytes) : MapStep → Prop
  | .key _ => 0x3A ∈ d
  | _ => True

theorem mapStep_nf {sc : ScalarCall} (hsc : ScFits d sc) {sf : LM Node} (hsf : (NF d).Holds sf (fun _ => True))
    {level : Nat} {map flow first : Bool} (hf : first = false → 0x3A ∈ d) :
    (NF d).Holds (mapStep sc sf level map flow first) (StepFits d) := by
  have hq : (NF d).Holds (isOk (lift complexMapping)) (fun b => b = true → 0x3F ∈ d) :=
    isOkIf_nf (symThen_np (np (pk_pf bound_pk) .bound))
  refine Holds.bind forward_nf fun _ _ => Holds.ite (fun _ => ?_) fun hn => ?_
  · refine Holds.bind firstItem_nf fun _ _ => Holds.bind forward_nf fun _ _ => ?_
    refine Holds.bind (V := fun _ => True) ?_ fun k _ => ?_
    · refine Holds.bind hq fun b hb => Holds.ite (fun h => ?_) fun _ => hsf
      have := hb h
      exact complexKey_nf hsc (by fits)
    · exact Holds.bind colonBound_nf fun b hb => Holds.ite (fun h => Holds.pure (hb h)) fun _ => Holds.pure trivial
  · have h : 0x3A ∈ d := hf (by simpa using hn)
    refine Holds.bind (nextItem_nf (by fits)) fun _ _ => Holds.ite (fun _ => Holds.pure trivial) fun _ => ?_
    refine Holds.bind forward_nf fun _ _ => Holds.bind (V := fun _ => True) ?_ fun k _ => ?_
    · exact Holds.bind hq fun b hb => Holds.ite (fun _ => complexKey_nf hsc (by fits)) fun _ => orErr_nf hsf (by fits)
    · exact Holds.bind colonBound_nf fun b hb => Holds.ite (fun h => Holds.pure (hb h)) fun _ => lerr_nf (by fits)

theorem mapLoop_nf {sc : ScalarCall} (hsc : ScFits d sc) {sf : LM Node} (hsf : (NF d).Holds sf (fun _ => True))
    {level n : Nat} {map flow : Bool} {m : List (Node × Node)} (hm : m.isEmpty = false → 0x3A ∈ d) :
    (NF d).Holds (mapLoop sc sf level map flow n m) (fun _ => True) := by
  induction n generalizing m with
  | zero => exact Holds.diverge trivial
  | succ n ih =>
    refine Holds.bind (mapStep_nf hsc hsf hm) fun st hst => ?_
    cases st with
    | alone y => exact Holds.pure trivial
    | stop => exact Holds.bind backward_nf fun _ _ => collectMap_nf
    | key k =>
      have h : 0x3A ∈ d := hst
      exact Holds.bind forward_nf fun _ _ => Holds.bind (orErr_nf (hsc _ _ _) (by fits)) fun _ _ => ih fun _ => h

theorem scalarBody_nf {sc : ScalarCall} (hsc : ScFits d sc) {n level : Nat} {map flow : Bool} :
    (NF d).Holds (scalarBody sc n level map flow) (fun _ => True) := by
  refine Holds.bind (try_nf stringLiteral_pk) fun o _ => ?_
  split
  · exact Holds.pure trivial
  refine Holds.bind (try_nf stringFolded_pk) fun o _ => ?_
  split
  · exact Holds.pure trivial
  exact Holds.orElseMismatch (Holds.orElseMismatch (seq_nf hsc)
    (mapLoop_nf hsc (scalarNode_nf (scalarTerm_nf hsc)) (by simp))) (scalarTerm_nf hsc)

theorem scalar_nf (n : Nat) : ScFits d (scalar n) := by
  induction n with
  | zero => exact fun _ _ _ => Holds.diverge trivial
  | succ n ih => exact fun _ _ _ => scalarNode_nf (scalarBody_nf ih)

theorem doc_nf {n : Nat} : (NF d).Holds (doc n) (fun _ => True) := by
  refine Holds.bind (V := fun _ => True) (lift_nf (np (pk_pf (context_pk (pk_pf (Holds.orDefault bound_pk trivial))))
      (.context .orDefault))) fun _ _ => ?_
  refine Holds.bind forward_nf fun _ _ => ?_
  refine Holds.bind (V := fun _ => True) (Holds.modify (fun _ hs => hs) (fun _ _ => trivial) trivial) fun _ _ => ?_
  refine Holds.bind (scalar_nf n _ _ _) fun _ _ => Holds.bind (orDefault_nf gap_pk) fun _ _ => ?_
  refine Holds.bind (orDefault_nf symSeq_pk) fun _ _ => Holds.bind forward_nf fun _ _ => ?_
  exact Holds.bind (V := fun _ => True) (Holds.modify (fun _ hs => hs) (fun _ _ => trivial) trivial)
    fun _ _ => Holds.pure trivial

theorem directive_np : (NP d).Holds directive (fun _ => True) := by
  refine Holds.bind sym_np fun _ hp => ?_
  refine Holds.bind (V := fun _ => True) (context_np ?_) fun _ _ =>
    Holds.bind (np (V := fun _ => True) (pk_pf gap_pk) .gap) fun _ _ => Holds.pure trivial
  have ok : ∀ {x : PM Unit}, (PK (dc d)).Holds x (fun _ => True) → (NP d).Holds (isOk x) (fun _ => True) :=
    fun h => np (pk_pf (isOk_pk h)) .isOk
  refine Holds.bind (ok symSeq_pk) fun _ _ => Holds.ite (fun _ => ?_) fun _ => ?_
  · refine Holds.bind (np (V := fun _ => True) (pk_pf ws_pk) .takeWhile) fun _ _ => ?_
    refine Holds.bind (V := fun _ => True) (Holds.get fun _ _ => trivial) fun s _ => ?_
    refine Holds.ite (fun _ => errAt_np (by fits)) fun _ => ?_
    refine Holds.bind (V := fun _ => True) (context_np ?_) fun _ _ => Holds.ite (fun _ => ?_) fun _ => errAt_np (by fits)
    · exact Holds.bind (ok symSeq_pk) fun _ _ => Holds.ite (fun _ => Holds.pure trivial) fun _ => ok symSeq_pk
    · refine Holds.modify (fun s hs => ?_) (fun _ _ => Nat.le_refl _) trivial
      have hs : PWF (dc d) s := hs
      exact ⟨hs.doc, hs.consumed, hs.lo, hs.eaten, hs.pos, hs.indent, hs.tag1, hs.tag2⟩
  · refine Holds.bind (ok symSeq_pk) fun _ _ => Holds.ite (fun _ => ?_) fun _ => ?_
    · refine np (pk_pf directiveTag_pk) ?_
      refine Only.bind .takeWhile fun _ => Only.bind .sym fun _ => Only.context ?_
      refine Only.bind ?_ fun _ => Only.bind .takeWhile fun _ => Only.bind (.context (Only.bind .takeWhile fun _ => .text))
        fun _ => .modify
      exact Only.bind .isOk fun _ => Only.ite (Only.bind .text fun _ => Only.bind .sym fun _ => .pure)
        (Only.bind .isOk fun _ => Only.ite .pure .pure)
    · exact np (pk_pf takeWhile_pk) .takeWhile

theorem directives_nf (n : Nat) : (NF d).Holds (directives n) (fun _ => True) := by
  induction n with
  | zero => exact Holds.diverge trivial
  | succ n ih =>
    intro l hl
    obtain ⟨h1, h2, h3⟩ := lift_nf (context_np directive_np) l hl
    simp only [directives]
    rcases hx : lift (context directive) l with ⟨r, l'⟩
    rw [hx] at h1 h3
    cases r with
    | ok a => cases a; exact ih l' h1
    | err e => cases e with
      | mismatch => exact ⟨h1, trivial, trivial⟩
      | terminate n m => exact ⟨h1, trivial, h3⟩
    | panic p => exact ⟨h1, trivial, trivial⟩
    | diverge => exact ⟨h1, trivial, trivial⟩

theorem docsLoop_nf {n m : Nat} {v : List Node} : (NF d).Holds (docsLoop n m v) (fun _ => True) := by
  induction m generalizing v with
  | zero => exact Holds.diverge trivial
  | succ m ih =>
    refine Holds.bind (orDefault_nf gap_pk) fun _ _ => ?_
    refine Holds.bind (V := fun _ => True) (lift_nf (np (pk_pf food_pk) .food)) fun _ _ => ?_
    refine Holds.ite (fun _ => Holds.pure trivial) fun _ => Holds.bind (isOk_nf symSeq_pk) fun _ _ => ?_
    exact Holds.ite (fun _ => Holds.bind doc_nf fun _ _ => ih) fun _ => lerr_nf (by fits)

theorem loaderParse_nf {n : Nat} : (NF d).Holds (loaderParse n) (fun _ => True) :=
  Holds.bind (directives_nf n) fun _ _ => Holds.bind (orDefault_nf gap_pk) fun _ _ =>
    Holds.bind (orDefault_nf symSeq_pk) fun _ _ => Holds.bind doc_nf fun _ _ => docsLoop_nf

/-- The error of a parse. -/
theorem loaderParse_fits {c : LCfg} {n : Nat} {name : String} {m : Bytes}
    (h : (loaderParse n (startLoader c)).1 = .err (.terminate name m)) : ErrorFits c.doc name := by
  have hw : PWF c.p (startLoader c).parser := start_l0.parser
  obtain ⟨-, -, h3⟩ := loaderParse_nf (d := c.doc) (n := n) (startLoader c)
    ⟨hw.doc, hw.consumed, hw.lo, hw.eaten, hw.pos, hw.indent, hw.tag1, hw.tag2⟩
  rw [h] at h3
  exact h3

end
end YamlPeg
