import Verif.Model.Grammar
import Verif.Proof.Frame
import Verif.Proof.IndicatorSpec
/-!
# Safety of the base parser

Every grammar method keeps the cursor inside the document, keeps the mark, and
only raises the allowed errors and panics.
-/

namespace YamlPeg
open M Frame

/-- Parameters of the parser frame: the document, a lower bound of the mark, whether `consumed` must be 0
(`strict`), which panics are allowed, whether running out of fuel is allowed. -/
structure PCfg where
  doc : Bytes
  lo : Nat
  strict : Prop
  X : Panic → Prop
  div : Prop

/-- The invariant of the base parser. -/
structure PWF (c : PCfg) (s : Parser) : Prop where
  doc : s.doc = c.doc
  consumed : c.strict → s.consumed = 0
  lo : c.lo ≤ s.eaten
  eaten : s.eaten ≤ s.pos
  pos : s.pos ≤ c.doc.length
  indent : s.indent ≠ []
  tag1 : (mapGet b!"!" s.tag).isSome
  tag2 : (mapGet b!"!!" s.tag).isSome

/-- Allowed errors: `Mismatch`, or a message made for a position of the
document. -/
def PErrOk (doc : Bytes) : PErr → Prop
  | .mismatch => True
  | .terminate _ m => ∃ p, p ≤ doc.length ∧ indicatedMsg doc p = some m

/-- The parser frame; `le` relates the mark before and after. -/
def pframe (c : PCfg) (le : Nat → Nat → Prop) (hr : ∀ a, le a a)
    (ht : ∀ a b d, le a b → le b d → le a d) : Frame Parser where
  W := PWF c
  R s s' := le s.eaten s'.eaten
  E := fun e _ => PErrOk c.doc e
  X := c.X
  D := c.div
  refl _ _ := hr _
  trans _ _ _ := ht _ _ _

/-- The frame of code that may move the mark forward. -/
def PF (c : PCfg) : Frame Parser := pframe c (· ≤ ·) Nat.le_refl (fun _ _ _ => Nat.le_trans)

/-- The frame of code that leaves the mark alone. -/
def PK (c : PCfg) : Frame Parser :=
  pframe c (fun a b => b = a) (fun _ => rfl) (fun _ _ _ h1 h2 => h2.trans h1)

section
variable {c : PCfg} {α : Type}

theorem pk_pf {x : PM α} {V : α → Prop} (h : (PK c).Holds x V) : (PF c).Holds x V := by
  intro s hs
  obtain ⟨h1, h2, h3⟩ := h s hs
  refine ⟨h1, ?_, h3⟩
  have : (x s).2.eaten = s.eaten := h2
  show s.eaten ≤ (x s).2.eaten
  omega

/-- `context` keeps the mark, whatever its body does to it. -/
theorem context_pk {x : PM α} {V : α → Prop} (h : (PF c).Holds x V) :
    (PK c).Holds (context x) V := by
  intro s hs
  have hs' : PWF c { s with eaten := s.pos } :=
    ⟨hs.doc, hs.consumed, Nat.le_trans hs.lo hs.eaten, Nat.le_refl _, hs.pos, hs.indent, hs.tag1, hs.tag2⟩
  obtain ⟨h1, h2, h3⟩ := h _ hs'
  have h1 : PWF c _ := h1
  have h2 : s.pos ≤ (x { s with eaten := s.pos }).2.eaten := h2
  have he := h1.eaten
  have he' := hs.eaten
  refine ⟨⟨h1.doc, h1.consumed, hs.lo, ?_, h1.pos, h1.indent, h1.tag1, h1.tag2⟩, rfl, h3⟩
  show s.eaten ≤ (x { s with eaten := s.pos }).2.pos
  omega

theorem forward_pf : (PF c).Holds forward (fun _ => True) :=
  Holds.modify (fun _ hs => ⟨hs.doc, hs.consumed, Nat.le_trans hs.lo hs.eaten, Nat.le_refl _, hs.pos,
    hs.indent, hs.tag1, hs.tag2⟩)
    (fun _ hs => hs.eaten) trivial

theorem backward_pk : (PK c).Holds backward (fun _ => True) :=
  Holds.modify (fun _ hs => ⟨hs.doc, hs.consumed, hs.lo, Nat.le_refl _, Nat.le_trans hs.eaten hs.pos,
    hs.indent, hs.tag1, hs.tag2⟩) (fun _ _ => rfl) trivial

theorem food_pk : (PK c).Holds food (fun _ => True) := by
  intro s hs
  have : s.pos ≤ s.doc.length := by rw [hs.doc]; exact hs.pos
  simp only [food, this, if_true]
  exact ⟨hs, rfl, trivial⟩

theorem text_pk : (PK c).Holds text (fun _ => True) := by
  intro s hs
  have : s.pos ≤ s.doc.length := by rw [hs.doc]; exact hs.pos
  simp only [text, this, if_true]
  split <;> exact ⟨hs, rfl, trivial⟩

theorem errAt_pk {name : String} {V : α → Prop} (hX : c.strict ∨ c.X .unreachable) :
    (PK c).Holds (errAt name : PM α) V := by
  intro s hs
  simp only [errAt]
  have hd := hs.doc
  cases hm : indicatedMsg s.doc s.indicator with
  | some m =>
    refine ⟨hs, rfl, s.indicator, ?_, ?_⟩
    · rw [← hd]
      exact (indicatedMsg_isSome _ _).1 (by simp [hm])
    · rw [← hd]; exact hm
  | none =>
    refine ⟨hs, rfl, ?_⟩
    rcases hX with h | h
    · exfalso
      have h0 := hs.consumed h
      have : (indicatedMsg s.doc s.indicator).isSome := by
        rw [indicatedMsg_isSome, Parser.indicator, h0, hd]
        have := hs.pos; omega
      simp [hm] at this
    · exact h

theorem takeCount_le (f : UInt8 → Bool) (opt : TakeOpt) (l : Bytes) (k : Nat) :
    takeCount f opt l k ≤ k + l.length := by
  induction l generalizing k with
  | nil => simp [takeCount]
  | cons x xs ih =>
    simp only [takeCount]
    have := ih (k + 1)
    simp only [List.length_cons]
    split
    · split
      · omega
      · split <;> omega
      · omega
    · omega

theorem le_takeCount (f : UInt8 → Bool) (opt : TakeOpt) (l : Bytes) (k : Nat) :
    k ≤ takeCount f opt l k := by
  induction l generalizing k with
  | nil => simp [takeCount]
  | cons x xs ih =>
    simp only [takeCount]
    have := ih (k + 1)
    split
    · split
      · omega
      · split <;> omega
      · omega
    · omega

theorem takeWhile_pk {f : UInt8 → Bool} {opt : TakeOpt} :
    (PK c).Holds (takeWhile f opt) (fun _ => True) := by
  intro s hs
  have hp : s.pos ≤ s.doc.length := by rw [hs.doc]; exact hs.pos
  have hn := takeCount_le f opt s.rest 0
  have hl : s.rest.length = s.doc.length - s.pos := by simp [Parser.rest]
  have hb : PWF c { s with pos := s.eaten } :=
    ⟨hs.doc, hs.consumed, hs.lo, Nat.le_refl _, Nat.le_trans hs.eaten hs.pos, hs.indent, hs.tag1, hs.tag2⟩
  have hf : ∀ n, n = takeCount f opt s.rest 0 → PWF c { s with pos := s.pos + n } := by
    intro n hn'
    refine ⟨hs.doc, hs.consumed, hs.lo, Nat.le_trans hs.eaten (Nat.le_add_right _ _), ?_, hs.indent,
      hs.tag1, hs.tag2⟩
    rw [← hs.doc]; show s.pos + n ≤ _; omega
  simp only [takeWhile, hp, if_true]
  split
  · split
    · exact ⟨hs, rfl, trivial⟩
    · exact ⟨hb, rfl, trivial⟩
  · split
    · split
      · exact ⟨hb, rfl, trivial⟩
      · exact ⟨hf _ rfl, rfl, trivial⟩
    · exact ⟨hf _ rfl, rfl, trivial⟩

theorem symSet_pk {l : Bytes} : (PK c).Holds (symSet l) (fun _ => True) := takeWhile_pk
theorem sym_pk {x : UInt8} : (PK c).Holds (sym x) (fun _ => True) := takeWhile_pk

theorem symSeq_pk {l : Bytes} : (PK c).Holds (symSeq l) (fun _ => True) := by
  induction l with
  | nil => exact Holds.pure trivial
  | cons x xs ih => exact Holds.bind sym_pk fun _ _ => ih

theorem symTimes_pk {x : UInt8} {n : Nat} : (PK c).Holds (symTimes x n) (fun _ => True) := by
  induction n with
  | zero => exact Holds.pure trivial
  | succ n ih => exact Holds.bind sym_pk fun _ _ => ih

theorem indentFor_ne (level : Nat) (l : List Nat) (h : l ≠ []) : indentFor level l ≠ [] := by
  simp only [indentFor]
  split
  · simp
  · cases l with
    | nil => contradiction
    | cons x xs => simp

theorem indentFor_length (level : Nat) (l : List Nat) : (indentFor level l).length = level + 1 := by
  simp only [indentFor]
  split <;> simp <;> omega

theorem ind_pk {level : Nat} : (PK c).Holds (ind level) (fun _ => True) := by
  refine Holds.bind (V := fun _ => True) (Holds.modify ?_ (fun _ _ => rfl) trivial) fun _ _ => ?_
  · exact fun s hs => ⟨hs.doc, hs.consumed, hs.lo, hs.eaten, hs.pos, indentFor_ne _ _ hs.indent,
      hs.tag1, hs.tag2⟩
  · exact Holds.bind (V := fun _ => True) (Holds.get fun _ _ => trivial) fun _ _ => symTimes_pk

theorem ws_pk {opt : TakeOpt} : (PK c).Holds (ws opt) (fun _ => True) := takeWhile_pk
theorem inv_pk {opt : TakeOpt} : (PK c).Holds (inv opt) (fun _ => True) := takeWhile_pk

theorem runIf_pk {b : Bool} {x : PM Unit} (h : (PK c).Holds x (fun _ => True)) :
    (PK c).Holds (runIf b x) (fun _ => True) := by
  cases b
  · exact Holds.pure trivial
  · exact h

theorem isOk_pk {x : PM α} (h : (PK c).Holds x (fun _ => True)) :
    (PK c).Holds (isOk x) (fun _ => True) := Holds.isOk h fun _ => trivial

theorem mismatch_pk : (PK c).Holds (mismatch : PM α) (fun _ => True) :=
  Holds.mismatch (F := PK c) (fun _ _ => show PErrOk c.doc .mismatch from trivial)

theorem nl_pk : (PK c).Holds nl (fun _ => True) := by
  apply context_pk
  apply pk_pf
  refine Holds.bind (isOk_pk symSeq_pk) fun b _ => Holds.ite (fun _ => Holds.pure trivial) fun _ => ?_
  refine Holds.bind (isOk_pk symSeq_pk) fun b _ => Holds.ite (fun _ => Holds.pure trivial) fun _ => ?_
  refine Holds.bind (isOk_pk sym_pk) fun b _ => Holds.ite (fun _ => Holds.pure trivial) fun _ => ?_
  refine Holds.bind (isOk_pk sym_pk) fun b _ => Holds.ite (fun _ => Holds.pure trivial) fun _ => ?_
  exact mismatch_pk

theorem comment_pk : (PK c).Holds comment (fun _ => True) :=
  Holds.bind ws_pk fun _ _ => Holds.bind sym_pk fun _ _ => takeWhile_pk

end
end YamlPeg
