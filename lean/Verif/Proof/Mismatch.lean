import Verif.Proof.LoaderTop
import Verif.Proof.RunsL
/-!
# Where an error without a place comes from

`PError::Mismatch` carries no position.  It leaves `parse` in one case only: the
properties of the root node of a document end in a place that `Parser::bound`
does not accept.
-/

namespace YamlPeg
open M

/-- The text of an anchor or a tag: `&` and an identifier, or `!` and signs other
than blanks and line breaks. -/
def PropSign (p : Bytes) : Prop :=
  (∃ a, p = 0x26 :: a ∧ IsIdent a) ∨ (∃ t, p = 0x21 :: t ∧ ∀ c ∈ t, c ≠ 0x20 ∧ c ≠ 0x0A ∧ c ≠ 0x0D)

/-- Some anchor or tag of the text is not followed by a blank, a line break or
one of `: , [ ] { }`. -/
def LooseProp (doc : Bytes) : Prop :=
  ∃ pre p rest, doc = pre ++ p ++ rest ∧ PropSign p ∧ headIn bnd rest = false

section
variable {σ α β : Type}

theorem mis_bind {x : M σ α} {f : α → M σ β} {s : σ} (h : ((x >>= f) s).1 = .err .mismatch) :
    (x s).1 = .err .mismatch ∨ ∃ a s', x s = (.ok a, s') ∧ (f a s').1 = .err .mismatch := by
  rcases hx : x s with ⟨r, s'⟩
  cases r with
  | ok a => rw [bind_ok hx] at h; exact .inr ⟨a, s', rfl, h⟩
  | err e => rw [bind_err hx] at h; simp only [Out.err.injEq] at h; subst h; exact .inl rfl
  | panic p => rw [bind_panic hx] at h; simp at h
  | diverge => rw [bind_diverge hx] at h; simp at h

/-- The method never ends in `Mismatch`. -/
def NoMis (x : M σ α) : Prop := ∀ s, (x s).1 ≠ .err .mismatch

theorem NoMis.pure (a : α) : NoMis (pure a : M σ α) := fun s => by simp

theorem NoMis.bind {x : M σ α} {f : α → M σ β} (hx : NoMis x) (hf : ∀ a, NoMis (f a)) : NoMis (x >>= f) := by
  intro s h
  rcases mis_bind h with h | ⟨a, s', -, h⟩
  · exact hx s h
  · exact hf a s' h

theorem NoMis.orDefault (d : α) (x : M σ α) : NoMis (M.orDefault d x) := by
  intro s; unfold M.orDefault; split <;> simp

theorem NoMis.try? (x : M σ α) : NoMis (M.try? x) := by
  intro s; unfold M.try?; split <;> simp

theorem NoMis.isOk (x : M σ α) : NoMis (M.isOk x) := by
  intro s; unfold M.isOk; split <;> simp

theorem NoMis.orElse {x y : M σ α} (hy : NoMis y) : NoMis (M.orElseMismatch x y) := by
  intro s; unfold M.orElseMismatch
  split
  · simp
  · exact hy _
  · rename_i e _ h _; cases e with
    | mismatch => exact absurd rfl (by assumption)
    | terminate => simp
  · simp
  · simp

theorem NoMis.lift {x : PM α} (h : NoMis x) : NoMis (YamlPeg.lift x) := fun l => by
  simp only [YamlPeg.lift]; exact h _

theorem NoMis.forward : NoMis forward := fun _ => by simp [YamlPeg.forward]

theorem NoMis.lerr {name : String} : NoMis (lerr name : LM α) :=
  NoMis.lift fun s => by unfold errAt; split <;> simp

theorem NoMis.diverge : NoMis (M.diverge : M σ α) := fun _ => by simp [M.diverge]

theorem NoMis.orErr {x : LM α} {name : String} : NoMis (orErr x name) := NoMis.orElse .lerr

theorem NoMis.curAnchors : NoMis curAnchors := fun l => by unfold YamlPeg.curAnchors; split <;> simp

theorem NoMis.anchorInsert {a : Bytes} {n : Node} : NoMis (anchorInsert a n) :=
  NoMis.bind .curAnchors fun _ => NoMis.bind (fun _ => by simp) fun _ => .pure _

theorem NoMis.useAlias {s : Bytes} : NoMis (useAlias s) := by
  refine NoMis.bind (fun _ => by simp) fun l => ?_
  split
  · exact .pure _
  · refine NoMis.bind .curAnchors fun _ => ?_
    split
    · exact .pure _
    · exact .lerr

theorem NoMis.scalarAtom {n level : Nat} {flow : Bool} : NoMis (scalarAtom n level flow) := by
  unfold YamlPeg.scalarAtom
  refine NoMis.bind (.try? _) fun o => ?_
  split
  · exact .pure _
  refine NoMis.bind (.try? _) fun o => ?_
  split
  · exact .pure _
  refine NoMis.bind (.try? _) fun o => ?_
  split
  · exact .pure _
  refine NoMis.bind (.try? _) fun o => ?_
  split
  · exact NoMis.bind .useAlias fun _ => .pure _
  refine NoMis.bind (.try? _) fun o => ?_
  split
  · exact .pure _
  refine NoMis.bind (.try? _) fun o => ?_
  split
  · exact .pure _
  refine NoMis.bind (.try? _) fun o => ?_
  split
  · exact .pure _
  · exact .pure _

theorem NoMis.scalarTerm {sc : ScalarCall} {n d level : Nat} {flow : Bool} :
    NoMis (scalarTerm sc n d level flow) := by
  cases d with
  | zero => exact .diverge
  | succ d =>
    unfold YamlPeg.scalarTerm scalarTermWith
    refine NoMis.bind .scalarAtom fun o => ?_
    split
    · exact .pure _
    · exact NoMis.orElse (.pure _)

theorem NoMis.scalarBody {sc : ScalarCall} {n level : Nat} {map flow : Bool} :
    NoMis (scalarBody sc n level map flow) := by
  unfold YamlPeg.scalarBody
  refine NoMis.bind (.try? _) fun o => ?_
  split
  · exact .pure _
  refine NoMis.bind (.try? _) fun o => ?_
  split
  · exact .pure _
  · exact NoMis.orElse .scalarTerm

theorem NoMis.directives (n : Nat) : NoMis (directives n) := by
  induction n with
  | zero => exact .diverge
  | succ n ih =>
    intro l
    simp only [YamlPeg.directives]
    split
    · exact ih _
    · simp
    · rename_i e _ h _; cases e with
      | mismatch => exact absurd rfl (by assumption)
      | terminate => simp
    · simp
    · simp

theorem NoMis.food : NoMis food := fun s => by unfold YamlPeg.food; split <;> simp
end

/-! ## The properties of a node -/

theorem tagLeft_split {b q : Bytes} (h : tagLeft b = some q) :
    ∃ t, b = t ++ q ∧ ∀ c ∈ t, c ≠ 0x20 ∧ c ≠ 0x0A ∧ c ≠ 0x0D := by
  have hid : ∀ c, idByte c = true → c ≠ 0x20 ∧ c ≠ 0x0A ∧ c ≠ 0x0D := by
    intro c hc
    refine ⟨?_, ?_, ?_⟩ <;> (rintro rfl; revert hc; decide)
  have hskip : ∀ r, ∃ t, r = t ++ skipIdent r ∧ ∀ c ∈ t, c ≠ 0x20 ∧ c ≠ 0x0A ∧ c ≠ 0x0D := by
    intro r
    unfold skipIdent
    split
    · exact ⟨r.takeWhile idByte, by simp, fun c hc => hid c (mem_takeWhile hc)⟩
    · exact ⟨[], by simp, by simp⟩
  unfold tagLeft at h
  split at h
  · have hb : b = b.takeWhile idByte ++ b.dropWhile idByte := by simp
    have ht : ∀ c ∈ b.takeWhile idByte, c ≠ 0x20 ∧ c ≠ 0x0A ∧ c ≠ 0x0D := fun c hc => hid c (mem_takeWhile hc)
    split at h
    · rename_i hd
      simp at h; subst h
      rw [hd] at hb
      exact ⟨_, hb, ht⟩
    · rename_i c r hd
      rw [hd] at hb
      split at h
      · rename_i hc
        obtain ⟨t, h1, h2⟩ := hskip r
        simp at h; subst h
        refine ⟨b.takeWhile idByte ++ c :: t, ?_, ?_⟩
        · rw [List.append_assoc, List.cons_append, ← h1]; exact hb
        · intro x hx
          rcases List.mem_append.1 hx with hx | hx
          · exact ht x hx
          · rcases List.mem_cons.1 hx with rfl | hx
            · subst hc; decide
            · exact h2 x hx
      · simp at h; subst h
        exact ⟨_, hb, ht⟩
  · split at h
    · simp at h; subst h; exact ⟨[], by simp, by simp⟩
    · rename_i c r _
      split at h
      · rename_i hc
        split at h
        · simp at h
        · split at h
          · simp at h
          · rename_i d q' hd
            split at h
            · rename_i hd'
              obtain ⟨t, h1, h2⟩ := hskip q'
              simp at h; subst h
              refine ⟨c :: (r.takeWhile (notIn b!" <>\n\r") ++ d :: t), ?_, ?_⟩
              · have hr : r = r.takeWhile (notIn b!" <>\n\r") ++ r.dropWhile (notIn b!" <>\n\r") := by simp
                rw [hd] at hr
                simp only [List.cons_append, List.append_assoc, ← h1]
                rw [← hr]
              · intro x hx
                rcases List.mem_cons.1 hx with rfl | hx
                · subst hc; decide
                rcases List.mem_append.1 hx with hx | hx
                · have := mem_takeWhile hx
                  refine ⟨?_, ?_, ?_⟩ <;> (rintro rfl; revert this; decide)
                rcases List.mem_cons.1 hx with rfl | hx
                · subst hd'; decide
                · exact h2 x hx
            · simp at h
      · split at h
        · rename_i hc
          obtain ⟨t, h1, h2⟩ := hskip r
          simp at h; subst h
          refine ⟨c :: t, by rw [List.cons_append, ← h1], ?_⟩
          intro x hx
          rcases List.mem_cons.1 hx with rfl | hx
          · subst hc; decide
          · exact h2 x hx
        · simp at h; subst h; exact ⟨[], by simp, by simp⟩

section
variable {c : LCfg}

theorem bound_mis {s : Parser} (hs : PWF c.p s) (h : (bound s).1 = .err .mismatch) : headIn bnd s.rest = false := by
  obtain ⟨k, pre, mid, post, rfl⟩ := PWF.exists_st hs
  rw [bound_eq] at h
  split at h
  · simp at h
  · rename_i hn; rw [st_rest]; simpa using hn

theorem anchor_loose {s s' : Parser} {a : Bytes} (hs : PWF c.p s) (h : anchor s = (.ok a, s'))
    (hb : headIn bnd s'.rest = false) : LooseProp c.doc := by
  obtain ⟨k, pre, mid, post, rfl⟩ := PWF.exists_st hs
  by_cases hp : ∃ q, post = 0x26 :: q
  · obtain ⟨q, rfl⟩ := hp
    rw [anchor_eq] at h
    split at h
    · rename_i ha
      simp only [Prod.mk.injEq] at h
      obtain ⟨-, rfl⟩ := h
      rw [st_rest] at hb
      refine ⟨pre ++ mid, 0x26 :: q.takeWhile idByte, q.dropWhile idByte, ?_, .inl ⟨_, rfl, ?_⟩, hb⟩
      · have hd : pre ++ (mid ++ 0x26 :: q) = c.doc := hs.doc
        rw [← hd]; simp
      · refine ⟨?_, fun c hc => mem_takeWhile hc⟩
        cases q with
        | nil => simp [headAlnum] at ha
        | cons x r =>
          have hx : idByte x = true := by simp only [headAlnum] at ha; simp [idByte, ha]
          simpa [List.takeWhile_cons, hx, headAlnum] using ha
    · simp at h
  · rw [anchor, bind_err (sym_other fun r hr => hp ⟨r, hr⟩)] at h
    simp at h

theorem tag_loose {s s' : Parser} {a : Bytes} (hs : PWF c.p s) (h : tag s = (.ok a, s'))
    (hb : headIn bnd s'.rest = false) : LooseProp c.doc := by
  obtain ⟨k, pre, mid, post, rfl⟩ := PWF.exists_st hs
  by_cases hp : ∃ q, post = 0x21 :: q
  · obtain ⟨q, rfl⟩ := hp
    have := tag_left k pre mid q
    unfold Runs at this
    rw [h] at this
    simp only at this
    obtain ⟨t, h1, h2⟩ := tagLeft_split this
    refine ⟨pre ++ mid, 0x21 :: t, s'.rest, ?_, .inr ⟨_, rfl, h2⟩, hb⟩
    have hd : pre ++ (mid ++ 0x21 :: q) = c.doc := hs.doc
    rw [← hd, h1]; simp
  · rw [tag, bind_err (sym_other fun r hr => hp ⟨r, hr⟩)] at h
    simp at h

theorem orDefault_some {x : PM Bytes} {s s' : Parser} {a : Bytes} (h : orDefault [] x s = (.ok a, s'))
    (ha : a.isEmpty = false) : x s = (.ok a, s') := by
  unfold M.orDefault at h
  split at h
  · rename_i hx; rw [hx, h]
  · simp only [Prod.mk.injEq, Out.ok.injEq] at h; rw [← h.1] at ha; simp at ha
  · simp at h
  · simp at h

theorem lift_ok {x : PM α} {l l' : Loader} {a : α} (h : lift x l = (.ok a, l')) :
    x l.parser = (.ok a, l'.parser) := by
  simp only [lift, Prod.mk.injEq] at h
  rw [← h.2]; simp only; rw [← h.1]

theorem lift_wf {x : PM α} {V : α → Prop} (hx : (PK c.p).Holds x V) {l l' : Loader} {a : α} (hl : PWF c.p l.parser)
    (h : lift x l = (.ok a, l')) : PWF c.p l'.parser := by
  have := (hx _ hl).1
  rw [lift_ok h] at this
  exact this

theorem lift_wf' {x : PM α} {V : α → Prop} (hx : (PF c.p).Holds x V) {l l' : Loader} {a : α} (hl : PWF c.p l.parser)
    (h : lift x l = (.ok a, l')) : PWF c.p l'.parser := by
  have := (hx _ hl).1
  rw [lift_ok h] at this
  exact this

theorem boundIf_mis {l0 l : Loader} {x : PM Bytes} {a : Bytes} (h0 : lift (orDefault [] x) l0 = (.ok a, l))
    (hl : PWF c.p l.parser)
    (hx : ∀ s', x l0.parser = (.ok a, s') → headIn bnd s'.rest = false → LooseProp c.doc)
    (h : (runIf (!a.isEmpty) (lift bound) l).1 = .err .mismatch) : LooseProp c.doc := by
  unfold runIf at h
  split at h
  · rename_i ha
    have ha : a.isEmpty = false := by simpa using ha
    exact hx _ (orDefault_some (lift_ok h0) ha) (bound_mis hl h)
  · simp at h

theorem boundIf_wf {l l' : Loader} {b : Bool} {u : Unit} (hl : PWF c.p l.parser)
    (h : runIf b (lift bound) l = (.ok u, l')) : PWF c.p l'.parser := by
  unfold runIf at h
  split at h
  · exact lift_wf bound_pk hl h
  · simp only [pure_run, Prod.mk.injEq] at h; rw [← h.2]; exact hl

/-- Node properties mismatch only behind a property that is not followed by a boundary. -/
theorem nodeProps_mis {l : Loader} (hl : PWF c.p l.parser) (h : (nodeProps l).1 = .err .mismatch) :
    LooseProp c.doc := by
  unfold nodeProps at h
  rcases mis_bind h with h | ⟨a, l1, h1, h⟩
  · exact absurd h (NoMis.lift (.orDefault _ _) _)
  have w1 := lift_wf (Frame.Holds.orDefault anchor_pk trivial) hl h1
  rcases mis_bind h with h | ⟨_, l2, h2, h⟩
  · exact boundIf_mis h1 w1 (fun s' hs' hb => anchor_loose hl hs' hb) h
  have w2 := boundIf_wf w1 h2
  rcases mis_bind h with h | ⟨_, l3, h3, h⟩
  · exact absurd h (NoMis.lift .forward _)
  have w3 := lift_wf' forward_pf w2 h3
  rcases mis_bind h with h | ⟨t, l4, h4, h⟩
  · exact absurd h (NoMis.lift (.orDefault _ _) _)
  have w4 := lift_wf (Frame.Holds.orDefault tag_pk' trivial) w3 h4
  rcases mis_bind h with h | ⟨_, l5, h5, h⟩
  · exact boundIf_mis h4 w4 (fun s' hs' hb => tag_loose w3 hs' hb) h
  have w5 := boundIf_wf w4 h5
  rcases mis_bind h with h | ⟨_, l6, h6, h⟩
  · exact absurd h (NoMis.lift .forward _)
  have w6 := lift_wf' forward_pf w5 h6
  rcases mis_bind h with h | ⟨a2, l7, h7, h⟩
  · exact absurd h (NoMis.lift (.orDefault _ _) _)
  have w7 := lift_wf (Frame.Holds.orDefault anchor_pk trivial) w6 h7
  rcases mis_bind h with h | ⟨_, l8, h8, h⟩
  · split at h
    · rename_i ha
      split at h
      · rcases mis_bind h with h | ⟨_, _, _, h⟩
        · refine anchor_loose w6 (orDefault_some (lift_ok h7) (by simpa using ha)) (bound_mis w7 h)
        · simp at h
      · exact absurd h (NoMis.lerr _)
    · simp at h
  rcases mis_bind h with h | ⟨_, l9, h9, h⟩
  · exact absurd h (NoMis.lift .forward _)
  · simp at h

theorem scalar_mis {n : Nat} {l : Loader} {level : Nat} {map flow : Bool} (hl : PWF c.p l.parser)
    (h : (scalar n level map flow l).1 = .err .mismatch) : LooseProp c.doc := by
  cases n with
  | zero => exact absurd h (NoMis.diverge _)
  | succ n =>
    unfold scalar scalarNode at h
    rcases mis_bind h with h | ⟨at', l1, h1, h⟩
    · exact nodeProps_mis hl h
    refine absurd h ?_
    obtain ⟨a, t⟩ := at'
    refine NoMis.bind (fun _ => by simp) (fun _ => ?_) l1
    refine NoMis.bind .scalarBody fun _ => ?_
    refine NoMis.bind (.lift .forward) fun _ => ?_
    dsimp only
    split
    · refine NoMis.bind .anchorInsert fun _ => ?_
      split
      · exact .lerr
      · exact .pure _
    · exact .pure _

theorem doc_mis {n : Nat} {l : Loader} (hl : PWF c.p l.parser) (h : (doc n l).1 = .err .mismatch) :
    LooseProp c.doc := by
  unfold doc at h
  have k1 : (PK c.p).Holds (context (orDefault () bound)) (fun _ => True) :=
    context_pk (pk_pf (Frame.Holds.orDefault bound_pk trivial))
  rcases mis_bind h with h | ⟨_, l1, h1, h⟩
  · refine absurd h (NoMis.lift ?_ _)
    intro s
    simp only [context]
    exact NoMis.orDefault _ _ _
  have w1 := lift_wf k1 hl h1
  rcases mis_bind h with h | ⟨_, l2, h2, h⟩
  · exact absurd h (NoMis.lift .forward _)
  have w2 := lift_wf' forward_pf w1 h2
  rcases mis_bind h with h | ⟨_, l3, h3, h⟩
  · simp at h
  have w3 : PWF c.p l3.parser := by
    simp only [modify_run, Prod.mk.injEq] at h3; rw [← h3.2]; exact w2
  rcases mis_bind h with h | ⟨_, l4, h4, h⟩
  · exact scalar_mis w3 h
  refine absurd h ?_
  exact NoMis.bind (.lift (.orDefault _ _)) (fun _ => NoMis.bind (.lift (.orDefault _ _)) fun _ =>
    NoMis.bind (.lift .forward) fun _ => NoMis.bind (fun _ => by simp) fun _ => .pure _) _

theorem docsLoop_mis {n m : Nat} {v : List Node} {l : Loader} (hl : L0 c l)
    (h : (docsLoop n m v l).1 = .err .mismatch) : LooseProp c.doc := by
  induction m generalizing v l with
  | zero => exact absurd h (NoMis.diverge _)
  | succ m ih =>
    unfold docsLoop at h
    have g1 := lift_l0 (c := c) (pk_pf (Frame.Holds.orDefault (d := 0) (gap_pk (cmt := true)) trivial)) l hl
    rcases mis_bind h with h | ⟨_, l1, h1, h⟩
    · exact absurd h (NoMis.lift (.orDefault _ _) _)
    rw [h1] at g1
    have g2 := lift_l0 (c := c) (pk_pf food_pk) l1 g1.1
    rcases mis_bind h with h | ⟨_, l2, h2, h⟩
    · exact absurd h (NoMis.lift .food _)
    rw [h2] at g2
    split at h
    · simp at h
    rw [isOk_lift] at h
    have g3 := lift_l0 (c := c) (pk_pf (isOk_pk (symSeq_pk (l := b!"---")))) l2 g2.1
    rcases mis_bind h with h | ⟨_, l3, h3, h⟩
    · exact absurd h (NoMis.lift (.isOk _) _)
    rw [h3] at g3
    split at h
    · rcases mis_bind h with h | ⟨d, l4, h4, h⟩
      · exact doc_mis g3.1.parser h
      have g4 := doc_l0 (n := n) g3.1
      rw [h4] at g4
      exact ih g4.1 h
    · exact absurd h (NoMis.lerr _)

/-- A parse ends without a place only behind a property that is not followed by a boundary. -/
theorem loaderParse_mis {n : Nat} (h : (loaderParse n (startLoader c)).1 = .err .mismatch) : LooseProp c.doc := by
  unfold loaderParse at h
  have g0 := directives_l0 (n := n) _ (start_l0 (c := c))
  rcases mis_bind h with h | ⟨_, l0, h0, h⟩
  · exact absurd h (NoMis.directives _ _)
  rw [h0] at g0
  have g1 := lift_l0 (c := c) (pk_pf (Frame.Holds.orDefault (d := 0) (gap_pk (cmt := true)) trivial)) l0 g0.1
  rcases mis_bind h with h | ⟨_, l1, h1, h⟩
  · exact absurd h (NoMis.lift (.orDefault _ _) _)
  rw [h1] at g1
  have g2 := lift_l0 (c := c) (pk_pf (Frame.Holds.orDefault (d := ()) (symSeq_pk (l := b!"---")) trivial)) l1 g1.1
  rcases mis_bind h with h | ⟨_, l2, h2, h⟩
  · exact absurd h (NoMis.lift (.orDefault _ _) _)
  rw [h2] at g2
  rcases mis_bind h with h | ⟨d, l4, h4, h⟩
  · exact doc_mis g2.1.parser h
  have g4 := doc_l0 (n := n) g2.1
  rw [h4] at g4
  exact docsLoop_mis g4.1 h

end
end YamlPeg
