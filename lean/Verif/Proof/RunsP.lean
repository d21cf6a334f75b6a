import Verif.Proof.Runs
/-! # Termination of the grammar methods -/

namespace YamlPeg
open M Frame

/-- The parser frame without any restriction on panics; running out of fuel is
not allowed. -/
def tc (doc : Bytes) : PCfg := ⟨doc, 0, False, fun _ => True, False⟩

/-- One step of a method that keeps the mark and the indentation table. -/
structure Stp (doc : Bytes) (s s' : Parser) : Prop where
  wf : PWF (tc doc) s'
  eaten : s'.eaten = s.eaten
  indent : s'.indent = s.indent

section
variable {doc : Bytes} {α : Type} {s : Parser}

theorem Stp.refl (h : PWF (tc doc) s) : Stp doc s s := ⟨h, rfl, rfl⟩
theorem Stp.trans {a b c : Parser} (h : Stp doc a b) (h' : Stp doc b c) : Stp doc a c :=
  ⟨h'.wf, h'.eaten.trans h.eaten, h'.indent.trans h.indent⟩

theorem runs_of_holds {x : PM α} {V : α → Prop} (h : (PF (tc doc)).Holds x V) (hs : PWF (tc doc) s) :
    Runs x s (fun a s' => V a ∧ PWF (tc doc) s' ∧ s.eaten ≤ s'.eaten)
      (fun _ s' => PWF (tc doc) s' ∧ s.eaten ≤ s'.eaten) := by
  obtain ⟨h1, h2, h3⟩ := h s hs
  unfold Runs
  rcases hx : x s with ⟨r, s'⟩
  rw [hx] at h1 h2 h3
  cases r with
  | ok a => exact ⟨h3, h1, h2⟩
  | err e => exact ⟨h1, h2⟩
  | panic p => trivial
  | diverge => exact h3

theorem runs_pk {x : PM α} (h : (PK (tc doc)).Holds x (fun _ => True)) (hs : PWF (tc doc) s) :
    Runs x s (fun _ s' => PWF (tc doc) s' ∧ s'.eaten = s.eaten)
      (fun _ s' => PWF (tc doc) s' ∧ s'.eaten = s.eaten) := by
  obtain ⟨h1, h2, h3⟩ := h s hs
  unfold Runs
  rcases hx : x s with ⟨r, s'⟩
  rw [hx] at h1 h2 h3
  cases r with
  | ok a => exact ⟨h1, h2⟩
  | err e => exact ⟨h1, h2⟩
  | panic p => trivial
  | diverge => exact h3

theorem runs_stp {x : PM α} (h : (PK (tc doc)).Holds x (fun _ => True)) (hi : SameInd x)
    (hs : PWF (tc doc) s) : Runs x s (fun _ s' => Stp doc s s') (fun _ s' => Stp doc s s') := by
  have hr := runs_pk h hs
  have hi := (hi s trivial).2.1
  unfold Runs at *
  rcases hx : x s with ⟨r, s'⟩
  rw [hx] at hr hi
  cases r with
  | ok a => exact ⟨hr.1, hr.2, hi⟩
  | err e => exact ⟨hr.1, hr.2, hi⟩
  | panic p => trivial
  | diverge => exact hr

/-- One byte of a set. -/
theorem symSet_runs {set : Bytes} (hs : PWF (tc doc) s) :
    Runs (symSet set) s (fun _ s' => Stp doc s s' ∧ s'.pos = s.pos + 1)
      (fun e s' => e = .mismatch ∧ Stp doc s s' ∧ s'.pos = s.eaten) := by
  have hr := runs_stp (symSet_pk (c := tc doc) (l := set)) symSet_si hs
  unfold Runs at *
  have hle : s.pos ≤ s.doc.length := by rw [hs.doc]; exact hs.pos
  rcases hx : symSet set s with ⟨r, s'⟩
  rw [hx] at hr
  simp only [symSet, takeWhile, hle, if_true] at hx
  have h1 : takeCount (isIn set) .one s.rest 0 ≤ 1 := by
    cases s.rest with
    | nil => simp [takeCount]
    | cons c r => simp only [takeCount]; split <;> simp
  by_cases h0 : takeCount (isIn set) .one s.rest 0 = 0
  · simp only [h0, if_true, TakeOpt.lo?] at hx
    simp only [reduceCtorEq, if_false, Prod.mk.injEq] at hx
    obtain ⟨rfl, rfl⟩ := hx
    exact ⟨rfl, hr, rfl⟩
  · simp only [h0, if_false, TakeOpt.lo?, Prod.mk.injEq] at hx
    obtain ⟨rfl, rfl⟩ := hx
    refine ⟨hr, ?_⟩
    show s.pos + _ = s.pos + 1
    omega

theorem sym_runs {c : UInt8} (hs : PWF (tc doc) s) :
    Runs (sym c) s (fun _ s' => Stp doc s s' ∧ s'.pos = s.pos + 1)
      (fun e s' => e = .mismatch ∧ Stp doc s s' ∧ s'.pos = s.eaten) := symSet_runs hs

theorem more0_runs {f : UInt8 → Bool} (hs : PWF (tc doc) s) {E : PErr → Parser → Prop} :
    Runs (takeWhile f (.more 0)) s (fun _ s' => Stp doc s s' ∧ s.pos ≤ s'.pos) E := by
  have hr := runs_stp (takeWhile_pk (c := tc doc) (f := f) (opt := .more 0)) takeWhile_si hs
  unfold Runs at *
  have hle : s.pos ≤ s.doc.length := by rw [hs.doc]; exact hs.pos
  rcases hx : takeWhile f (.more 0) s with ⟨r, s'⟩
  rw [hx] at hr
  simp only [takeWhile, hle, if_true, TakeOpt.lo?] at hx
  split at hx
  · simp only [if_true, Prod.mk.injEq] at hx
    obtain ⟨rfl, rfl⟩ := hx
    exact ⟨hr, Nat.le_refl _⟩
  · simp only [Nat.not_lt_zero, if_false, Prod.mk.injEq] at hx
    obtain ⟨rfl, rfl⟩ := hx
    exact ⟨hr, by simp⟩

theorem bound_runs (hs : PWF (tc doc) s) :
    Runs bound s (fun _ s' => Stp doc s s' ∧ s.pos ≤ s'.pos)
      (fun e s' => e = .mismatch ∧ Stp doc s s' ∧ s'.pos = s.eaten) := by
  have hr := runs_stp (bound_pk (c := tc doc)) bound_si hs
  unfold Runs at *
  rcases hx : bound s with ⟨r, s'⟩
  rw [hx] at hr
  obtain ⟨k, pre, mid, post, rfl⟩ := PWF.exists_st hs
  rw [bound_eq] at hx
  split at hx
  · simp only [Prod.mk.injEq] at hx
    obtain ⟨rfl, rfl⟩ := hx
    exact ⟨hr, by simp [st]⟩
  · simp only [Prod.mk.injEq] at hx
    obtain ⟨rfl, rfl⟩ := hx
    exact ⟨rfl, hr, by simp⟩

theorem complexMapping_runs (hs : PWF (tc doc) s) :
    Runs complexMapping s (fun _ s' => Stp doc s s' ∧ s.pos + 1 ≤ s'.pos)
      (fun _ s' => Stp doc s s') := by
  refine Runs.bind ((sym_runs hs).mono (fun _ s1 h1 => ?_) fun _ _ h => h.2.1)
  exact (bound_runs h1.1.wf).mono (fun _ _ h => ⟨h1.1.trans h.1, by have := h1.2; have := h.2; omega⟩)
    fun _ _ h => h1.1.trans h.2.1

/-- A gap begins at the cursor. -/
def GapAt (s : Parser) : Prop := (gapSpec true s.rest).isSome = true

theorem gap_runs (hs : PWF (tc doc) s) :
    Runs (gap true) s (fun _ s' => Stp doc s s' ∧ s.pos + 1 ≤ s'.pos ∧ GapAt s)
      (fun e s' => e = .mismatch ∧ Stp doc s s' ∧ ¬ GapAt s) := by
  have hr := runs_stp (gap_pk (c := tc doc) (cmt := true)) gap_si hs
  unfold Runs at *
  rcases hx : gap true s with ⟨r, s'⟩
  rw [hx] at hr
  obtain ⟨k, pre, mid, post, rfl⟩ := PWF.exists_st hs
  rw [gap_eq] at hx
  cases hg : gapSpec true post with
  | none =>
    simp only [hg, Prod.mk.injEq] at hx
    obtain ⟨rfl, rfl⟩ := hx
    exact ⟨rfl, hr, by simp [GapAt, hg]⟩
  | some q =>
    obtain ⟨t, taken, left⟩ := q
    simp only [hg, Prod.mk.injEq] at hx
    obtain ⟨rfl, rfl⟩ := hx
    refine ⟨hr, ?_, by simp [GapAt, hg]⟩
    simp only [gapSpec] at hg
    split at hg
    · simp at hg
    · rename_i h0
      simp only [Option.some.injEq, Prod.mk.injEq] at hg
      obtain ⟨-, h2, -⟩ := hg
      rw [← h2]
      simp only [st_pos, List.length_append, List.length_take]
      have := nlLen_le (gapLead true post).2
      omega

theorem ind_runs {L : Nat} (hs : PWF (tc doc) s) :
    Runs (ind L) s
      (fun _ s' => PWF (tc doc) s' ∧ s'.eaten = s.eaten ∧ s'.indent = indentFor L s.indent ∧
        s'.pos = s.pos + (indentFor L s.indent).sum)
      (fun e s' => e = .mismatch ∧ PWF (tc doc) s' ∧ s'.eaten = s.eaten ∧
        s'.indent = indentFor L s.indent ∧ 0 < (indentFor L s.indent).sum ∧ s'.pos = s.eaten) := by
  have hr := runs_pk (ind_pk (c := tc doc) (level := L)) hs
  unfold Runs at *
  rcases hx : ind L s with ⟨r, s'⟩
  rw [hx] at hr
  obtain ⟨k, pre, mid, post, rfl⟩ := PWF.exists_st hs
  rw [ind_eq] at hx
  split at hx
  · simp only [Prod.mk.injEq] at hx
    obtain ⟨rfl, rfl⟩ := hx
    exact ⟨hr.1, hr.2, rfl, by simp [Ctx.want, spaces]; omega⟩
  · rename_i hp
    simp only [Prod.mk.injEq] at hx
    obtain ⟨rfl, rfl⟩ := hx
    refine ⟨rfl, hr.1, hr.2, rfl, ?_, by simp⟩
    rcases Nat.eq_zero_or_pos (k.want L) with h | h
    · rw [h] at hp; simp [spaces] at hp
    · exact h

/-- Table after some calls of `ind L`. -/
def Ind (L : Nat) (t t' : List Nat) : Prop := t' = t ∨ t' = indentFor L t

theorem Ind.refl {L : Nat} {t : List Nat} : Ind L t t := .inl rfl
theorem Ind.trans {L : Nat} {a b c : List Nat} (h : Ind L a b) (h' : Ind L b c) : Ind L a c := by
  rcases h with rfl | rfl <;> rcases h' with rfl | rfl
  · exact .inl rfl
  · exact .inr rfl
  · exact .inr rfl
  · exact .inr (by simp)
theorem Ind.keep {L : Nat} {t t' : List Nat} (h : Ind L t t') : Keep (L + 1) t t' := by
  rcases h with rfl | rfl
  · exact Keep.refl _ _
  · exact keep_indentFor _ _
theorem Ind.deep {L L' : Nat} {t t' : List Nat} (h : Ind L t t') (hd : Deep L' t) (hl : L ≤ L') : Deep L' t' := by
  by_cases h1 : L' = L
  · subst h1; exact hd.keep h.keep
  rcases h with rfl | rfl
  · exact hd
  · exact .inl (by simp; omega)

/-- Code that only calls `ind L` on the table. -/
def ILF (L : Nat) : Frame Parser where
  W _ := True
  R s s' := Ind L s.indent s'.indent
  E _ _ := True
  X _ := True
  D := True
  refl _ _ := Ind.refl
  trans _ _ _ h1 h2 := h1.trans h2

def IndOnly (L : Nat) (x : PM α) : Prop := (ILF L).Holds x (fun _ => True)

theorem SameInd.io {L : Nat} {x : PM α} (h : SameInd x) : IndOnly L x := by
  intro s _
  obtain ⟨-, h2, h3⟩ := h s trivial
  refine ⟨trivial, .inl h2, ?_⟩
  cases (x s).1 <;> trivial

theorem ind_io {L : Nat} : IndOnly L (ind L) := by
  intro s _
  refine ⟨trivial, .inr (ind_indent L s), ?_⟩
  cases (ind L s).1 <;> trivial

theorem context_io {L : Nat} {x : PM α} (h : IndOnly L x) : IndOnly L (context x) := by
  intro s _
  obtain ⟨-, h2, h3⟩ := h { s with eaten := s.pos } trivial
  exact ⟨trivial, h2, h3⟩

theorem wrappedLoop_io {L : Nat} {sep : UInt8} {leading : Bool} {n : Nat} {v : Bytes} :
    IndOnly L (wrappedLoop L sep leading n v) := by
  induction n generalizing v with
  | zero => exact diverge_si.io
  | succ n ih =>
    refine Holds.bind (V := fun _ => True) nl_si.io fun _ _ =>
      Holds.bind (V := fun _ => True) forward_si.io fun _ _ => ?_
    have hline : ∀ x, IndOnly L (do
          forward
          takeWhile (notIn b!"\n\r") (.more 0)
          let s ← text
          wrappedLoop L sep leading n (wrappedPush sep leading x s)) := fun x =>
      Holds.bind (V := fun _ => True) forward_si.io fun _ _ =>
      Holds.bind (V := fun _ => True) takeWhile_si.io fun _ _ =>
      Holds.bind (V := fun _ => True) text_si.io fun _ _ => ih
    refine Holds.bind (V := fun _ => True) (Holds.isOk ind_io fun _ => trivial) fun _ _ =>
      Holds.ite (fun _ => hline _) fun _ => ?_
    refine Holds.bind (V := fun _ => True) (try_si gap_si).io fun o _ => ?_
    cases o with
    | some t =>
      exact Holds.bind (V := fun _ => True) (Holds.isOk ind_io fun _ => trivial) fun _ _ =>
        Holds.ite (fun _ => hline _) fun _ => Holds.pure trivial
    | none => exact Holds.pure trivial

theorem stringWrapped_io {L : Nat} {sep : UInt8} {leading : Bool} :
    IndOnly L (stringWrapped L sep leading) :=
  context_io (Holds.bind (V := fun _ => True) get_si.io fun _ _ =>
    Holds.bind (V := fun _ => True) wrappedLoop_io fun _ _ =>
    Holds.bind (V := fun _ => True) back_si.io fun _ _ => Holds.pure trivial)

theorem plainLoop_io {L : Nat} {inner : Bool} {patt : Bytes} {n : Nat} {v : Bytes} {lead : Bool} :
    IndOnly L (plainLoop L inner patt n v lead) := by
  induction n generalizing v lead with
  | zero => exact diverge_si.io
  | succ n ih =>
    refine Holds.bind (V := fun _ => True) forward_si.io fun _ _ =>
      Holds.bind (V := fun _ => True) takeWhile_si.io fun _ _ =>
      Holds.bind (V := fun _ => True) text_si.io fun _ _ =>
      Holds.bind (V := fun _ => True) forward_si.io fun _ _ =>
      Holds.bind (V := fun _ => True) plainStop_si.io fun _ _ => Holds.ite (fun _ => ?_) fun _ => ?_
    · exact Holds.bind (V := fun _ => True) backward_si.io fun _ _ => Holds.pure trivial
    refine Holds.bind (V := fun _ => True) forward_si.io fun _ _ =>
      Holds.bind (V := fun _ => True) (isOk_si symSet_si).io fun _ _ => Holds.ite
      (fun _ => Holds.bind (V := fun _ => True) text_si.io fun _ _ => ih) fun _ => ?_
    refine Holds.bind (V := fun _ => True) (Holds.ite (fun _ => (isOk_si symSet_si).io)
      fun _ => Holds.pure trivial) fun _ _ => Holds.ite
      (fun _ => Holds.bind (V := fun _ => True) text_si.io fun _ _ => ih) fun _ => ?_
    refine Holds.bind (V := fun _ => True) (Holds.isOk ind_io fun _ => trivial) fun _ _ =>
      Holds.ite (fun _ => ih) fun _ => ?_
    refine Holds.bind (V := fun _ => True) (try_si gap_si).io fun o _ => ?_
    cases o with
    | some t =>
      refine Holds.bind (V := fun _ => True) (Holds.isOk ind_io fun _ => trivial) fun _ _ => ?_
      exact Holds.ite (fun _ => ih) fun _ => Holds.pure trivial
    | none => exact Holds.pure trivial

/-- One step of a method that keeps the mark and only calls `ind L`. -/
structure StpI (doc : Bytes) (L : Nat) (s s' : Parser) : Prop where
  wf : PWF (tc doc) s'
  eaten : s'.eaten = s.eaten
  indent : Ind L s.indent s'.indent

theorem Stp.i {L : Nat} {a b : Parser} (h : Stp doc a b) : StpI doc L a b := ⟨h.wf, h.eaten, .inl h.indent⟩
theorem StpI.trans {L : Nat} {a b c : Parser} (h : StpI doc L a b) (h' : StpI doc L b c) : StpI doc L a c :=
  ⟨h'.wf, h'.eaten.trans h.eaten, h.indent.trans h'.indent⟩

theorem runs_stpi {L : Nat} {x : PM α} (h : (PK (tc doc)).Holds x (fun _ => True)) (hi : IndOnly L x)
    (hs : PWF (tc doc) s) : Runs x s (fun _ s' => StpI doc L s s') (fun _ s' => StpI doc L s s') := by
  have hr := runs_pk h hs
  have hi := (hi s trivial).2.1
  unfold Runs at *
  rcases hx : x s with ⟨r, s'⟩
  rw [hx] at hr hi
  cases r with
  | ok a => exact ⟨hr.1, hr.2, hi⟩
  | err e => exact ⟨hr.1, hr.2, hi⟩
  | panic p => trivial
  | diverge => exact hr

/-- A block scalar: nothing is moved unless it begins with its sign. -/
theorem block_runs {L : Nat} {c sep : UInt8} {leading : Bool} (hs : PWF (tc doc) s) :
    Runs (do
      sym c
      let ch ← chomp
      ws (.more 0)
      let v ← stringWrapped L sep leading
      pure (ch.apply v)) s
      (fun _ s' => StpI doc L s s')
      (fun _ s' => StpI doc L s s' ∧ (s.rest.head? ≠ some c → Stp doc s s' ∧ s'.pos = s.eaten)) := by
  have hle : s.pos ≤ s.doc.length := by rw [hs.doc]; exact hs.pos
  by_cases hc : s.rest.head? = some c
  · refine Runs.bind ((sym_runs hs).mono (fun _ s1 h1 => ?_) fun _ _ h => ⟨h.2.1.i, fun _ => ⟨h.2.1, h.2.2⟩⟩)
    refine Runs.bind ((runs_stp (chomp_pk (c := tc doc)) chomp_si h1.1.wf).mono (fun _ s2 h2 => ?_)
      fun _ _ h => ⟨(h1.1.trans h).i, fun h => absurd hc h⟩)
    refine Runs.bind ((more0_runs h2.wf).mono (fun _ s3 h3 => ?_) fun _ _ h => h)
    refine Runs.bind ((runs_stpi (L := L) stringWrapped_pk stringWrapped_io h3.1.wf).mono
      (fun _ s4 h4 => ?_) fun _ _ h => ?_)
    · exact ((h1.1.trans h2).trans h3.1).i.trans h4
    · exact ⟨((h1.1.trans h2).trans h3.1).i.trans h, fun h => absurd hc h⟩
  · have hm : sym c s = (.err .mismatch, { s with pos := s.eaten }) := by
      simp only [sym, symSet, takeWhile, hle, if_true]
      have h0 : takeCount (isIn [c]) .one s.rest 0 = 0 := by
        cases hr : s.rest with
        | nil => simp [takeCount]
        | cons x r =>
          rw [hr] at hc
          have : x ≠ c := by simpa using hc
          have : isIn [c] x = false := by
            simp only [isIn, notIn]
            simp [this]
          simp [takeCount, this]
      simp [h0, TakeOpt.lo?]
    have hr := sym_runs (c := c) hs
    unfold Runs at *
    rw [hm] at hr
    rw [bind_err hm]
    exact ⟨hr.2.1.i, fun _ => ⟨hr.2.1, hr.2.2⟩⟩

/-- A plain scalar is read in finitely many steps if its continuation lines
have to be indented. -/
theorem plainLoop_runs {L : Nat} {inner : Bool} {patt : Bytes} {n : Nat} : ∀ {v : Bytes} {lead : Bool}
    {s : Parser}, PWF (tc doc) s → Deep L s.indent → doc.length - s.pos < n →
    Runs (plainLoop L inner patt n v lead) s
      (fun _ s' => PWF (tc doc) s' ∧ s.eaten ≤ s'.eaten)
      (fun _ s' => PWF (tc doc) s' ∧ s.eaten ≤ s'.eaten) := by
  induction n with
  | zero => intro _ _ s _ _ h; omega
  | succ n ih =>
    intro v lead s hs hd hn
    have hpos : s.eaten ≤ s.pos := hs.eaten
    have w0 : PWF (tc doc) { s with eaten := s.pos } :=
      ⟨hs.doc, hs.consumed, Nat.zero_le _, Nat.le_refl _, hs.pos, hs.indent, hs.tag1, hs.tag2⟩
    refine Runs.bind (Runs.modify (f := fun s : Parser => { s with eaten := s.pos }) ?_)
    -- the next round, from a state further on
    have next : ∀ {v lead} {s' : Parser}, PWF (tc doc) s' → Deep L s'.indent → s.pos + 1 ≤ s'.pos →
        s.pos ≤ s'.eaten →
        Runs (plainLoop L inner patt n v lead) s'
          (fun _ s'' => PWF (tc doc) s'' ∧ s.eaten ≤ s''.eaten)
          (fun _ s'' => PWF (tc doc) s'' ∧ s.eaten ≤ s''.eaten) := by
      intro v lead s' w d hp he
      have hl : s'.pos ≤ doc.length := w.pos
      exact (ih w d (by omega)).mono (fun _ _ h => ⟨h.1, by have := h.2; omega⟩)
        fun _ _ h => ⟨h.1, by have := h.2; omega⟩
    refine Runs.bind ((more0_runs w0).mono (fun _ s1 h1 => ?_) fun _ _ h => h)
    refine Runs.bind ((runs_stp text_pk text_si h1.1.wf).mono (fun t s2 h2 => ?_) fun _ _ h => ?_)
    rotate_left
    · exact ⟨h.wf, by have := h.eaten; have := h1.1.eaten; simp at *; omega⟩
    have e2 : s2.eaten = s.pos := h2.eaten.trans h1.1.eaten
    have i2 : s2.indent = s.indent := h2.indent.trans h1.1.indent
    have w2 := h2.wf
    have p2 : s.pos ≤ s2.pos := by rw [← e2]; exact w2.eaten
    have w3 : PWF (tc doc) { s2 with eaten := s2.pos } :=
      ⟨w2.doc, w2.consumed, Nat.zero_le _, Nat.le_refl _, w2.pos, w2.indent, w2.tag1, w2.tag2⟩
    refine Runs.bind (Runs.modify (f := fun s : Parser => { s with eaten := s.pos }) ?_)
    refine Runs.bind ((runs_stp plainStop_pk plainStop_si w3).mono (fun b s4 h4 => ?_) fun _ _ h => ?_)
    rotate_left
    · exact ⟨h.wf, by have := h.eaten; simp at *; omega⟩
    have e4 : s4.eaten = s2.pos := h4.eaten
    have i4 : s4.indent = s.indent := h4.indent.trans i2
    have w4 := h4.wf
    have p4 : s4.eaten ≤ s4.pos := w4.eaten
    refine Runs.ite (fun _ => ?_) fun _ => ?_
    · refine Runs.bind ((runs_stp backward_pk backward_si w4).mono (fun _ s5 h5 => Runs.pure ?_) fun _ _ h => ?_)
      · exact ⟨h5.wf, by have := h5.eaten; omega⟩
      · exact ⟨h.wf, by have := h.eaten; omega⟩
    have w5 : PWF (tc doc) { s4 with eaten := s4.pos } :=
      ⟨w4.doc, w4.consumed, Nat.zero_le _, Nat.le_refl _, w4.pos, w4.indent, w4.tag1, w4.tag2⟩
    refine Runs.bind (Runs.modify (f := fun s : Parser => { s with eaten := s.pos }) ?_)
    refine Runs.bind (Runs.isOk ((symSet_runs w5).mono (fun _ s6 h6 => ?_) fun _ s6 h6 => ?_))
    · -- `: `
      have e6 : s6.eaten = s4.pos := h6.1.eaten
      have p6 : s6.pos = s4.pos + 1 := h6.2
      have i6 : s6.indent = s.indent := h6.1.indent.trans i4
      refine Runs.ite (fun _ => ?_) fun h => absurd rfl h
      refine Runs.bind ((runs_stp text_pk text_si h6.1.wf).and
        (?_ : Runs text s6 (fun _ s' => s'.pos = s6.pos) (fun _ s' => s'.pos = s6.pos)) |>.mono (fun t s7 h7 => ?_) fun _ _ h => ?_)
      · unfold Runs text
        split
        · rename_i h; split at h
          · split at h <;> simp at h; rw [← h.2]
          · simp at h; rw [← h.2]
        · rename_i h; split at h
          · split at h <;> simp at h
          · simp at h
        · trivial
        · rename_i h; split at h
          · split at h <;> simp at h
          · simp at h
      · refine next h7.1.wf (by rw [h7.1.indent, i6]; exact hd) ?_ ?_
        · have := h7.2; omega
        · have := h7.1.eaten; omega
      · exact ⟨h.1.wf, by have := h.1.eaten; omega⟩
    · have e6 : s6.eaten = s4.pos := h6.2.1.eaten
      have p6 : s6.pos = s4.pos := h6.2.2
      have i6 : s6.indent = s.indent := h6.2.1.indent.trans i4
      have w6 := h6.2.1.wf
      refine Runs.ite (fun h => absurd h (by simp)) fun _ => ?_
      have brk : Runs (if !inner && !(v ++ t).isEmpty then M.isOk (symSet b!"{}[]") else pure false) s6
          (fun b s7 => Stp doc s6 s7 ∧ (b = true → s7.pos = s6.pos + 1)) (fun _ _ => False) := by
        refine Runs.ite (fun _ => ?_) fun _ => Runs.pure ⟨Stp.refl w6, by simp⟩
        exact Runs.isOk ((symSet_runs w6).mono (fun _ _ h => ⟨h.1, fun _ => h.2⟩)
          fun _ _ h => ⟨h.2.1, by simp⟩)
      refine Runs.bind (brk.mono (fun b s7 h7 => ?_) fun _ _ h => h.elim)
      have e7 : s7.eaten = s4.pos := h7.1.eaten.trans e6
      have i7 : s7.indent = s.indent := h7.1.indent.trans i6
      have w7 := h7.1.wf
      refine Runs.ite (fun hb => ?_) fun _ => ?_
      · refine Runs.bind ((runs_stp text_pk text_si w7).and
          (?_ : Runs text s7 (fun _ s' => s'.pos = s7.pos) (fun _ s' => s'.pos = s7.pos)) |>.mono (fun t s8 h8 => ?_) fun _ _ h => ?_)
        · unfold Runs text
          split
          · rename_i h; split at h
            · split at h <;> simp at h; rw [← h.2]
            · simp at h; rw [← h.2]
          · rename_i h; split at h
            · split at h <;> simp at h
            · simp at h
          · trivial
          · rename_i h; split at h
            · split at h <;> simp at h
            · simp at h
        · refine next h8.1.wf (by rw [h8.1.indent, i7]; exact hd) ?_ ?_
          · have := h8.2; have := h7.2 hb; omega
          · have := h8.1.eaten; omega
        · exact ⟨h.1.wf, by have := h.1.eaten; omega⟩
      have p7 : s7.eaten ≤ s7.pos := w7.eaten
      refine Runs.bind (Runs.isOk ((ind_runs (L := L) w7).mono (fun _ s8 h8 => ?_) fun _ s8 h8 => ?_))
      · obtain ⟨w8, e8, i8, p8⟩ := h8
        refine Runs.ite (fun _ => ?_) fun h => absurd rfl h
        have hw := Deep.want (L := L) (t := s7.indent) (by rw [i7]; exact hd)
        refine next w8 (by rw [i8, i7]; exact hd.keep (keep_indentFor _ _)) (by omega) (by omega)
      · obtain ⟨-, w8, e8, i8, -, p8⟩ := h8
        refine Runs.ite (fun h => absurd h (by simp)) fun _ => ?_
        refine Runs.bind (Runs.try? ((gap_runs w8).mono (fun t s9 h9 => ?_) fun _ s9 h9 => ?_))
        · obtain ⟨h9, p9, -⟩ := h9
          have e9 := h9.eaten
          have i9 := h9.indent
          have w9 := h9.wf
          have d9 : Deep L s9.indent := by
            rw [i9, i8, i7]; exact hd.keep (keep_indentFor _ _)
          have q8 : s8.eaten ≤ s8.pos := w8.eaten
          refine Runs.bind (Runs.isOk ((ind_runs (L := L) w9).mono (fun _ s10 h10 => ?_) fun _ s10 h10 => ?_))
          · obtain ⟨w10, e10, i10, p10⟩ := h10
            refine Runs.ite (fun _ => ?_) fun h => absurd rfl h
            refine next w10 (by rw [i10]; exact d9.keep (keep_indentFor _ _)) (by omega) (by omega)
          · obtain ⟨-, w10, e10, -⟩ := h10
            refine Runs.ite (fun h => absurd h (by simp)) fun _ => Runs.pure ⟨w10, by omega⟩
        · exact Runs.pure ⟨h9.2.1.wf, by have := h9.2.1.eaten; omega⟩

theorem stringPlain_runs {L n : Nat} {inner : Bool} (hs : PWF (tc doc) s) (hd : Deep L s.indent)
    (hn : doc.length - s.pos < n) :
    Runs (stringPlain n L inner) s (fun _ s' => StpI doc L s s') (fun _ s' => StpI doc L s s') := by
  have w0 : PWF (tc doc) { s with eaten := s.pos } :=
    ⟨hs.doc, hs.consumed, Nat.zero_le _, Nat.le_refl _, hs.pos, hs.indent, hs.tag1, hs.tag2⟩
  have hb : Runs (do
      let v ← plainLoop L inner (plainPatt inner) n [] false
      let v := trimEnd v
      if v.isEmpty then mismatch else pure v) { s with eaten := s.pos }
      (fun _ s' => PWF (tc doc) s' ∧ s.pos ≤ s'.eaten)
      (fun _ s' => PWF (tc doc) s' ∧ s.pos ≤ s'.eaten) := by
    refine Runs.bind ((plainLoop_runs w0 hd hn).mono (fun v s1 h1 => ?_) fun _ _ h => h)
    exact Runs.ite (fun _ => h1) fun _ => Runs.pure h1
  have hi : IndOnly L (stringPlain n L inner) := context_io (Holds.bind (V := fun _ => True) plainLoop_io
    fun _ _ => Holds.ite (fun _ => mismatch_si.io) fun _ => Holds.pure trivial)
  have hi := (hi s trivial).2.1
  have he : s.eaten ≤ s.pos := hs.eaten
  rcases hx : (do
      let v ← plainLoop L inner (plainPatt inner) n [] false
      let v := trimEnd v
      if v.isEmpty then mismatch else pure v : PM Bytes) { s with eaten := s.pos } with ⟨r, s'⟩
  have hc : stringPlain n L inner s = (r, { s' with eaten := s.eaten }) := by
    unfold stringPlain context
    simp only [hx]
  unfold Runs at *
  rw [hx] at hb
  rw [hc] at hi ⊢
  have fin : PWF (tc doc) s' ∧ s.pos ≤ s'.eaten → StpI doc L s { s' with eaten := s.eaten } := by
    rintro ⟨w, e⟩
    have := w.eaten
    refine ⟨⟨w.doc, w.consumed, Nat.zero_le _, ?_, w.pos, w.indent, w.tag1, w.tag2⟩, rfl, hi⟩
    show s.eaten ≤ s'.pos
    omega
  cases r with
  | ok a => exact fin hb
  | err e => exact fin hb
  | panic p => trivial
  | diverge => exact hb

end
end YamlPeg
