import Verif.Proof.RunsF
/-! # Termination of block collections and of the whole parse -/

namespace YamlPeg
open M Frame

section
variable {doc : Bytes} {l : Loader}

theorem indDefine_runs {s : Parser} {m : Nat} (hs : PWF (tc doc) s) :
    Runs (indDefine (m + 1)) s
      (fun _ s' => PWF (tc doc) s' ∧ s'.eaten = s.eaten ∧ s'.indent.length = m + 2 ∧ Keep (m + 1) s.indent s'.indent)
      (fun e s' => e = .mismatch ∧ PWF (tc doc) s' ∧ s'.eaten = s.eaten ∧ s'.indent.length = m + 1 ∧
        Keep (m + 1) s.indent s'.indent) := by
  have hr := runs_pk (indDefine_pk (c := tc doc) (level := m + 1)) hs
  have hi : Runs (indDefine (m + 1)) s
      (fun _ s' => s'.indent.length = m + 2 ∧ Keep (m + 1) s.indent s'.indent)
      (fun e s' => e = .mismatch ∧ s'.indent.length = m + 1 ∧ Keep (m + 1) s.indent s'.indent) := by
    refine Runs.bind (Runs.mono (x := ind m) (ind_runs hs) (fun _ s1 h1 => ?_) fun e s1 h1 => ?_)
    · obtain ⟨w1, e1, i1, -⟩ := h1
      obtain ⟨k, pre, mid, post, rfl⟩ := PWF.exists_st w1
      have hl : k.indent.length = m + 1 := by
        have : k.indent = indentFor m s.indent := i1
        rw [this, indentFor_len]
      show Runs (defineTail (m + 1)) _ _ _
      unfold Runs
      simp only [defineTail, bind_run, count_more0, get_run]
      rw [if_pos (by simpa using hl.symm)]
      simp only [modify_run]
      refine ⟨by simp [hl], fun i hi => ?_⟩
      have i1 : k.indent = indentFor m s.indent := i1
      show (k.indent ++ _)[i]? = _ ∨ _ ∧ (k.indent ++ _)[i]? = _
      rw [List.getElem?_append_left (by omega), i1]
      exact keep_indentFor m s.indent i hi
    · obtain ⟨he, w1, e1, i1, -, -⟩ := h1
      exact ⟨he, by rw [i1, indentFor_len], by rw [i1]; exact keep_indentFor _ _⟩
  exact (hr.and hi).mono (fun _ _ h => ⟨h.1.1, h.1.2, h.2.1, h.2.2⟩) fun _ _ h => ⟨h.2.1, h.1.1, h.1.2, h.2.2.1, h.2.2.2⟩

/-- A value may begin at the cursor and at the mark. -/
def QB (doc : Bytes) (l : Loader) : Prop := QAt doc l.parser.pos ∧ QAt doc l.parser.eaten

/-- Entering the first item. -/
theorem firstItem_runs {L : Nat} {map : Bool} (hq : QuotesClosed doc) (hs : PWF (tc doc) l.parser)
    (hql : QAt doc l.parser.pos) (hp : l.parser.pos = l.parser.eaten)
    (hm : map = true → 1 ≤ L) (he : Ent L map l) :
    Runs (firstItem L map) l
      (fun _ l' => Gd doc L l l' ∧ l'.parser.eaten = l.parser.eaten ∧ Deep (L + 1) l'.parser.indent ∧
        (map = true → GapAt l.parser) ∧ QAt doc l'.parser.pos)
      (fun _ l' => Gd doc L l l' ∧ Deep L l'.parser.indent ∧ QB doc l') := by
  have hqe : QAt doc l.parser.eaten := by rw [← hp]; exact hql
  cases map with
  | true =>
    have hm := hm rfl
    obtain ⟨m, rfl⟩ : ∃ m, L = m + 1 := ⟨L - 1, by omega⟩
    refine Runs.ite (fun _ => ?_) fun h => absurd rfl h
    refine Runs.bind (Runs.lift (((gap_runs hs).and (gap_qat hq hs)).mono (fun _ p h => ?_) fun e p h => ?_))
    · obtain ⟨⟨h, -, hg⟩, hr⟩ := h
      refine Runs.lift (((indDefine_runs h.wf).and (indDefine_qat hq h.wf hr)).mono (fun _ q hq => ?_) fun e q hq => ?_)
      · obtain ⟨⟨w, e, i, k⟩, rq⟩ := hq
        refine ⟨⟨w, Nat.le_of_eq (e.trans h.eaten).symm, ?_⟩, e.trans h.eaten, .inl ?_, fun _ => hg, rq⟩
        · rw [← h.indent]; exact k
        · exact Nat.le_of_eq i
      · obtain ⟨⟨-, w, e, i, k⟩, hpos⟩ := hq
        refine ⟨⟨w, Nat.le_of_eq (e.trans h.eaten).symm, ?_⟩, .inl ?_, ?_, ?_⟩
        · rw [← h.indent]; exact k
        · exact Nat.le_of_eq i
        · show QAt doc q.pos
          rw [hpos, h.eaten]; exact hqe
        · show QAt doc q.eaten
          rw [e, h.eaten]; exact hqe
    · obtain ⟨⟨-, h, hg⟩, hr⟩ := h
      refine ⟨h.gd, ?_, hr hql, ?_⟩
      · show Deep _ p.indent
        rw [h.indent]
        exact he.resolve_right hg
      · show QAt doc p.eaten
        rw [h.eaten]; exact hqe
  | false =>
    refine Runs.ite (fun h => absurd h (by simp)) fun _ => ?_
    refine (gapThenInd_runs (K := L) hq (by omega) hs).mono (fun _ l' h => ?_) fun e l' h => ?_
    · obtain ⟨g, e, r, ⟨hg, i⟩ | ⟨hg, i, -⟩⟩ := h
      · exact ⟨g, e, .inl (by rw [i]; simp), by simp, r hql⟩
      · refine ⟨g, e, ?_, by simp, r hql⟩
        rw [i]
        have := he.resolve_right hg
        exact this
    · obtain ⟨-, g, -, i, hp, hpos, heat⟩ := h
      refine ⟨g, .inr ?_, ?_, ?_⟩
      · rw [List.take_of_length_le (by rw [i]; simp)]
        exact hp
      · rw [hpos]; exact hqe
      · rw [heat]; exact hqe

theorem docEnd_runs {Q : Bool → Loader → Prop} {E : PErr → Loader → Prop} (hs : PWF (tc doc) l.parser)
    (h : Q (l.parser.rest.isEmpty || docMark l.parser.rest) l) : Runs docEnd l Q E := by
  obtain ⟨k, pre, mid, post, hst⟩ := PWF.exists_st hs
  have hl : l = ld l (st k pre mid post) := by rw [← hst]; rfl
  unfold Runs
  rw [hl, docEnd_eq]
  have hp : l.parser.rest = post := by rw [hst, st_rest]
  rw [hp] at h
  rw [← hl]
  exact h

theorem gapAt_head {s : Parser} (h : GapAt s) {c : UInt8} (hc : s.rest.head? = some c) :
    c = 0x0A ∨ c = 0x0D ∨ c = 0x23 ∨ isBlank c = true := by
  unfold GapAt at h
  cases hr : s.rest with
  | nil => rw [hr] at hc; simp at hc
  | cons x r =>
    rw [hr] at hc h
    simp only [List.head?_cons, Option.some.injEq] at hc
    subst hc
    by_cases hb : isBlank x = true
    · exact .inr (.inr (.inr hb))
    · by_cases h23 : x = 0x23
      · exact .inr (.inr (.inl h23))
      · simp only [gapSpec, gapLead, if_true, cmtSkip, List.dropWhile] at h
        rw [show isBlank x = false by simpa using hb] at h
        simp only at h
        split at h
        · rename_i heq; simp at heq; exact absurd heq.1 h23
        · have h1 : ¬ nlLen (x :: r) = 0 := by
            intro hz
            simp [hz] at h
          rw [nlLen_zero_iff] at h1
          by_cases ha : x = 0x0A
          · exact .inl ha
          · refine .inr (.inl ?_)
            by_cases hd : x = 0x0D
            · exact hd
            · exact absurd (by rintro _ _ ⟨⟩; exact ⟨ha, hd⟩) h1

theorem gapAt_ne {s : Parser} (h : GapAt s) {c : UInt8} (hc : c ≠ 0x0A ∧ c ≠ 0x0D ∧ c ≠ 0x23 ∧ isBlank c = false) :
    s.rest.head? ≠ some c := by
  intro hh
  rcases gapAt_head h hh with h | h | h | h
  · exact hc.1 h
  · exact hc.2.1 h
  · exact hc.2.2.1 h
  · rw [hc.2.2.2] at h; simp at h

theorem noColon_of_head {s : Parser} (h : s.rest.head? ≠ some 0x3A) : NoColon s := by
  intro r hr
  rw [hr] at h; simp at h

/-- Between two items. -/
theorem nextItem_runs {L : Nat} {name : String} (hq : QuotesClosed doc) (hs : PWF (tc doc) l.parser) :
    Runs (nextItem L name) l
      (fun b l' => Gd doc (L + 1) l l' ∧ l'.parser.eaten = l.parser.eaten ∧ l.parser.rest.head? ≠ some 0x3A ∧
        (b = false → l'.parser.indent = indentFor L l.parser.indent ∧ QAt doc l'.parser.pos)) NM := by
  have hcol : l.parser.rest.head? = some 0x3A → gap true l.parser = (.err .mismatch, l.parser) := by
    intro hh
    obtain ⟨k, pre, mid, post, hst⟩ := PWF.exists_st hs
    rw [hst, st_rest] at hh
    rw [hst]
    cases post with
    | nil => simp at hh
    | cons x r =>
      simp only [List.head?_cons, Option.some.injEq] at hh
      subst hh
      exact gap_tok _ _ _ (by decide) _
  have hg : Runs (gap true) l.parser (fun _ s' => Stp doc l.parser s' ∧ l.parser.rest.head? ≠ some 0x3A)
      (fun _ s' => Stp doc l.parser s' ∧ (l.parser.rest.head? = some 0x3A → s' = l.parser)) := by
    have hr := gap_runs hs
    unfold Runs at *
    by_cases hh : l.parser.rest.head? = some 0x3A
    · rw [hcol hh] at hr ⊢
      exact ⟨hr.2.1, fun _ => rfl⟩
    · rcases hx : gap true l.parser with ⟨r, s'⟩
      rw [hx] at hr
      cases r with
      | ok t => exact ⟨hr.1, hh⟩
      | err e => exact ⟨hr.2.1, fun h => absurd h hh⟩
      | panic p => trivial
      | diverge => exact hr
  have fin : ∀ p, Stp doc l.parser p → l.parser.rest.head? ≠ some 0x3A → QAt doc p.pos →
      Runs (do
        if ← docEnd then pure true
        else do pure (!(← M.isOk (lift (ind L))))) { l with parser := p }
        (fun b l' => Gd doc (L + 1) l l' ∧ l'.parser.eaten = l.parser.eaten ∧ l.parser.rest.head? ≠ some 0x3A ∧
        (b = false → l'.parser.indent = indentFor L l.parser.indent ∧ QAt doc l'.parser.pos)) NM := by
    intro p h hh hr
    refine Runs.bind (docEnd_runs h.wf ?_)
    refine Runs.ite (fun _ => Runs.pure ⟨h.gd, h.eaten, hh, by simp⟩) fun _ => ?_
    refine Runs.bind (Runs.isOk (Runs.lift (((ind_runs (L := L) (s := p) h.wf).and (ind_qat hq h.wf hr)).mono (fun _ q hq => ?_) fun e q hq => ?_)))
    · obtain ⟨⟨w, e, i, -⟩, rq⟩ := hq
      have i' : q.indent = indentFor L l.parser.indent := by rw [i, h.indent]
      refine Runs.pure ⟨⟨w, Nat.le_of_eq (e.trans h.eaten).symm, ?_⟩, e.trans h.eaten, hh, fun _ => ⟨i', rq⟩⟩
      show Keep _ _ q.indent
      rw [i']; exact keep_indentFor _ _
    · obtain ⟨⟨-, w, e, i, -, -⟩, -⟩ := hq
      have i' : q.indent = indentFor L l.parser.indent := by rw [i, h.indent]
      refine Runs.pure ⟨⟨w, Nat.le_of_eq (e.trans h.eaten).symm, ?_⟩, e.trans h.eaten, hh, by simp⟩
      show Keep _ _ q.indent
      rw [i']; exact keep_indentFor _ _
  refine Runs.bind (Runs.isOk (Runs.lift ((hg.and (gap_qat hq hs)).mono (fun _ p h => ?_) fun _ p h => ?_)))
  · exact Runs.bind (Runs.pure (Runs.ite (fun h => absurd h (by simp)) fun _ => fin p h.1.1 h.1.2 h.2))
  · obtain ⟨h, -⟩ := h
    refine Runs.bind (Runs.bind (docEnd_runs h.1.wf (Runs.pure ?_)))
    refine Runs.ite (fun _ => lerr_runs) fun hb => fin p h.1 (fun hh => hb ?_) ?_
    rotate_left
    · rw [qat_rest h.1.wf]
      have hb : (p.rest.isEmpty || docMark p.rest) = true := by
        rcases hx : (p.rest.isEmpty || docMark p.rest) with _ | _
        · exact absurd (show (!(p.rest.isEmpty || docMark p.rest)) = true by rw [hx]; rfl) hb
        · rfl
      refine QOk.head fun c hc => ?_
      cases hr : p.rest with
      | nil => rw [hr] at hc; simp at hc
      | cons x r =>
        rw [hr] at hb hc
        simp only [List.head?_cons, Option.some.injEq] at hc
        subst hc
        refine ⟨?_, ?_, ?_, ?_⟩ <;> (rintro rfl; revert hb; simp [docMark, List.isPrefixOf])
    have hp : p = l.parser := h.2 hh
    show (!(p.rest.isEmpty || docMark p.rest)) = true
    rw [hp]
    cases hr : l.parser.rest with
    | nil => rw [hr] at hh; simp at hh
    | cons x r =>
      rw [hr] at hh
      simp only [List.head?_cons, Option.some.injEq] at hh
      subst hh
      simp [docMark, List.isPrefixOf]

theorem boundL_runs {L : Nat} (hq : QuotesClosed doc) (hs : PWF (tc doc) l.parser) :
    Runs (lift bound) l (fun _ l' => Gd doc L l l' ∧ l.parser.pos ≤ l'.parser.pos ∧
        l'.parser.indent = l.parser.indent ∧ l'.parser.eaten = l.parser.eaten ∧ QAt doc l'.parser.pos)
      (fun e l' => Gd doc L l l' ∧ l'.parser.pos = l.parser.eaten ∧
        l'.parser.indent = l.parser.indent ∧ l'.parser.eaten = l.parser.eaten) :=
  Runs.lift (((bound_runs hs).and (bound_qat hq hs)).mono (fun _ _ h => ⟨h.1.1.gd, h.1.2, h.1.1.indent, h.1.1.eaten, h.2⟩)
    fun _ _ h => ⟨h.1.2.1.gd, h.1.2.2, h.1.2.1.indent, h.1.2.1.eaten⟩)

theorem bwd_rest {l' : Loader} (h1 : PWF (tc doc) l.parser) (h2 : PWF (tc doc) l'.parser)
    (he : l'.parser.eaten = l.parser.pos) : (bwd l').parser.rest = l.parser.rest :=
  rest_congr (by show l'.parser.doc = _; rw [h1.doc, h2.doc]) he

/-- The loop of a block sequence. -/
theorem seqLoop_runs {n : Nat} {sc : ScalarCall} (hq : QuotesClosed doc) (hsc : ScRuns doc n sc) {L : Nat} {map : Bool}
    (hm : map = true → 1 ≤ L) : ∀ {k : Nat} {v : List Node} {l : Loader}, PWF (tc doc) l.parser →
    (v.isEmpty = true → Ent L map l ∧ QAt doc l.parser.pos) → doc.length - l.parser.pos + 1 ≤ k → doc.length - l.parser.pos + 1 ≤ n →
    Runs (seqLoop sc L map k v) l (fun _ l' => Gd doc L l l' ∧ NoColon (bwd l').parser)
      (fun e l' => e = .mismatch → Gd doc L l l' ∧ Ent L map l' ∧ QB doc l') := by
  intro k
  induction k with
  | zero => intro v l _ _ h; omega
  | succ k ih =>
    intro v l hs hent hf hn
    refine Runs.bind (forward_runs ?_)
    have g1 := fwd_gd (L := L) hs
    -- the beginning of the round
    refine Runs.bind (Runs.mono (Q := fun stop l2 => Gd doc L l l2 ∧ (stop = true → NoColon (bwd l2).parser) ∧
        (stop = false → Deep (L + 1) l2.parser.indent ∧ l.parser.pos + 1 ≤ l2.parser.pos ∧ QAt doc l2.parser.pos))
      (E := fun e l' => e = .mismatch → Gd doc L l l' ∧ Ent L map l' ∧ QB doc l') ?_ (fun stop l2 h2 => ?_) fun _ _ h => h)
    · refine Runs.ite (fun hv => ?_) fun hv => ?_
      · obtain ⟨he, hql⟩ := hent hv
        refine Runs.bind ((firstItem_runs (l := fwd l) hq g1.wf hql rfl hm he).mono (fun _ l2 h2 => ?_) fun e l2 h2 _ => ?_)
        · obtain ⟨g2, e2, d2, ga, r2⟩ := h2
          rw [fwd_eaten] at e2
          have g2' := g1.trans g2
          have q2 := g2.wf.eaten
          have ent : ∀ l3 : Loader, Gd doc L l2 l3 → l3.parser.pos = l2.parser.eaten →
              l3.parser.indent = l2.parser.indent → Ent L map l3 := by
            intro l3 g3 p3 i3
            cases map with
            | false => left; rw [i3]; exact d2
            | true =>
              right
              have := ga rfl
              unfold GapAt at *
              rw [rest_congr (s := l.parser) (by rw [g3.wf.doc, hs.doc]) (by rw [p3, e2])]
              exact this
          refine Runs.bind ((symL_runs (L := L) hq g2.wf).mono (fun _ l3 h3 => ?_) fun _ l3 h3 _ => ?_)
          · obtain ⟨g3, p3, i3, e3, -⟩ := h3
            refine Runs.bind ((boundL_runs (L := L) hq g3.wf).mono (fun _ l4 h4 => Runs.pure ?_) fun _ l4 h4 _ => ?_)
            · obtain ⟨g4, p4, i4, e4, r4⟩ := h4
              exact ⟨g2'.trans (g3.trans g4), by simp, fun _ => ⟨by rw [i4, i3]; exact d2, by omega, r4⟩⟩
            · obtain ⟨g4, p4, i4, e4⟩ := h4
              exact ⟨g2'.trans (g3.trans g4), ent l4 (g3.trans g4) (by rw [p4, e3]) (by rw [i4, i3]),
                by rw [p4, e3, e2]; exact hql, by rw [e4, e3, e2]; exact hql⟩
          · obtain ⟨g3, p3, i3, e3⟩ := h3
            exact ⟨g2'.trans g3, ent l3 g3 p3 i3, by rw [p3, e2]; exact hql, by rw [e3, e2]; exact hql⟩
        · refine ⟨g1.trans h2.1, .inl ?_, h2.2.2⟩
          cases map
          · exact h2.2.1.mono (by simp)
          · exact h2.2.1
      · refine Runs.bind ((nextItem_runs (l := fwd l) hq g1.wf).mono (fun b l2 h2 => ?_) fun _ _ h h' => absurd h' h)
        obtain ⟨g2, e2, hh, i2⟩ := h2
        rw [fwd_eaten] at e2
        have g2' := g1.trans (g2.le (by omega))
        have nc : ∀ l3 : Loader, PWF (tc doc) l3.parser → l3.parser.eaten = l2.parser.eaten → NoColon (bwd l3).parser := by
          intro l3 w3 e3
          refine noColon_of_head ?_
          rw [bwd_rest (l := fwd l) g1.wf w3 (by rw [e3, e2, fwd_pos])]
          exact hh
        refine Runs.ite (fun _ => Runs.pure ⟨g2', fun _ => nc l2 g2.wf rfl, by simp⟩) fun hb => ?_
        have hb : b = false := by simpa using hb
        have q2 := g2.wf.eaten
        have d2 : Deep (L + 1) l2.parser.indent := .inl (by rw [(i2 hb).1]; simp)
        refine Runs.bind (Runs.isOk ((symL_runs (L := L) hq g2.wf).mono (fun _ l3 h3 => ?_) fun _ l3 h3 => ?_))
        · refine Runs.ite (fun _ => ?_) fun h => absurd rfl h
          obtain ⟨g3, p3, i3, e3, -⟩ := h3
          refine Runs.bind (Runs.isOk ((boundL_runs (L := L) hq g3.wf).mono (fun _ l4 h4 => ?_) fun _ l4 h4 => ?_))
          · refine Runs.ite (fun _ => Runs.bind (forward_runs (Runs.pure ?_))) fun h => absurd rfl h
            obtain ⟨g4, p4, i4, e4, r4⟩ := h4
            have g4' := g2'.trans (g3.trans g4)
            refine ⟨g4'.trans (fwd_gd g4'.wf), by simp, fun _ => ⟨?_, ?_, r4⟩⟩
            · rw [fwd_indent, i4, i3]; exact d2
            · rw [fwd_pos]; omega
          · refine Runs.ite (fun h => absurd h (by simp)) fun _ => Runs.pure ?_
            obtain ⟨g4, p4, i4, e4⟩ := h4
            exact ⟨g2'.trans (g3.trans g4), fun _ => nc l4 g4.wf (by rw [e4, e3]), by simp⟩
        · refine Runs.ite (fun h => absurd h (by simp)) fun _ => Runs.pure ?_
          obtain ⟨g3, p3, i3, e3⟩ := h3
          exact ⟨g2'.trans g3, fun _ => nc l3 g3.wf e3, by simp⟩
    obtain ⟨g2, h2a, h2b⟩ := h2
    refine Runs.ite (fun hst => Runs.pure ⟨g2, h2a hst⟩) fun hst => ?_
    obtain ⟨d2, p2, r2⟩ := h2b (by simpa using hst)
    refine Runs.bind (forward_runs ?_)
    have g3 := g2.trans (fwd_gd g2.wf)
    have q2 : l2.parser.pos ≤ doc.length := g2.wf.pos
    have hc := hsc (L + 1) false false (fwd l2) g3.wf r2 rfl (by simp) (.inl (Deep.mono d2 (by simp)))
      (by rw [fwd_eaten]; omega)
    refine Runs.bind ((orErr_runs (hc.mono (fun _ _ h => h) fun _ _ _ => trivial)).mono (fun x l5 h5 => ?_)
      fun _ _ h h' => absurd h' h)
    have g5 := g3.trans (h5.gd.le (by omega))
    have e5 := h5.gd.eaten
    rw [fwd_eaten] at e5
    have q5 := g5.wf.eaten
    refine (ih g5.wf (by simp) (by omega) (by omega)).mono (fun _ _ h => ⟨g5.trans h.1, h.2⟩)
      fun e _ h hm => ⟨g5.trans (h hm).1, (h hm).2⟩


/-- `:` and a boundary. -/
theorem colonBound_runs {L : Nat} {E : PErr → Loader → Prop} (hq : QuotesClosed doc) (hs : PWF (tc doc) l.parser) :
    Runs colonBound l (fun b l' => Gd doc L l l' ∧ l'.parser.indent = l.parser.indent ∧
      l'.parser.eaten = l.parser.eaten ∧
      (b = true → ¬ NoColon l.parser ∧ l.parser.pos + 1 ≤ l'.parser.pos ∧ QAt doc l'.parser.pos) ∧
      (b = false → NoColon l.parser ∧ l'.parser.pos = l.parser.eaten)) E := by
  have hsym := sym_runs (c := 0x3A) hs
  obtain ⟨k, pre, mid, post, hst⟩ := PWF.exists_st hs
  have hrest : l.parser.rest = post := by rw [hst, st_rest]
  by_cases hc : post.head? = some 0x3A
  · obtain ⟨r, rfl⟩ : ∃ r, post = 0x3A :: r := by
      cases post with
      | nil => simp at hc
      | cons x r => simp at hc; exact ⟨r, by rw [hc]⟩
    have h1 : Runs (sym 0x3A) l.parser (fun _ s' => Stp doc l.parser s' ∧ s'.pos = l.parser.pos + 1 ∧ s'.rest = r)
        (fun _ _ => False) := by
      unfold Runs at *
      rw [hst, sym_hit] at hsym ⊢
      exact ⟨hsym.1, hsym.2, by rw [st_rest]⟩
    refine Runs.bind (Runs.isOk (Runs.lift (h1.mono (fun _ p h => ?_) fun _ _ h => h.elim)))
    obtain ⟨g, p1, r1⟩ := h
    refine Runs.ite (fun _ => ?_) fun h => absurd rfl h
    by_cases hb : headIn b!":{}[] ,\n\r" r = true
    · refine Runs.isOk (Runs.lift (((bound_runs_ok (E := fun _ _ => False) (s := p) g.wf (by rw [r1]; exact hb)).and
        (bound_qat hq g.wf)).mono (fun _ q hq => ?_) fun _ _ h => h.1.elim))
      obtain ⟨hq, rq⟩ := hq
      have g' := g.trans hq.1
      refine ⟨g'.gd, g'.indent, g'.eaten, fun _ => ⟨fun hn => ?_, ?_, rq⟩, by simp⟩
      · have := hn r hrest
        rw [hb] at this; simp at this
      · have := hq.2
        show l.parser.pos + 1 ≤ q.pos
        omega
    · have hbe : Runs bound p (fun _ _ => False) (fun _ s' => Stp doc p s' ∧ s'.pos = p.eaten) := by
        have hr := bound_runs g.wf
        unfold Runs at *
        obtain ⟨k', pre', mid', post', hst'⟩ := PWF.exists_st g.wf
        rw [hst', st_rest] at r1
        subst r1
        rw [hst', bound_eq, if_neg hb] at hr ⊢
        exact hr.2
      refine Runs.isOk (Runs.lift (hbe.mono (fun _ _ h => h.elim) fun _ q hq => ?_))
      have g' := g.trans hq.1
      refine ⟨g'.gd, g'.indent, g'.eaten, by simp, fun _ => ⟨?_, ?_⟩⟩
      · intro r' hr'
        rw [hrest] at hr'
        simp only [List.cons.injEq, true_and] at hr'
        subst hr'
        simpa using hb
      · show q.pos = _
        rw [hq.2, g.eaten]
  · have h1 : Runs (sym 0x3A) l.parser (fun _ _ => False) (fun _ s' => Stp doc l.parser s' ∧ s'.pos = l.parser.eaten) := by
      have hm := sym_absent hs (c := 0x3A) (by rw [hrest]; exact hc)
      unfold Runs at *
      rw [hm] at hsym ⊢
      exact hsym.2
    refine Runs.bind (Runs.isOk (Runs.lift (h1.mono (fun _ _ h => h.elim) fun _ q hq => ?_)))
    refine Runs.ite (fun h => absurd h (by simp)) fun _ => Runs.pure ?_
    exact ⟨hq.1.gd, hq.1.indent, hq.1.eaten, by simp, fun _ => ⟨noColon_of_head (by rw [hrest]; exact hc), hq.2⟩⟩

/-- A key, simple or complex. -/
theorem key_runs {n : Nat} {sc : ScalarCall} (hq : QuotesClosed doc) (hsc : ScRuns doc n sc) {L : Nat} {flow : Bool} {sf : LM Node}
    (hs : PWF (tc doc) l.parser) (hql : QAt doc l.parser.pos) (hp : l.parser.pos = l.parser.eaten) (hd : Deep (L + 1) l.parser.indent)
    (hn : doc.length - l.parser.eaten + 1 ≤ n)
    (hsf : ∀ l1 : Loader, PWF (tc doc) l1.parser → QAt doc l1.parser.pos → l1.parser.pos = l1.parser.eaten →
      Deep (L + 1) l1.parser.indent → doc.length - l1.parser.eaten + 1 ≤ n →
      Runs sf l1 (fun _ l' => Gd doc (L + 2) l1 l' ∧ l'.parser.pos = l'.parser.eaten) NM) :
    Runs (do
        if ← M.isOk (lift complexMapping) then complexKey sc L true flow "map key"
        else sf) l
      (fun _ l' => Gd doc (L + 1) l l' ∧ (Deep (L + 1) l'.parser.indent ∨ NoColon l'.parser) ∧
        (NoColon (bwd l').parser ∨ l'.parser.pos = l'.parser.eaten))
      (fun e l' => e = .mismatch → Gd doc (L + 1) l l' ∧ Deep L l'.parser.indent ∧ QB doc l') := by
  refine Runs.bind (Runs.isOk (Runs.lift (((complexMapping_runs' hs).and (complexMapping_qat hq hs)).mono (fun _ p h => ?_) fun _ p h => ?_)))
  · refine Runs.ite (fun _ => ?_) fun h => absurd rfl h
    obtain ⟨⟨h, hp1⟩, rp⟩ := h
    have g1 : Gd doc (L + 1) l { l with parser := p } := h.gd
    refine Runs.bind (forward_runs ?_)
    have g2 := g1.trans (fwd_gd g1.wf)
    have hqp : p.pos ≤ doc.length := h.wf.pos
    have hc := hsc (L + 1) true flow (fwd { l with parser := p }) g2.wf rp rfl (by simp)
      (.inl (by rw [fwd_indent]; show Deep _ p.indent; rw [h.indent]; exact hd))
      (by rw [fwd_eaten]; show doc.length - p.pos + 2 ≤ n; omega)
    refine Runs.bind ((orErr_runs (hc.mono (fun _ _ h => h) fun _ _ _ => trivial)).mono (fun x l3 h3 => ?_)
      fun _ _ h h' => absurd h' h)
    have g3 := g2.trans h3.gd
    refine Runs.bind ((gapThenInd_runs hq (Nat.le_refl (L + 1)) g3.wf).mono (fun _ l4 h4 => Runs.pure ?_) fun e l4 h4 _ => ?_)
    · obtain ⟨g4, e4, -, h4⟩ := h4
      have g4' := g3.trans g4
      have hbr : (bwd l4).parser.rest = l3.parser.rest := bwd_rest g3.wf g4.wf (by rw [e4, h3.marked])
      rcases h4 with ⟨hg, i4⟩ | ⟨hg, i4, hpos⟩
      · refine ⟨g4', .inl (.inl (by rw [i4]; simp)), .inl (noColon_of_head ?_)⟩
        rw [hbr]
        exact gapAt_ne hg (by decide)
      · rcases hpos with hpos | ⟨hr, hh⟩
        · refine ⟨g4', ?_, .inr (by rw [hpos, e4, h3.marked])⟩
          rcases h3.more rfl with hd3 | hnc
          · left; rw [i4]; exact hd3
          · right
            unfold NoColon at *
            rw [rest_congr (s := l3.parser) (by rw [g4.wf.doc, g3.wf.doc]) hpos]
            exact hnc
        · refine ⟨g4', .inr (by intro r hr'; rw [hr] at hr'; simp at hr'), .inl (noColon_of_head ?_)⟩
          rw [hbr]; exact hh
    · obtain ⟨-, g4, ga, i4, hp4, hpos, heat⟩ := h4
      have hq3 : QAt doc l3.parser.eaten := by
        rw [← h3.marked, qat_rest g3.wf]
        refine QOk.head fun c hc => ?_
        refine ⟨?_, ?_, ?_, ?_⟩ <;> (rintro rfl; exact gapAt_ne ga (by decide) hc)
      refine ⟨g3.trans g4, .inr ?_, by rw [hpos]; exact hq3, by rw [heat]; exact hq3⟩
      rw [List.take_of_length_le (by rw [i4]; simp)]
      exact hp4
  · refine Runs.ite (fun h => absurd h (by simp)) fun _ => ?_
    obtain ⟨⟨h, hp1⟩, -⟩ := h
    have g1 : Gd doc (L + 1) l { l with parser := p } := h.gd
    have he := h.eaten
    refine (hsf { l with parser := p } g1.wf (by show QAt doc p.pos; rw [hp1, ← hp]; exact hql) (hp1.trans he.symm) (by show Deep _ p.indent; rw [h.indent]; exact hd)
      (by show doc.length - p.eaten + 1 ≤ n; omega)).mono (fun _ l2 h2 => ?_) fun _ _ h h' => absurd h' h
    refine ⟨g1.trans (h2.1.le (by omega)), .inl ?_, .inr h2.2⟩
    refine Deep.keep (t := p.indent) ?_ h2.1.keep
    rw [h.indent]; exact hd

theorem mapStep_runs {n : Nat} {sc : ScalarCall} (hq : QuotesClosed doc) (hsc : ScRuns doc n sc) {L : Nat} {map flow : Bool} {sf : LM Node}
    {first : Bool} (hm : map = true → 1 ≤ L) (hs : PWF (tc doc) l.parser) (he : first = true → Ent L map l ∧ QAt doc l.parser.pos)
    (hn : doc.length - l.parser.pos + 1 ≤ n)
    (hsf : ∀ l1 : Loader, PWF (tc doc) l1.parser → QAt doc l1.parser.pos → l1.parser.pos = l1.parser.eaten →
      Deep (L + 1) l1.parser.indent → doc.length - l1.parser.eaten + 1 ≤ n →
      Runs sf l1 (fun _ l' => Gd doc (L + 2) l1 l' ∧ l'.parser.pos = l'.parser.eaten) NM) :
    Runs (mapStep sc sf L map flow first) l
      (fun st l' => Gd doc L l l' ∧ match st with
        | .alone _ => l'.parser.pos = l'.parser.eaten ∧ NoColon l'.parser
        | .stop => NoColon (bwd l').parser
        | .key _ => Deep (L + 1) l'.parser.indent ∧ l.parser.pos + 1 ≤ l'.parser.pos ∧ QAt doc l'.parser.pos)
      (fun e l' => e = .mismatch → Gd doc L l l' ∧ Deep L l'.parser.indent ∧ QB doc l') := by
  refine Runs.bind (forward_runs ?_)
  have g1 := fwd_gd (L := L) hs
  refine Runs.ite (fun hv => ?_) fun hv => ?_
  · obtain ⟨he, hql⟩ := he hv
    have he : Ent L map (fwd l) := he
    refine Runs.bind ((firstItem_runs (l := fwd l) hq g1.wf hql rfl hm he).mono (fun _ l2 h2 => ?_) fun e l2 h2 _ => ?_)
    · obtain ⟨g2, e2, d2, -, r2⟩ := h2
      rw [fwd_eaten] at e2
      have g2' := g1.trans g2
      have q2 := g2.wf.eaten
      refine Runs.bind (forward_runs ?_)
      have g3 := g2'.trans (fwd_gd g2'.wf)
      refine Runs.bind ((key_runs hq hsc g3.wf r2 rfl (by rw [fwd_indent]; exact d2) (by rw [fwd_eaten]; omega) hsf).mono
        (fun k l4 h4 => ?_) fun e l4 h4 hm => ⟨g3.trans ((h4 hm).1.le (by omega)), (h4 hm).2⟩)
      obtain ⟨g4, d4, n4⟩ := h4
      have e4 := g4.eaten
      rw [fwd_eaten] at e4
      have q4 := g4.wf.eaten
      have g4' := g3.trans (g4.le (Nat.le_succ L))
      refine Runs.bind ((colonBound_runs (L := L) hq g4.wf).mono (fun b l5 h5 => ?_) fun _ _ h => h)
      obtain ⟨g5, i5, e5, h5t, h5f⟩ := h5
      refine Runs.ite (fun hb => Runs.pure ⟨g4'.trans g5, ?_, ?_, (h5t hb).2.2⟩) fun hb => Runs.pure ⟨g4'.trans g5, ?_, ?_⟩
      · rw [i5]; exact d4.resolve_right (h5t hb).1
      · have := (h5t hb).2.1; omega
      · rw [(h5f (by simpa using hb)).2, e5]
      · obtain ⟨hn5, hp5⟩ := h5f (by simpa using hb)
        have hr : l5.parser.rest = (bwd l4).parser.rest :=
          rest_congr (by show _ = l4.parser.doc; rw [g5.wf.doc, g4.wf.doc]) hp5
        unfold NoColon at *
        rw [hr]
        rcases n4 with n4 | n4
        · exact n4
        · rw [bwd_rest g4.wf g4.wf n4.symm]; exact hn5
    · exact ⟨g1.trans h2.1, h2.2⟩
  · refine Runs.bind ((nextItem_runs (l := fwd l) hq g1.wf).mono (fun b l2 h2 => ?_) fun _ _ h h' => absurd h' h)
    obtain ⟨g2, e2, hh, i2⟩ := h2
    rw [fwd_eaten] at e2
    have g2' := g1.trans (g2.le (by omega))
    have q2 := g2.wf.eaten
    refine Runs.ite (fun _ => Runs.pure ⟨g2', ?_⟩) fun hb => ?_
    · show NoColon (bwd l2).parser
      refine noColon_of_head ?_
      rw [bwd_rest (l := fwd l) g1.wf g2.wf (by rw [e2, fwd_pos])]
      exact hh
    have hb : b = false := by simpa using hb
    have d2 : Deep (L + 1) l2.parser.indent := .inl (by rw [(i2 hb).1]; simp)
    have r2 := (i2 hb).2
    refine Runs.bind (forward_runs ?_)
    have g3 := g2'.trans (fwd_gd g2'.wf)
    refine Runs.bind ((key_runs hq hsc g3.wf r2 rfl (by rw [fwd_indent]; exact d2) (by rw [fwd_eaten]; omega)
      (fun l1 w q p d f => orErr_runs ((hsf l1 w q p d f).mono (fun _ _ h => h) fun _ _ _ => trivial))).mono
        (fun k l4 h4 => ?_) fun e l4 h4 hm => ⟨g3.trans ((h4 hm).1.le (by omega)), (h4 hm).2⟩)
    obtain ⟨g4, d4, n4⟩ := h4
    have e4 := g4.eaten
    rw [fwd_eaten] at e4
    have q4 := g4.wf.eaten
    have g4' := g3.trans (g4.le (Nat.le_succ L))
    refine Runs.bind ((colonBound_runs (L := L) hq g4.wf).mono (fun b l5 h5 => ?_) fun _ _ h => h)
    obtain ⟨g5, i5, e5, h5t, h5f⟩ := h5
    refine Runs.ite (fun hb => Runs.pure ⟨g4'.trans g5, ?_, ?_, (h5t hb).2.2⟩) fun hb => lerr_runs.mono (fun _ _ h => h) fun _ _ h h' => absurd h' h
    · rw [i5]; exact d4.resolve_right (h5t hb).1
    · have := (h5t hb).2.1; omega

/-- The loop of a block map. -/
theorem mapLoop_runs {n : Nat} {sc : ScalarCall} (hq : QuotesClosed doc) (hsc : ScRuns doc n sc) {L : Nat} {map flow : Bool} {sf : LM Node}
    (hm : map = true → 1 ≤ L)
    (hsf : ∀ l1 : Loader, PWF (tc doc) l1.parser → QAt doc l1.parser.pos → l1.parser.pos = l1.parser.eaten →
      Deep (L + 1) l1.parser.indent → doc.length - l1.parser.eaten + 1 ≤ n →
      Runs sf l1 (fun _ l' => Gd doc (L + 2) l1 l' ∧ l'.parser.pos = l'.parser.eaten) NM) :
    ∀ {k : Nat} {v : List (Node × Node)} {l : Loader}, PWF (tc doc) l.parser →
    (v.isEmpty = true → Ent L map l ∧ QAt doc l.parser.pos) → doc.length - l.parser.pos + 1 ≤ k → doc.length - l.parser.pos + 1 ≤ n →
    Runs (mapLoop sc sf L map flow k v) l (fun _ l' => Gd doc L l l' ∧ NoColon l'.parser)
      (fun e l' => e = .mismatch → Gd doc L l l' ∧ Deep L l'.parser.indent ∧ QB doc l') := by
  intro k
  induction k with
  | zero => intro v l _ _ h; omega
  | succ k ih =>
    intro v l hs hent hf hn
    refine Runs.bind ((mapStep_runs hq hsc hm hs hent hn hsf).mono (fun st l2 h2 => ?_) fun _ _ h => h)
    obtain ⟨g2, h2⟩ := h2
    cases st with
    | alone y => exact Runs.pure ⟨g2, h2.2⟩
    | stop => exact Runs.bind (backward_runs (collectMap_runs fun _ => ⟨g2.trans (bwd_gd g2.wf), h2⟩))
    | key key =>
      obtain ⟨d2, p2, r2⟩ := h2
      refine Runs.bind (forward_runs ?_)
      have g3 := g2.trans (fwd_gd g2.wf)
      have q2 : l2.parser.pos ≤ doc.length := g2.wf.pos
      have hc := hsc (L + 1) true false (fwd l2) g3.wf r2 rfl (by simp) (.inl d2) (by rw [fwd_eaten]; omega)
      refine Runs.bind ((orErr_runs (hc.mono (fun _ _ h => h) fun _ _ _ => trivial)).mono (fun x l5 h5 => ?_)
        fun _ _ h h' => absurd h' h)
      have g5 := g3.trans (h5.gd.le (by omega))
      have e5 := h5.gd.eaten
      rw [fwd_eaten] at e5
      have q5 := g5.wf.eaten
      refine (ih g5.wf (by simp) (by omega) (by omega)).mono (fun _ _ h => ⟨g5.trans h.1, h.2⟩)
        fun e _ h hm => ⟨g5.trans (h hm).1, (h hm).2⟩

/-- How a value may begin, in front of the block scalars. -/
def Ent' (L : Nat) (map : Bool) (l : Loader) : Prop :=
  Deep (if map then L else L + 1) l.parser.indent ∨ (GapAt l.parser ∧ l.parser.pos = l.parser.eaten)

theorem blockTry_runs {L : Nat} {map : Bool} {c : UInt8} {x : PM Bytes} (hs : PWF (tc doc) l.parser)
    (hc : c ≠ 0x0A ∧ c ≠ 0x0D ∧ c ≠ 0x23 ∧ isBlank c = false)
    (hx : Runs x l.parser (fun _ s' => StpI doc L l.parser s')
      (fun _ s' => StpI doc L l.parser s' ∧ (l.parser.rest.head? ≠ some c → Stp doc l.parser s' ∧ s'.pos = l.parser.eaten)))
    (he : Ent' L map l) (hok : l.parser.rest.head? ≠ some c → ∀ a s', x l.parser ≠ (.ok a, s')) :
    Runs (lift x) l (fun _ l' => Gd doc L l l' ∧ (map = true → Deep L l'.parser.indent))
      (fun _ l' => Gd doc L l l' ∧ Ent' L map l') := by
  have deepI : ∀ {L' : Nat} {s' : Parser}, StpI doc L l.parser s' → L ≤ L' → Deep L' l.parser.indent → Deep L' s'.indent :=
    fun h hl hd => h.indent.deep hd hl
  refine Runs.lift ?_
  unfold Runs at *
  rcases hr : x l.parser with ⟨r, s'⟩
  rw [hr] at hx
  cases r with
  | panic p => trivial
  | diverge => exact hx
  | ok a =>
    refine ⟨(StpI.gd hx).le (by omega), fun hm => ?_⟩
    subst hm
    rcases he with he | ⟨he, -⟩
    · exact deepI hx (Nat.le_refl _) he
    · exact absurd hr (hok (gapAt_ne he hc) a s')
  | err e =>
    refine ⟨(StpI.gd hx.1).le (by omega), ?_⟩
    rcases he with he | ⟨he, hp⟩
    · left
      refine deepI hx.1 ?_ he
      cases map <;> simp
    · right
      obtain ⟨h1, h2⟩ := hx.2 (gapAt_ne he hc)
      refine ⟨?_, ?_⟩
      · unfold GapAt at *
        rw [rest_congr (s := l.parser) (by show s'.doc = _; rw [h1.wf.doc, hs.doc]) (by show s'.pos = _; rw [h2, hp])]
        exact he
      · show s'.pos = s'.eaten
        rw [h2, h1.eaten]

/-- Every alternative of a value. -/
theorem scalarBody_runs {n : Nat} {sc : ScalarCall} (hsc : ScRuns doc n sc) (hq : QuotesClosed doc) {L : Nat} {map flow : Bool}
    (hm : map = true → 1 ≤ L) (hs : PWF (tc doc) l.parser) (hql : QAt doc l.parser.pos) (hp : l.parser.pos = l.parser.eaten)
    (he : Ent L map l) (hn : doc.length - l.parser.eaten + 1 ≤ n) :
    Runs (scalarBody sc n L map flow) l
      (fun _ l' => Gd doc L l l' ∧ (map = true → Deep L l'.parser.indent ∨ NoColon l'.parser)) NM := by
  have he' : Ent' L map l := he.imp id fun h => ⟨h, hp⟩
  have hqe : QAt doc l.parser.eaten := by rw [← hp]; exact hql
  have hok : ∀ {l1 : Loader} {c : UInt8} {f : Unit → PM Bytes}, PWF (tc doc) l1.parser → l1.parser.rest.head? ≠ some c →
      ∀ a s', (sym c >>= f) l1.parser ≠ (.ok a, s') := by
    intro l1 c f w hh a s' h
    rw [bind_err (sym_absent w hh)] at h
    simp at h
  have h1 := (blockTry_runs (c := 0x7C) hs (by decide) (block_runs (sep := 0x0A) (leading := true) hs) he' (hok hs)).and
    (Runs.lift (E := fun _ l' => l'.parser.eaten = l.parser.eaten) (Q := fun _ _ => True)
      ((block_runs (L := L) (c := 0x7C) (sep := 0x0A) (leading := true) hs).mono (fun _ _ _ => trivial) fun _ _ h => h.1.eaten))
  refine Runs.bind (Runs.try? (h1.mono
    (fun s l1 h1 => Runs.pure ⟨h1.1.1, fun h => .inl (h1.1.2 h)⟩) fun e l1 h1 => ?_))
  obtain ⟨⟨g1, e1⟩, ea1⟩ := h1
  have h2 := (blockTry_runs (c := 0x3E) g1.wf (by decide) (block_runs (sep := 0x20) (leading := false) g1.wf) e1 (hok g1.wf)).and
    (Runs.lift (E := fun _ l' => l'.parser.eaten = l1.parser.eaten ∧ (l'.parser.pos = l1.parser.eaten ∨ QAt doc l'.parser.pos)) (Q := fun _ _ => True)
      (((block_runs (L := L) (c := 0x3E) (sep := 0x20) (leading := false) g1.wf).and
        (block_qat (L := L) (c := 0x3E) (sep := 0x20) (leading := false) (by decide) hq g1.wf)).mono (fun _ _ _ => trivial)
        fun _ _ h => ⟨h.1.1.eaten, h.2⟩))
  refine Runs.bind (Runs.try? (h2.mono
    (fun s l2 h2 => Runs.pure ⟨g1.trans h2.1.1, fun h => .inl (h2.1.2 h)⟩) fun e l2 h2 => ?_))
  obtain ⟨⟨g2, e2⟩, ea2, po2⟩ := h2
  have g2 := g1.trans g2
  have e2 : Ent L map l2 := e2.imp id fun h => h.1
  have r2 : QAt doc l2.parser.pos := by
    rcases po2 with h | h
    · rw [h, ea1]; exact hqe
    · exact h
  have q2 := g2.wf.eaten
  have q2' := g2.eaten
  refine Runs.orElse (Runs.orElse (Runs.mono
    (E := fun e l' => e = .mismatch → Gd doc L l l' ∧ Ent L map l' ∧ QB doc l')
    (Q := fun _ l' => Gd doc L l l' ∧ NoColon l'.parser) ?_
    (fun _ l3 h3 => ⟨h3.1, fun _ => .inr h3.2⟩) fun e l3 h3 => ?_))
  · refine Runs.bind ((seqLoop_runs hq hsc hm g2.wf (fun _ => ⟨e2, r2⟩) (by omega) (by omega)).mono
      (fun v l3 h3 => Runs.bind (backward_runs (Runs.pure ?_))) fun e l3 h3 h => ⟨g2.trans (h3 h).1, (h3 h).2⟩)
    have g3 := g2.trans h3.1
    exact ⟨g3.trans (bwd_gd g3.wf), h3.2⟩
  · cases e with
    | terminate a m => exact PErr.noConfusion
    | mismatch =>
      obtain ⟨g3, e3, r3⟩ := h3 rfl
      have q3 := g3.wf.eaten
      have q3' := g3.eaten
      refine Runs.mono (Q := fun _ l' => Gd doc L l l' ∧ NoColon l'.parser)
        (E := fun e l' => e = .mismatch → Gd doc L l l' ∧ Deep L l'.parser.indent ∧ QB doc l') ?_
        (fun _ l4 h4 => ⟨h4.1, fun _ => .inr h4.2⟩) fun e l4 h4 => ?_
      · refine (mapLoop_runs hq hsc hm ?_ g3.wf (fun _ => ⟨e3, r3.1⟩) (by omega) (by omega)).mono
          (fun v l4 h4 => ⟨g3.trans h4.1, h4.2⟩) fun e l4 h4 h => ⟨g3.trans (h4 h).1, (h4 h).2⟩
        intro l0 w0 r0 p0 d0 n0
        refine (scalarNode_runs w0 hq r0 p0 (Q := fun l' => Gd doc (L + 2) l0 l' ∧
          l'.parser.pos = l'.parser.eaten) fun l1 h1 => ?_)
        have e1 := h1.eaten
        refine (scalarTerm_runs hsc hq h1.wf (by rw [← h1.marked]; exact h1.qat) (by rw [h1.indent]; exact d0) (by omega) (by omega)).mono
          (fun _ l2 g2 => ⟨g2.wf, fun a => ?_⟩) fun _ _ h => h
        have g := (h1.gd (L := L + 2)).trans (g2.trans (fwd_gd g2.wf))
        exact ⟨⟨g.wf, g.eaten, g.keep⟩, rfl⟩
      · cases e with
        | terminate a m => exact PErr.noConfusion
        | mismatch =>
          obtain ⟨g4, d4, r4⟩ := h4 rfl
          have q4 := g4.wf.eaten
          have q4' := g4.eaten
          refine (scalarTerm_runs hsc hq g4.wf r4.2 d4 (by omega) (by omega)).mono (fun _ l5 g5 => ?_) fun _ _ h => h
          exact ⟨g4.trans (g5.le (Nat.le_succ L)), fun _ => .inl (d4.keep g5.keep)⟩

/-- Values end. -/
theorem scalar_runs (hq : QuotesClosed doc) : ∀ N, ScRuns doc N (scalar N) := by
  intro N
  induction N with
  | zero => intro L map flow l _ _ _ _ _ h; omega
  | succ n ih =>
    intro L map flow l hs hql hp hm he hn
    refine scalarNode_runs hs hq hql hp (Q := fun l' => Done doc L map l l') fun l1 h1 => ?_
    have e1 := h1.eaten
    have he1 : Ent L map l1 := by
      rcases he with he | he
      · left; rw [h1.indent]; exact he
      · right
        have := h1.same (gapAt_ne he (by decide)) (gapAt_ne he (by decide))
        unfold GapAt at *
        rw [rest_congr (s := l.parser) (by rw [h1.wf.doc, hs.doc]) this]
        exact he
    refine (scalarBody_runs ih hq hm h1.wf h1.qat h1.marked he1 (by omega)).mono (fun _ l2 h2 => ⟨h2.1.wf, fun a => ?_⟩)
      fun _ _ h => h
    have g := (h1.gd (L := L)).trans (h2.1.trans (fwd_gd h2.1.wf))
    exact ⟨⟨g.wf, g.eaten, g.keep⟩, rfl, h2.2⟩

end
end YamlPeg
