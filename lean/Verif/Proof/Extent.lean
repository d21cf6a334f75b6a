import Verif.Proof.RunsQ
import Verif.Proof.NumText
import Verif.Proof.FlowPlain
import Verif.Proof.DumpText
import Verif.Spec.Written
/-! # How long a string can be: bounds on what the string methods return -/

namespace YamlPeg
open M Frame

/-! ## Texts -/

theorem lossyAux_length : ∀ (n : Nat) (s : Bytes), (lossyAux n s).length ≤ 3 * s.length
  | 0, s => by simp [lossyAux]
  | n + 1, [] => by simp [lossyAux]
  | n + 1, c :: r => by
    simp only [lossyAux]
    split
    · rename_i k _
      have := lossyAux_length n (r.drop k)
      simp only [List.length_append, List.length_cons, List.length_take, List.length_drop] at *
      omega
    · rename_i k _
      have := lossyAux_length n (r.drop k)
      simp only [List.length_append, List.length_cons, List.length_nil, List.length_drop] at *
      omega

theorem lossy_length (s : Bytes) : (lossy s).length ≤ 3 * s.length := lossyAux_length _ s

theorem trimRev_length : ∀ s : Bytes, (trimRev s).length ≤ s.length
  | [] => by simp [trimRev]
  | c :: r1 => by
    rw [trimRev.eq_def]
    dsimp only
    split
    · have := trimRev_length r1; simp; omega
    · split
      · simp
      · rename_i d r2
        split
        · have := trimRev_length r2; simp; omega
        · split
          · simp
          · rename_i a r3
            split
            · have := trimRev_length r3; simp; omega
            · simp

theorem trimEnd_length (s : Bytes) : (trimEnd s).length ≤ s.length := by
  have := trimRev_length s.reverse
  simpa [trimEnd] using this

theorem escapeGo_length : ∀ (b : Bool) (s : Bytes), (escapeGo b s).length ≤ s.length
  | _, [] => by simp [escapeGo]
  | b, c :: r => by
    simp only [escapeGo]
    split
    · have := escapeGo_length true r; simp; omega
    · have := escapeGo_length false r; simp; omega

theorem escape_length (s : Bytes) : (escape s).length ≤ s.length := escapeGo_length _ s

theorem quotedBreak_length (v : Bytes) (t : Nat) : (quotedBreak v t).length ≤ v.length + t := by
  have := trimEnd_length v
  unfold quotedBreak
  dsimp only
  split <;> split <;> (try split) <;> (try split) <;> simp <;> omega

theorem plainBreak_length (v : Bytes) {t : Nat} : (plainBreak v t).length ≤ v.length + t := by
  unfold plainBreak
  split <;> simp <;> omega

theorem plainBreak_trim (v : Bytes) (t : Nat) : trimEnd (plainBreak v t) = trimEnd v := by
  unfold plainBreak
  rw [trimEnd_ws (by simp; intro _; decide)]
  split
  · exact trimEnd_ws (by decide)
  · rfl

theorem wrappedPush_length (sep : UInt8) (l : Bool) (v s : Bytes) : (wrappedPush sep l v s).length ≤ v.length + 1 + s.length := by
  have := trimStart_length s
  unfold wrappedPush
  split <;> split <;> simp <;> omega

/-! ## What is true of a value if there is one -/

def Ex {α : Type} (x : PM α) (s : Parser) (Q : α → Parser → Prop) : Prop := ∀ a s', x s = (.ok a, s') → Q a s'

section
variable {α β : Type} {s : Parser} {doc : Bytes}

theorem Ex.pure {a : α} {Q : α → Parser → Prop} (h : Q a s) : Ex (pure a) s Q := by
  intro b s' e
  cases e
  exact h

theorem Ex.bind {x : PM α} {f : α → PM β} {Q : β → Parser → Prop} (h : Ex x s fun a s1 => Ex (f a) s1 Q) : Ex (x >>= f) s Q := by
  intro b s' e
  rcases hx : x s with ⟨r, s1⟩
  cases r with
  | ok a => rw [bind_ok hx] at e; exact h a s1 hx b s' e
  | err er => rw [bind_err hx] at e; cases e
  | panic p => rw [bind_panic hx] at e; cases e
  | diverge => rw [bind_diverge hx] at e; cases e

theorem Ex.ite {p : Prop} [Decidable p] {x y : PM α} {Q : α → Parser → Prop} (hx : p → Ex x s Q) (hy : ¬ p → Ex y s Q) :
    Ex (if p then x else y) s Q := by
  split
  · exact hx ‹_›
  · exact hy ‹_›

theorem Ex.runs {x : PM α} {Q : α → Parser → Prop} {E : PErr → Parser → Prop} (h : Runs x s Q E) : Ex x s Q := by
  intro a s' e
  unfold Runs at h; rw [e] at h; exact h

theorem Ex.mono {x : PM α} {Q R : α → Parser → Prop} (h : Ex x s Q) (hq : ∀ a s', Q a s' → R a s') : Ex x s R :=
  fun a s' e => hq a s' (h a s' e)

theorem Ex.isOk {x : PM α} {Q : Bool → Parser → Prop} {P : α → Parser → Prop} {E : PErr → Parser → Prop} (h : Runs x s P E)
    (h1 : ∀ a s', P a s' → Q true s') (h2 : ∀ e s', E e s' → Q false s') : Ex (isOk x) s Q := by
  intro a s' e
  unfold Runs at h
  simp only [M.isOk] at e
  rcases hx : x s with ⟨r, s1⟩
  rw [hx] at e h
  cases r <;> simp at e
  · obtain ⟨rfl, rfl⟩ := e; exact h1 _ _ h
  · obtain ⟨rfl, rfl⟩ := e; exact h2 _ _ h

theorem Ex.try {x : PM α} {Q : Option α → Parser → Prop} {P : α → Parser → Prop} {E : PErr → Parser → Prop} (h : Runs x s P E)
    (h1 : ∀ a s', P a s' → Q (some a) s') (h2 : ∀ e s', E e s' → Q none s') : Ex (try? x) s Q := by
  intro a s' e
  unfold Runs at h
  simp only [M.try?] at e
  rcases hx : x s with ⟨r, s1⟩
  rw [hx] at e h
  cases r <;> simp at e
  · obtain ⟨rfl, rfl⟩ := e; exact h1 _ _ h
  · obtain ⟨rfl, rfl⟩ := e; exact h2 _ _ h

theorem Ex.forward {Q : Unit → Parser → Prop} (h : Q () { s with eaten := s.pos }) : Ex forward s Q := by
  intro a s' e; cases e; exact h

theorem Ex.backward {Q : Unit → Parser → Prop} (h : Q () { s with pos := s.eaten }) : Ex backward s Q := by
  intro a s' e; cases e; exact h

theorem Ex.diverge {Q : α → Parser → Prop} : Ex M.diverge s Q := by
  intro a s' e; cases e

theorem Ex.mismatch {Q : α → Parser → Prop} : Ex M.mismatch s Q := by
  intro a s' e; cases e

theorem Ex.get {Q : Parser → Parser → Prop} (h : Q s s) : Ex M.get s Q := by
  intro a s' e; cases e; exact h

theorem PWF.fwd (h : PWF (tc doc) s) : PWF (tc doc) { s with eaten := s.pos } := (forward_pf s h).1

theorem Ex.context {x : PM α} {Q : α → Nat → Prop} (h : Ex x { s with eaten := s.pos } fun a s' => Q a s'.pos) :
    Ex (context x) s fun a s' => Q a s'.pos := by
  intro a s' e
  simp only [YamlPeg.context] at e
  rcases hx : x { s with eaten := s.pos } with ⟨r, s1⟩
  rw [hx] at e
  cases e
  exact h a s1 hx

/-- What the length of a text is compared with: a function of the cursor. -/
structure Cost (doc : Bytes) (f : Nat → Nat) : Prop where
  add : ∀ p q : Nat, f (p + q) = f p + f q
  up : ∀ {p q : Nat} (k : Nat), p + k ≤ q → f p + k ≤ f q
  cut : ∀ {i j : Nat}, i ≤ j → j ≤ doc.length → (lossy ((doc.take j).drop i)).length + f i ≤ f j

variable {f : Nat → Nat}

theorem Cost.mono (h : Cost doc f) {p q : Nat} (e : p ≤ q) : f p ≤ f q := h.up 0 e

theorem text_ex (h : Cost doc f) (hs : PWF (tc doc) s) : Ex text s fun t s' => s' = s ∧ t.length + f s.eaten ≤ f s.pos := by
  intro a s' e
  simp only [text] at e
  split at e
  · split at e
    · cases e
      refine ⟨rfl, ?_⟩
      rw [hs.doc]
      exact h.cut hs.eaten hs.pos
    · cases e
  · cases e
    refine ⟨rfl, ?_⟩
    have := h.mono hs.eaten
    simpa using this

/-- `symSeq`: it ends behind its text, or at the mark. -/
theorem symSeq_len : ∀ (l : Bytes) {s : Parser}, PWF (tc doc) s →
    Runs (symSeq l) s (fun _ s' => PWF (tc doc) s' ∧ s'.eaten = s.eaten ∧ s.pos + l.length ≤ s'.pos)
      (fun _ s' => PWF (tc doc) s' ∧ s'.eaten = s.eaten)
  | [], s, hs => by unfold Runs; exact ⟨hs, rfl, Nat.le_refl _⟩
  | c :: r, s, hs => by
    refine Runs.bind ((sym_runs hs).mono (fun _ s1 h1 => ?_) fun _ _ h => ⟨h.2.1.wf, h.2.1.eaten⟩)
    exact (symSeq_len r h1.1.wf).mono (fun _ _ h => ⟨h.1, h.2.1.trans h1.1.eaten, by have := h.2.2; have := h1.2; simp; omega⟩)
      fun _ _ h => ⟨h.1, h.2.trans h1.1.eaten⟩

theorem gapMore_len (cmt : Bool) : ∀ (n : Nat) (post : Bytes), (gapMore cmt n post).1 ≤ (gapMore cmt n post).2.1.length
  | 0, post => by simp [gapMore]
  | n + 1, post => by
    simp only [gapMore]
    split
    · simp
    · have := gapMore_len cmt n ((gapLine cmt post).2.drop (nlLen (gapLine cmt post).2))
      have := nlLen_le (gapLine cmt post).2
      simp only [List.length_append, List.length_take]
      omega

/-- A gap is at least as long as its number of line breaks. -/
theorem gap_len {cmt : Bool} (hs : PWF (tc doc) s) :
    Runs (gap cmt) s (fun t s' => PWF (tc doc) s' ∧ s'.eaten = s.eaten ∧ s.pos + t ≤ s'.pos)
      (fun _ s' => PWF (tc doc) s' ∧ s'.eaten = s.eaten) := by
  have hr := runs_pk (gap_pk (c := tc doc) (cmt := cmt)) hs
  unfold Runs at *
  rcases hx : gap cmt s with ⟨r, s'⟩
  rw [hx] at hr
  obtain ⟨k, pre, mid, post, rfl⟩ := PWF.exists_st hs
  rw [gap_eq] at hx
  cases hg : gapSpec cmt post with
  | none =>
    simp only [hg, Prod.mk.injEq] at hx
    obtain ⟨rfl, rfl⟩ := hx
    exact hr
  | some q =>
    obtain ⟨t, taken, left⟩ := q
    simp only [hg, Prod.mk.injEq] at hx
    obtain ⟨rfl, rfl⟩ := hx
    refine ⟨hr.1, hr.2, ?_⟩
    simp only [gapSpec] at hg
    split at hg
    · simp at hg
    · rename_i h0
      simp only [Option.some.injEq, Prod.mk.injEq] at hg
      obtain ⟨h1, h2, -⟩ := hg
      rw [← h1, ← h2]
      simp only [st_pos, List.length_append, List.length_take]
      have := nlLen_le (gapLead cmt post).2
      have := gapMore_len cmt (((gapLead cmt post).2.drop (nlLen (gapLead cmt post).2)).length + 1)
        ((gapLead cmt post).2.drop (nlLen (gapLead cmt post).2))
      omega

theorem nl_len (hs : PWF (tc doc) s) :
    Runs nl s (fun _ s' => PWF (tc doc) s' ∧ s'.eaten = s.eaten ∧ s.pos + 1 ≤ s'.pos)
      (fun _ s' => PWF (tc doc) s' ∧ s'.eaten = s.eaten) := by
  have hr := runs_pk (nl_pk (c := tc doc)) hs
  unfold Runs at *
  rcases hx : nl s with ⟨r, s'⟩
  rw [hx] at hr
  obtain ⟨k, pre, mid, post, rfl⟩ := PWF.exists_st hs
  rw [nl_eq] at hx
  split at hx
  · simp only [Prod.mk.injEq] at hx
    obtain ⟨rfl, rfl⟩ := hx
    exact hr
  · simp only [Prod.mk.injEq] at hx
    obtain ⟨rfl, rfl⟩ := hx
    refine ⟨hr.1, hr.2, ?_⟩
    have := nlLen_le post
    simp only [st_pos, List.length_append, List.length_take]
    omega

theorem ind_len {L : Nat} (hs : PWF (tc doc) s) :
    Runs (ind L) s (fun _ s' => PWF (tc doc) s' ∧ s'.eaten = s.eaten ∧ s.pos ≤ s'.pos)
      (fun _ s' => PWF (tc doc) s' ∧ s'.eaten = s.eaten ∧ s'.pos = s.eaten) :=
  (ind_runs hs).mono (fun _ _ h => ⟨h.1, h.2.1, by have := h.2.2.2; omega⟩) fun _ _ h => ⟨h.2.1, h.2.2.1, h.2.2.2.2.2⟩

/-! ## Quoted strings -/

theorem quotedLoop_ex (h : Cost doc f) {q : UInt8} {ig : Bytes} (hig : ig ≠ []) {A : Nat} : ∀ {n : Nat} {v : Bytes} {s : Parser}, PWF (tc doc) s →
    v.length + A ≤ f s.pos → Ex (quotedLoop q ig n v) s fun (v' : Bytes) s' => v'.length + A ≤ f s'.pos := by
  intro n
  induction n with
  | zero => intros; exact .diverge
  | succ n ih =>
    intro v s hs hv
    refine .bind (.forward (.bind ((Ex.runs (more0_runs (E := fun _ _ => True) hs.fwd)).mono fun _ s2 h2 => .bind ((text_ex h h2.1.wf).mono fun t s3 h3 => ?_))))
    obtain ⟨rfl, h3⟩ := h3
    have e2 : s3.eaten = s.pos := h2.1.eaten
    rw [e2] at h3
    refine .bind (.forward ?_)
    have h4 := h2.1.wf.fwd
    have g4 : (v ++ t).length + A ≤ f s3.pos := by simp only [List.length_append]; omega
    generalize hs4 : ({ s3 with eaten := s3.pos } : Parser) = s4 at h4
    have e4 : s3.pos = s4.eaten := by rw [← hs4]
    rw [e4] at g4
    clear hs4 e4 h2 h3 e2
    have back : ∀ {s5 : Parser} (v' : Bytes) (k : Nat), PWF (tc doc) s5 → s4.eaten + k ≤ s5.pos → v'.length ≤ (v ++ t).length + k →
        Ex (quotedLoop q ig n v') s5 fun (v' : Bytes) s' => v'.length + A ≤ f s'.pos := by
      intro s5 v' k h5 h6 h7
      have := h.up k h6
      exact ih h5 (by omega)
    refine .bind (.isOk (symSeq_len ig h4) (fun _ s5 h5 => ?_) fun _ s5 h5 => ?_)
    · have := List.length_pos_iff.2 hig
      have := h4.eaten
      exact back _ 1 h5.1 (by omega) (by simp; omega)
    · refine .bind (.try (gap_len h5.1) (fun m s6 h6 => ?_) fun _ s6 h6 => ?_)
      · refine .bind ((Ex.runs (more0_runs (E := fun _ _ => True) h6.1)).mono fun _ s7 h7 => ?_)
        have := h5.1.eaten
        exact back _ m h7.1.wf (by omega) (quotedBreak_length _ _)
      · refine .bind (.isOk (sym_runs h6.1) (fun _ s7 h7 => ?_) fun _ s7 h7 => ?_)
        · have := h6.1.eaten
          exact back _ 1 h7.1.wf (by omega) (by simp; omega)
        · have e7 := h7.2.1.wf.eaten
          have := h7.2.1.eaten
          refine .bind (.isOk (sym_runs h7.2.1.wf) (fun _ s8 h8 => ?_) fun _ s8 h8 => ?_)
          · refine .pure ?_
            have := h.mono (show s4.eaten ≤ s8.pos by omega)
            omega
          · have := h8.2.1.wf.eaten
            have := h8.2.1.eaten
            exact back _ 0 h8.2.1.wf (by omega) (by omega)

theorem stringQuoted_ex (h : Cost doc f) (hs : PWF (tc doc) s) {n : Nat} {q : UInt8} {ig : Bytes} (hig : ig ≠ []) :
    Ex (stringQuoted n q ig) s fun (v : Bytes) s' => v.length + f s.pos ≤ f s'.pos := by
  refine Ex.context (Q := fun (v : Bytes) p => v.length + f s.pos ≤ f p) ?_
  refine .bind ((Ex.runs (sym_runs hs.fwd)).mono fun _ s1 h1 => .bind (.forward ?_))
  refine .bind ((Ex.runs (more0_runs (E := fun _ _ => True) h1.1.wf.fwd)).mono fun _ s2 h2 => .bind ((text_ex h h2.1.wf).mono fun t s3 h3 => ?_))
  obtain ⟨rfl, h3⟩ := h3
  have e2 : s3.eaten = s1.pos := h2.1.eaten
  have e1 : s1.pos = s.pos + 1 := h1.2
  rw [e2] at h3
  have := h.mono (show s.pos ≤ s1.pos by omega)
  exact quotedLoop_ex h hig h2.1.wf (by omega)

/-! ## Plain strings -/

theorem plainStop_ex (hs : PWF (tc doc) s) : Ex plainStop s fun _ s' => PWF (tc doc) s' ∧ s'.eaten = s.eaten := by
  have fin : ∀ {s5 : Parser}, PWF (tc doc) s5 → s5.eaten = s.eaten →
      Ex (M.isOk (symSeq b!" #")) s5 fun _ s' => PWF (tc doc) s' ∧ s'.eaten = s.eaten := fun h5 e5 =>
    .isOk (symSeq_len _ h5) (fun _ _ h => ⟨h.1, h.2.1.trans e5⟩) fun _ _ h => ⟨h.1, h.2.trans e5⟩
  refine .bind ((Ex.runs (runs_pk (food_pk (c := tc doc)) hs)).mono fun _ s1 h1 => .ite (fun _ => .pure h1) fun _ => ?_)
  refine .bind (.isOk (symSeq_len _ h1.1) (fun _ s2 h2 => .pure ⟨h2.1, h2.2.1.trans h1.2⟩) fun _ s2 h2 => ?_)
  have e2 := h2.2.trans h1.2
  refine .bind (.bind (.isOk (sym_runs h2.1) (fun _ s3 h3 => ?_) fun _ s3 h3 => ?_))
  · refine .isOk (nl_len h3.1.wf) (fun _ s4 h4 => ?_) fun _ s4 h4 => ?_
    · exact .pure ⟨h4.1, h4.2.1.trans (h3.1.eaten.trans e2)⟩
    · exact fin h4.1 (h4.2.trans (h3.1.eaten.trans e2))
  · exact .pure (fin h3.2.1.wf (h3.2.1.eaten.trans e2))

theorem plainLoop_ex (h : Cost doc f) {level : Nat} {inner : Bool} {patt : Bytes} {A : Nat} : ∀ {n : Nat} {v : Bytes} {lead : Bool} {s : Parser},
    PWF (tc doc) s → v.length + A ≤ f s.pos →
    Ex (plainLoop level inner patt n v lead) s fun v' s' => (trimEnd v').length + A ≤ f s'.pos := by
  intro n
  induction n with
  | zero => intros; exact .diverge
  | succ n ih =>
    intro v lead s hs hv
    refine .bind (.forward (.bind ((Ex.runs (more0_runs (E := fun _ _ => True) hs.fwd)).mono fun _ s2 h2 => .bind ((text_ex h h2.1.wf).mono fun t s3 h3 => ?_))))
    obtain ⟨rfl, h3⟩ := h3
    have e2 : s3.eaten = s.pos := h2.1.eaten
    rw [e2] at h3
    refine .bind (.forward ?_)
    have h4 := h2.1.wf.fwd
    have g4 : (v ++ t).length + A ≤ f s3.pos := by simp only [List.length_append]; omega
    dsimp only
    generalize hs4 : ({ s3 with eaten := s3.pos } : Parser) = s4 at h4 ⊢
    have e4 : s3.pos = s4.eaten := by rw [← hs4]
    rw [e4] at g4
    clear hs4 e4 h2 h3 e2
    generalize v ++ t = w at g4 ⊢
    have tw := trimEnd_length w
    refine .bind ((plainStop_ex h4).mono fun b s5 h5 => .ite (fun _ => .bind (.backward (.pure ?_))) fun _ => .bind (.forward ?_))
    · show _ ≤ f s5.eaten
      rw [h5.2]; omega
    have h6 := h5.1.fwd
    have g6 : w.length + A ≤ f s5.pos := by
      have := h.mono (show s4.eaten ≤ s5.pos by have := h5.1.eaten; have := h5.2; omega)
      omega
    generalize hs6 : ({ s5 with eaten := s5.pos } : Parser) = s6 at h6 ⊢
    have e6 : s5.pos = s6.eaten := by rw [← hs6]
    rw [e6] at g6
    clear hs6 e6 h5 g4 h4
    have push : ∀ {s7 : Parser} (w' : Bytes) (lead' : Bool), PWF (tc doc) s7 → s7.eaten = s6.eaten → w'.length ≤ w.length →
        Ex (text >>= fun u => plainLoop level inner patt n (w' ++ u) lead') s7 fun v' s' => (trimEnd v').length + A ≤ f s'.pos := by
      intro s7 w' lead' h7 e7 hw
      refine .bind ((text_ex h h7).mono fun u s8 h8 => ?_)
      obtain ⟨rfl, h8⟩ := h8
      rw [e7] at h8
      exact ih h7 (by simp only [List.length_append]; omega)
    refine .bind (.isOk (symSet_runs h6) (fun _ s7 h7 => ?_) fun _ s7 h7 => ?_)
    · refine .bind ((text_ex h h7.1.wf).mono fun u s8 h8 => ?_)
      obtain ⟨rfl, h8⟩ := h8
      rw [h7.1.eaten] at h8
      refine ih h7.1.wf ?_
      simp only [List.length_append]
      split <;> omega
    · have e7 := h7.2.1.eaten
      have mid : ∀ {s8 : Parser}, PWF (tc doc) s8 → s8.eaten = s6.eaten →
          Ex (do
            if ← M.isOk (ind level) then plainLoop level inner patt n w lead
            else match ← try? (gap true) with
              | some t =>
                let v := plainBreak w t
                if ← M.isOk (ind level) then plainLoop level inner patt n v true
                else pure v
              | none => pure w) s8 fun v' s' => (trimEnd v').length + A ≤ f s'.pos := by
        intro s8 h8 e8
        refine .bind (.isOk (ind_len h8) (fun _ s9 h9 => ?_) fun _ s9 h9 => ?_)
        · have := h.mono (show s6.eaten ≤ s9.pos by have := h9.1.eaten; have := h9.2.1; omega)
          exact ih h9.1 (by omega)
        · refine .bind (.try (gap_len h9.1) (fun m s10 h10 => ?_) fun _ s10 h10 => ?_)
          · refine .bind (.isOk (ind_len h10.1) (fun _ s11 h11 => ?_) fun _ s11 h11 => ?_)
            · have := h.up m (show s6.eaten + m ≤ s11.pos by have := h9.2; have := h10.2; have := h11.2; omega)
              have := plainBreak_length w (t := m)
              exact ih h11.1 (by omega)
            · refine .pure ?_
              rw [plainBreak_trim]
              have := h.mono (show s6.eaten ≤ s11.pos by have := h9.2; have := h10.2; have := h11.2; omega)
              omega
          · refine .pure ?_
            have := h.mono (show s6.eaten ≤ s10.pos by have := h9.2; have := h10.2; have := h10.1.eaten; omega)
            omega
      refine .bind (.ite (fun _ => .isOk (symSet_runs h7.2.1.wf) (fun _ s8 h8 => ?_) fun _ s8 h8 => ?_) fun _ => .pure ?_)
      · exact push w false h8.1.wf (h8.1.eaten.trans e7) (Nat.le_refl _)
      · exact mid h8.2.1.wf (h8.2.1.eaten.trans e7)
      · exact mid h7.2.1.wf e7

theorem stringPlain_ex (h : Cost doc f) (hs : PWF (tc doc) s) {n level : Nat} {inner : Bool} :
    Ex (stringPlain n level inner) s fun (v : Bytes) s' => v.length + f s.pos ≤ f s'.pos := by
  refine Ex.context (Q := fun (v : Bytes) p => v.length + f s.pos ≤ f p) ?_
  refine .bind ((plainLoop_ex h hs.fwd (A := f s.pos) (v := []) (by simp)).mono fun v s1 h1 => ?_)
  exact .ite (fun _ => .mismatch) fun _ => .pure h1

/-! ## Block strings -/

theorem wrappedLoop_ex (h : Cost doc f) {level : Nat} {sep : UInt8} {leading : Bool} {A : Nat} : ∀ {n : Nat} {v : Bytes} {s : Parser},
    PWF (tc doc) s → v.length + A ≤ f s.pos →
    Ex (wrappedLoop level sep leading n v) s fun v' s' => (trimEnd v').length + A ≤ f s'.pos := by
  intro n
  induction n with
  | zero => intros; exact .diverge
  | succ n ih =>
    intro v s hs hv
    have tv := trimEnd_length v
    refine .bind ((Ex.runs (nl_len hs)).mono fun _ s1 h1 => .bind (.forward ?_))
    have h2 := h1.1.fwd
    have g2 : v.length + 1 + A ≤ f s1.pos := by have := h.up 1 h1.2.2; omega
    generalize hs2 : ({ s1 with eaten := s1.pos } : Parser) = s2 at h2 ⊢
    have e2 : s1.pos = s2.eaten := by rw [← hs2]
    rw [e2] at g2
    clear hs2 e2 h1
    have line : ∀ {s3 : Parser} (w : Bytes), PWF (tc doc) s3 → w.length + 1 + A ≤ f s3.pos →
        Ex (do
          forward
          takeWhile (notIn b!"\n\r") (.more 0)
          let s ← text
          wrappedLoop level sep leading n (wrappedPush sep leading w s)) s3 fun v' s' => (trimEnd v').length + A ≤ f s'.pos := by
      intro s3 w h3 hw
      refine .bind (.forward (.bind ((Ex.runs (more0_runs (E := fun _ _ => True) h3.fwd)).mono fun _ s4 h4 => .bind ((text_ex h h4.1.wf).mono fun t s5 h5 => ?_))))
      obtain ⟨rfl, h5⟩ := h5
      have e4 : s5.eaten = s3.pos := h4.1.eaten
      rw [e4] at h5
      have := wrappedPush_length sep leading w t
      exact ih h4.1.wf (by omega)
    refine .bind (.isOk (ind_len h2) (fun _ s3 h3 => ?_) fun _ s3 h3 => ?_)
    · have := h.mono (show s2.eaten ≤ s3.pos by have := h3.1.eaten; have := h3.2.1; omega)
      exact line v h3.1 (by omega)
    · refine .bind (.try (gap_len h3.1) (fun m s4 h4 => ?_) fun _ s4 h4 => ?_)
      · refine .bind (.isOk (ind_len h4.1) (fun _ s5 h5 => ?_) fun _ s5 h5 => ?_)
        · have := h.up m (show s2.eaten + m ≤ s5.pos by have := h3.2; have := h4.2; have := h5.2; omega)
          exact line _ h5.1 (by simp only [List.length_append, List.length_replicate]; omega)
        · refine .pure ?_
          rw [trimEnd_ws (by simp; intro _; decide)]
          have := h.mono (show s2.eaten ≤ s5.pos by have := h3.2; have := h4.2; have := h5.2; omega)
          omega
      · refine .pure ?_
        have := h.mono (show s2.eaten ≤ s4.pos by have := h3.2; have := h4.2; have := h4.1.eaten; omega)
        omega

theorem Ex.with_pk {x : PM α} {Q : α → Parser → Prop} (hk : (PK (tc doc)).Holds x (fun _ => True)) (hs : PWF (tc doc) s)
    (h : Ex x s Q) : Ex x s fun a s' => Q a s' ∧ PWF (tc doc) s' ∧ s'.eaten = s.eaten := by
  intro a s' e
  have := Ex.runs (runs_pk hk hs) a s' e
  exact ⟨h a s' e, this⟩

theorem Ex.pos_of_context {x : PM α} (hk : (PF (tc doc)).Holds x (fun _ => True)) (hs : PWF (tc doc) s) :
    Ex (YamlPeg.context x) s fun _ s' => PWF (tc doc) s' ∧ s'.eaten = s.eaten ∧ s.pos ≤ s'.pos := by
  have h1 : Ex (YamlPeg.context x) s fun _ s' => s.pos ≤ s'.pos := by
    refine Ex.context (Q := fun _ p => s.pos ≤ p) ((Ex.runs (runs_of_holds hk hs.fwd)).mono fun _ s1 h => ?_)
    have h2 : s.pos ≤ s1.eaten := h.2.2
    have := h.2.1.eaten
    omega
  exact (h1.with_pk (context_pk hk) hs).mono fun _ _ h => ⟨h.2.1, h.2.2, h.1⟩

theorem stringWrapped_ex (h : Cost doc f) (hs : PWF (tc doc) s) {level : Nat} {sep : UInt8} {leading : Bool} {A : Nat}
    (hA : A + 1 ≤ s.pos) : Ex (stringWrapped level sep leading) s fun (v : Bytes) s' => (trimEnd v).length + f A ≤ f s'.pos := by
  refine Ex.context (Q := fun (v : Bytes) p => (trimEnd v).length + f A ≤ f p) ?_
  refine .bind (.get (.bind ?_))
  have h1 : f A + f 1 ≤ f s.pos := by rw [← h.add]; exact h.mono hA
  refine (wrappedLoop_ex h hs.fwd (v := []) (A := f A + f 1) (by simpa using h1)).mono fun v s1 h2 => ?_
  refine .bind fun _ s2 e => .pure ?_
  simp only [back] at e
  split at e
  · cases e
    rw [trimEnd_ws (by decide)]
    have := h.add (s1.pos - 1) 1
    rw [Nat.sub_add_cancel ‹_›] at this
    show _ ≤ f (s1.pos - 1)
    omega
  · cases e

theorem chomp_trim (c : Chomp) (s : Bytes) : trimEnd (c.apply s) = trimEnd s := by
  cases c
  · exact trimEnd_idem s
  · rfl
  · simp only [Chomp.apply]
    rw [trimEnd_ws (by decide), trimEnd_idem]

theorem block_ex (h : Cost doc f) (hs : PWF (tc doc) s) {level : Nat} {c sep : UInt8} {leading : Bool} :
    Ex (do
      sym c
      let c ← chomp
      ws (.more 0)
      let s ← stringWrapped level sep leading
      pure (c.apply s)) s fun (v : Bytes) s' => (trimEnd v).length + f s.pos ≤ f s'.pos := by
  refine .bind ((Ex.runs (sym_runs hs)).mono fun _ s1 h1 => .bind ?_)
  refine (Ex.pos_of_context (Holds.bind (pk_pf (isOk_pk sym_pk)) fun _ _ => Holds.ite (fun _ => Holds.pure trivial)
    fun _ => Holds.bind (pk_pf (isOk_pk sym_pk)) fun _ _ => Holds.ite (fun _ => Holds.pure trivial)
    fun _ => Holds.pure trivial) h1.1.wf).mono fun c s2 h2 => ?_
  refine .bind ((Ex.runs (more0_runs (E := fun _ _ => True) h2.1)).mono fun _ s3 h3 => .bind ?_)
  refine (stringWrapped_ex h h3.1.wf (A := s.pos) (by have := h1.2; have := h2.2.2; have := h3.2; omega)).mono fun v s4 h4 => .pure ?_
  rw [chomp_trim]
  exact h4

end

/-! ## The factor of a document -/

theorem spread_cost (doc : Bytes) : Cost doc fun n => spread doc * n := by
  have h1 : 1 ≤ spread doc := by unfold spread; split <;> omega
  refine ⟨fun p q => Nat.mul_add .., fun {p q} k e => ?_, fun {i j} e ej => ?_⟩
  · have := Nat.mul_le_mul_left (spread doc) e
    rw [Nat.mul_add] at this
    have := Nat.mul_le_mul_right k h1
    omega
  · have hl : ((doc.take j).drop i).length = j - i := by simp; omega
    have key : (lossy ((doc.take j).drop i)).length ≤ spread doc * (j - i) := by
      rw [← hl]
      unfold spread
      split
      · rename_i h
        rw [lossy_ascii _ fun x hx => h x (List.mem_of_mem_take (List.mem_of_mem_drop hx))]
        omega
      · exact lossy_length _
    rw [Nat.mul_sub] at key
    have := Nat.mul_le_mul_left (spread doc) e
    show _ + spread doc * i ≤ spread doc * j
    omega

end YamlPeg
