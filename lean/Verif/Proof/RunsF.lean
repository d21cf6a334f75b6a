import Verif.Proof.RunsL
/-! # Termination of scalars and flow collections -/

namespace YamlPeg
open M Frame

/-- No `:` followed by a boundary at the cursor. -/
def NoColon (s : Parser) : Prop := ∀ r, s.rest = 0x3A :: r → headIn b!":{}[] ,\n\r" r = false

/-- How a value may begin: continuation lines have to be indented, or it begins
on the next line. -/
def Ent (L : Nat) (map : Bool) (l : Loader) : Prop :=
  Deep (if map then L else L + 1) l.parser.indent ∨ GapAt l.parser

/-- Behind a value. -/
structure Done (doc : Bytes) (L : Nat) (map : Bool) (l l' : Loader) : Prop where
  gd : Gd doc L l l'
  marked : l'.parser.pos = l'.parser.eaten
  more : map = true → Deep L l'.parser.indent ∨ NoColon l'.parser

/-- The recursive call, with fuel `n`, ends when the rest of the document is short enough. -/
def ScRuns (doc : Bytes) (n : Nat) (sc : ScalarCall) : Prop :=
  ∀ L map flow (l : Loader), PWF (tc doc) l.parser → QAt doc l.parser.pos → l.parser.pos = l.parser.eaten →
    (map = true → 1 ≤ L) → Ent L map l → doc.length - l.parser.eaten + 2 ≤ n →
    Runs (sc L map flow) l (fun _ l' => Done doc L map l l') NM

section
variable {doc : Bytes} {l : Loader}

/-- After a mismatch the table is kept. -/
abbrev EM (doc : Bytes) (L : Nat) (l : Loader) : PErr → Loader → Prop :=
  fun e l' => e = .mismatch → Gd doc L l l'

theorem NM.em {L : Nat} {e : PErr} {l' : Loader} (h : NM e l') : EM doc L l e l' := fun h' => absurd h' h

theorem useAlias_runs {s : Bytes} {Q : Yaml → Loader → Prop} (h : ∀ y, Q y l) : Runs (useAlias s) l Q NM := by
  refine Runs.bind (Runs.get (Runs.ite (fun _ => Runs.pure (h _)) fun _ => Runs.bind (curAnchors_runs fun a => ?_)))
  cases mapGet s a with
  | some n => exact Runs.pure (h _)
  | none => exact lerr_runs

theorem scalarAtom_runs {n K : Nat} {flow : Bool} (hs : PWF (tc doc) l.parser) (hd : QuotesClosed doc)
    (hq : QAt doc l.parser.eaten) (hk : Deep K l.parser.indent) (hn : doc.length - l.parser.eaten < n) :
    Runs (scalarAtom n K flow) l (fun _ l' => Gd doc (K + 1) l l') NM := by
  have gd : ∀ {l1 : Loader} {p : Parser}, Stp doc l.parser p → Gd doc (K + 1) l { l1 with parser := p } := by
    intro l1 p g
    exact ⟨g.wf, Nat.le_of_eq g.eaten.symm, by show Keep _ _ p.indent; rw [g.indent]; exact Keep.refl _ _⟩
  have step : ∀ {β : Type} {x : PM β} {f : Option β → LM (Option Yaml)} {l1 : Loader},
      Stp doc l.parser l1.parser → (PK (tc doc)).Holds x (fun _ => True) → SameInd x → EB x →
      (∀ a p, Stp doc l.parser p → Runs (f (some a)) { l1 with parser := p } (fun _ l' => Gd doc (K + 1) l l') NM) →
      (∀ p, Stp doc l.parser p → Runs (f none) { l1 with parser := p } (fun _ l' => Gd doc (K + 1) l l') NM) →
      Runs (try? (lift x) >>= f) l1 (fun _ l' => Gd doc (K + 1) l l') NM := by
    intro β x f l1 g hx hi hb h1 h2
    exact Runs.bind (Runs.try? (Runs.lift ((runs_eb hx hi hb g.wf).mono (fun a p h => h1 a p (g.trans h))
      fun e p h => h2 p (g.trans h.1))))
  refine step (Stp.refl hs) float_pk float_si .float (fun a p g => Runs.pure (gd g)) fun p g => ?_
  refine step (l1 := { l with parser := p }) g sciFloat_pk sciFloat_si .sciFloat (fun a p g => Runs.pure (gd g)) fun p g => ?_
  refine step (l1 := { l with parser := p }) g int_pk int_si .int (fun a p g => Runs.pure (gd g)) fun p g => ?_
  refine Runs.bind (Runs.try? (Runs.lift ((anchorUse_qat (s := p) hd g.wf).mono
    (fun a p1 h1 => Runs.bind (useAlias_runs fun y => Runs.pure (gd (g.trans h1)))) fun _ p1 h1 => ?_)))
  obtain ⟨g1, q1⟩ := h1
  have g1 := g.trans g1
  have q1 : QAt doc p1.pos := by
    rcases q1 with h | h
    · rw [h, g.eaten]; exact hq
    · exact h
  have len : ∀ {p : Parser}, Stp doc l.parser p → p.rest.length ≤ n := by
    intro p g
    have e := g.eaten
    have := g.wf.eaten
    have hd : p.doc = doc := g.wf.doc
    rw [Parser.rest, List.length_drop, hd]; omega
  refine Runs.bind (Runs.try? (Runs.lift ((stringQuoted_closed (s := p1) (.inl ⟨rfl, rfl⟩) g1.wf
    ((qat_rest g1.wf).1 q1).single (len g1)).mono (fun _ p2 h2 => Runs.pure (gd (g1.trans h2))) fun _ p2 h2 => ?_)))
  have g2 := g1.trans h2.1
  have q2 : QAt doc p2.pos := by rw [h2.2]; exact q1
  refine Runs.bind (Runs.try? (Runs.lift ((stringQuoted_closed (s := p2) (.inr ⟨rfl, rfl⟩) g2.wf
    ((qat_rest g2.wf).1 q2).double (len g2)).mono (fun _ p3 h3 => Runs.pure (gd (g2.trans h3))) fun _ p3 h3 => ?_)))
  have g3 := g2.trans h3.1
  have e3 := g3.eaten
  have q3 := g3.wf.eaten
  have sp := stringPlain_runs (s := p3) (L := K) (n := n) (inner := flow) g3.wf (by rw [g3.indent]; exact hk) (by omega)
  refine Runs.bind (Runs.try? (Runs.lift (sp.mono (fun _ p4 g4 => Runs.pure ?_) fun _ p4 g4 => Runs.pure ?_)))
  · exact ⟨g4.wf, Nat.le_of_eq (g4.eaten.trans e3).symm, by
      have := g4.indent.keep; rw [g3.indent] at this; exact this⟩
  · exact ⟨g4.wf, Nat.le_of_eq (g4.eaten.trans e3).symm, by
      have := g4.indent.keep; rw [g3.indent] at this; exact this⟩

/-- The item separator steps. -/
theorem symL_runs {c : UInt8} {L : Nat} (hq : QuotesClosed doc) (hs : PWF (tc doc) l.parser) :
    Runs (lift (sym c)) l (fun _ l' => Gd doc L l l' ∧ l'.parser.pos = l.parser.pos + 1 ∧
        l'.parser.indent = l.parser.indent ∧ l'.parser.eaten = l.parser.eaten ∧ (opener c = true → QAt doc l'.parser.pos))
      (fun e l' => Gd doc L l l' ∧ l'.parser.pos = l.parser.eaten ∧
        l'.parser.indent = l.parser.indent ∧ l'.parser.eaten = l.parser.eaten) :=
  Runs.lift (((sym_runs hs).and (Q' := fun _ s' => opener c = true → QAt doc s'.pos) (E' := fun _ _ => True) (by
      by_cases hc : opener c = true
      · exact (sym_qat hc hq hs).mono (fun _ _ h _ => h) fun _ _ h => h
      · exact (sym_runs hs).mono (fun _ _ _ h => absurd h hc) fun _ _ _ => trivial)).mono
    (fun _ _ h => ⟨h.1.1.gd, h.1.2, h.1.1.indent, h.1.1.eaten, h.2⟩)
    fun _ _ h => ⟨h.1.2.1.gd, h.1.2.2, h.1.2.1.indent, h.1.2.1.eaten⟩)

theorem invL_runs {L : Nat} {E : PErr → Loader → Prop} (hq : QuotesClosed doc) (hs : PWF (tc doc) l.parser) :
    Runs (lift (inv (.more 0))) l (fun _ l' => Gd doc L l l' ∧ l.parser.pos ≤ l'.parser.pos ∧
        l'.parser.indent = l.parser.indent ∧ (QAt doc l.parser.pos → QAt doc l'.parser.pos)) E :=
  Runs.lift (((more0_runs hs).and (E := fun _ _ => False) (E' := fun _ _ => False)
      (Q' := fun _ s' => QAt doc l.parser.pos → QAt doc s'.pos) (by
      by_cases hc : QAt doc l.parser.pos
      · exact (more0_qat (fun _ h => isAsciiWs_opener h) hq hs hc).mono (fun _ _ h _ => h) fun _ _ h => h
      · exact (more0_runs hs).mono (fun _ _ _ h => absurd h hc) fun _ _ h => h)).mono
    (fun _ _ h => ⟨h.1.1.gd, h.1.2, h.1.1.indent, h.2⟩) fun _ _ h => h.1.elim)

theorem fwd_eaten : (fwd l).parser.eaten = l.parser.pos := rfl
theorem fwd_pos : (fwd l).parser.pos = l.parser.pos := rfl
theorem fwd_indent : (fwd l).parser.indent = l.parser.indent := rfl

theorem seqFlowLoop_runs {n : Nat} {sc : ScalarCall} (hq : QuotesClosed doc) (hsc : ScRuns doc n sc) {K : Nat} : ∀ {k : Nat} {v : List Node}
    {l : Loader}, PWF (tc doc) l.parser → QAt doc l.parser.pos → Deep K l.parser.indent → doc.length - l.parser.pos + 1 ≤ k →
    doc.length - l.parser.pos + 2 ≤ n →
    Runs (seqFlowLoop sc K k v) l (fun _ l' => Gd doc (K + 1) l l') (EM doc (K + 1) l) := by
  intro k
  induction k with
  | zero => intro v l _ _ _ h; omega
  | succ k ih =>
    intro v l hs hql hk hf hn
    refine Runs.bind ((invL_runs (L := K + 1) hq hs).mono (fun _ l1 h1 => ?_) fun _ _ h => h)
    obtain ⟨g1, p1, i1, r1⟩ := h1
    have r1 := r1 hql
    refine Runs.bind (forward_runs ?_)
    have g2 := g1.trans (fwd_gd g1.wf)
    refine Runs.bind (Runs.isOk ((symL_runs (L := K + 1) hq g2.wf).mono (fun _ l3 h3 => ?_) fun _ l3 h3 => ?_))
    · exact Runs.ite (fun _ => Runs.pure (g2.trans h3.1)) fun h => absurd rfl h
    refine Runs.ite (fun h => absurd h (by simp)) fun _ => ?_
    obtain ⟨g3, p3, i3, e3⟩ := h3
    rw [fwd_eaten] at p3 e3
    rw [fwd_indent] at i3
    have g3 := g2.trans g3
    refine Runs.bind (forward_runs ?_)
    have g4 := g3.trans (fwd_gd g3.wf)
    have d4 : Deep K (fwd l3).parser.indent := by rw [fwd_indent, i3, i1]; exact hk
    have q1 : l1.parser.pos ≤ doc.length := g1.wf.pos
    have hc := hsc (K + 1) false true (fwd l3) g4.wf (by rw [fwd_pos, p3]; exact r1) rfl (by simp) (.inl (d4.mono (by simp; omega)))
      (by rw [fwd_eaten]; omega)
    refine Runs.bind ((orErr_runs (hc.mono (fun _ _ h => h) fun _ _ _ => trivial)).mono (fun x l5 h5 => ?_) fun _ _ h => h.em)
    have g5 := g4.trans h5.gd
    have e5 := h5.gd.eaten
    rw [fwd_eaten] at e5
    have q5 := h5.gd.wf.eaten
    refine Runs.bind ((invL_runs (L := K + 1) hq g5.wf).mono (fun _ l6 h6 => ?_) fun _ _ h => h)
    obtain ⟨g6, p6, i6, -⟩ := h6
    have g6' := g5.trans g6
    refine Runs.bind (Runs.isOk ((symL_runs (L := K + 1) hq g6.wf).mono (fun _ l7 h7 => ?_) fun _ l7 h7 => ?_))
    · obtain ⟨g7, p7, i7, e7, r7⟩ := h7
      have q7 : l7.parser.pos ≤ doc.length := g7.wf.pos
      refine Runs.ite (fun _ => ?_) fun h => absurd rfl h
      have g7' := g6'.trans g7
      refine (ih g7.wf (r7 (by decide)) (hk.keep g7'.keep) (by omega) (by omega)).mono (fun _ _ h => g7'.trans h)
        fun e _ h hm => g7'.trans (h hm)
    · obtain ⟨g7, p7, i7, e7⟩ := h7
      have g7' := g6'.trans g7
      refine Runs.ite (fun h => absurd h (by simp)) fun _ => ?_
      refine Runs.bind ((invL_runs (L := K + 1) hq g7.wf).mono (fun _ l8 h8 => ?_) fun _ _ h => h)
      have g8' := g7'.trans h8.1
      exact Runs.bind ((symL_runs (L := K + 1) hq h8.1.wf).mono (fun _ l9 h9 => Runs.pure (g8'.trans h9.1))
        fun _ l9 h9 _ => g8'.trans h9.1)


theorem gapThenInd_runs {L K : Nat} (hq : QuotesClosed doc) (hK : K ≤ L + 1) (hs : PWF (tc doc) l.parser) :
    Runs (gapThenInd L) l (fun _ l' => Gd doc K l l' ∧ l'.parser.eaten = l.parser.eaten ∧
        (QAt doc l.parser.pos → QAt doc l'.parser.pos) ∧
        ((GapAt l.parser ∧ l'.parser.indent = indentFor L l.parser.indent) ∨
          (¬ GapAt l.parser ∧ l'.parser.indent = l.parser.indent ∧
            (l'.parser.pos = l.parser.pos ∨ (l'.parser.rest = [] ∧ l.parser.rest.head? ≠ some 0x3A)))))
      (fun e l' => e = .mismatch ∧ Gd doc K l l' ∧ GapAt l.parser ∧
        l'.parser.indent = indentFor L l.parser.indent ∧ 0 < l'.parser.indent.sum ∧
        l'.parser.pos = l.parser.eaten ∧ l'.parser.eaten = l.parser.eaten) := by
  have hg : Runs (gap true) l.parser (fun _ s' => Stp doc l.parser s' ∧ GapAt l.parser)
      (fun e s' => Stp doc l.parser s' ∧ ¬ GapAt l.parser ∧ (s'.pos = l.parser.pos ∨ (s'.rest = [] ∧ l.parser.rest.head? ≠ some 0x3A))) := by
    have hr := gap_runs hs
    unfold Runs at *
    rcases hx : gap true l.parser with ⟨r, s'⟩
    rw [hx] at hr
    cases r with
    | ok t => exact ⟨hr.1, hr.2.2⟩
    | panic p => trivial
    | diverge => exact hr
    | err e =>
      refine ⟨hr.2.1, hr.2.2, ?_⟩
      obtain ⟨k, pre, mid, post, hst⟩ := PWF.exists_st hs
      rw [hst] at hx ⊢
      rw [gap_eq] at hx
      cases hgs : gapSpec true post with
      | some q => rw [hgs] at hx; simp at hx
      | none =>
        rw [hgs] at hx
        simp only [Prod.mk.injEq] at hx
        obtain ⟨-, rfl⟩ := hx
        simp only [gapSpec] at hgs
        split at hgs
        · rename_i h0
          simp only [gapLead, if_true, cmtSkip] at h0 ⊢
          split
          · rename_i r hr
            right
            rw [st_rest, st_rest]
            refine ⟨?_, ?_⟩
            rotate_left
            · intro hh
              cases post with
              | nil => simp at hh
              | cons x q =>
                simp only [List.head?_cons, Option.some.injEq] at hh
                subst hh
                simp [List.dropWhile, show isBlank 0x3A = false by decide] at hr
            rw [hr] at h0
            simp only at h0
            rw [nlLen_zero_iff] at h0
            cases hdw : r.dropWhile (notIn b!"\n\r") with
            | nil => rfl
            | cons c q =>
              have := h0 c q hdw
              have hn := List.head_dropWhile_not (p := notIn b!"\n\r") (l := r) (by rw [hdw]; simp)
              simp only [hdw, List.head_cons] at hn
              simp [notIn, this.1, this.2] at hn
          · left; simp
        · simp at hgs
  have hg := hg.and (gap_qat hq hs)
  refine Runs.bind (Runs.isOk (Runs.lift (hg.mono (fun _ p h => ?_) fun _ p h => ?_)))
  · obtain ⟨h, hr⟩ := h
    refine Runs.ite (fun _ => Runs.lift (((ind_runs (L := L) h.1.wf).and (ind_qat hq h.1.wf hr)).mono (fun _ q hq => ?_) fun e q hq => ?_)) fun h => absurd rfl h
    · obtain ⟨⟨w, e, i, _⟩, rq⟩ := hq
      have i' : q.indent = indentFor L l.parser.indent := by rw [i, h.1.indent]
      refine ⟨⟨w, Nat.le_of_eq ?_, ?_⟩, e.trans h.1.eaten, fun _ => rq, .inl ⟨h.2, i'⟩⟩
      · exact (e.trans h.1.eaten).symm
      · show Keep K _ q.indent
        rw [i']; exact (keep_indentFor _ _).le hK
    · obtain ⟨⟨he, w, e, i, hp, hpos⟩, -⟩ := hq
      have i' : q.indent = indentFor L l.parser.indent := by rw [i, h.1.indent]
      refine ⟨he, ⟨w, Nat.le_of_eq ?_, ?_⟩, h.2, i', ?_, ?_, ?_⟩
      · exact (e.trans h.1.eaten).symm
      · show Keep K _ q.indent
        rw [i']; exact (keep_indentFor _ _).le hK
      · show 0 < q.indent.sum
        rw [i]; exact hp
      · exact hpos.trans h.1.eaten
      · exact e.trans h.1.eaten
  · refine Runs.ite (fun h => absurd h (by simp)) fun _ => Runs.pure ?_
    obtain ⟨h, hr⟩ := h
    exact ⟨h.1.gd, h.1.eaten, hr, .inr ⟨h.2.1, h.1.indent, h.2.2⟩⟩

/-- What a simple key of a flow map needs. -/
def SfRuns (doc : Bytes) (n d K : Nat) (sf : LM Node) : Prop :=
  ∀ l : Loader, PWF (tc doc) l.parser → QAt doc l.parser.pos → l.parser.pos = l.parser.eaten → Deep K l.parser.indent →
    doc.length - l.parser.eaten + 1 ≤ d → doc.length - l.parser.eaten + 1 ≤ n →
    Runs sf l (fun _ l' => Gd doc (K + 1) l l' ∧ l'.parser.pos = l'.parser.eaten) NM

theorem complexMapping_runs' {s : Parser} (hs : PWF (tc doc) s) :
    Runs complexMapping s (fun _ s' => Stp doc s s' ∧ s.pos + 1 ≤ s'.pos)
      (fun _ s' => Stp doc s s' ∧ s'.pos = s.eaten) := by
  refine Runs.bind ((sym_runs hs).mono (fun _ s1 h1 => ?_) fun _ _ h => h.2)
  exact (bound_runs h1.1.wf).mono (fun _ _ h => ⟨h1.1.trans h.1, by have := h1.2; have := h.2; omega⟩)
    fun _ _ h => ⟨h1.1.trans h.2.1, by rw [h.2.2, h1.1.eaten]⟩

theorem mapFlowLoop_runs {n d : Nat} {sc : ScalarCall} (hq : QuotesClosed doc) (hsc : ScRuns doc n sc) {K : Nat} {sf : LM Node}
    (hsf : SfRuns doc n d (K + 1) sf) : ∀ {k : Nat} {v : List (Node × Node)}
    {l : Loader}, PWF (tc doc) l.parser → QAt doc l.parser.pos → Deep K l.parser.indent → doc.length - l.parser.pos + 1 ≤ k →
    doc.length - l.parser.pos + 2 ≤ n → doc.length - l.parser.pos + 1 ≤ d →
    Runs (mapFlowLoop sc sf K k v) l (fun _ l' => Gd doc (K + 1) l l') (EM doc (K + 1) l) := by
  intro k
  induction k with
  | zero => intro v l _ _ _ h; omega
  | succ k ih =>
    intro v l hs hql hk hf hn hd
    refine Runs.bind ((invL_runs (L := K + 1) hq hs).mono (fun _ l1 h1 => ?_) fun _ _ h => h)
    obtain ⟨g1, p1, i1, r1⟩ := h1
    have r1 := r1 hql
    refine Runs.bind (forward_runs ?_)
    have g2 := g1.trans (fwd_gd g1.wf)
    refine Runs.bind (Runs.isOk ((symL_runs (L := K + 1) hq g2.wf).mono (fun _ l3 h3 => ?_) fun _ l3 h3 => ?_))
    · exact Runs.ite (fun _ => Runs.pure (g2.trans h3.1)) fun h => absurd rfl h
    refine Runs.ite (fun h => absurd h (by simp)) fun _ => ?_
    obtain ⟨g3, p3, i3, e3⟩ := h3
    rw [fwd_eaten] at p3 e3
    rw [fwd_indent] at i3
    have g3 := g2.trans g3
    refine Runs.bind (forward_runs ?_)
    have g4 := g3.trans (fwd_gd g3.wf)
    have q1 : l1.parser.pos ≤ doc.length := g1.wf.pos
    have hp3 : l.parser.pos ≤ l3.parser.pos := by omega
    have hq3 : l3.parser.pos ≤ doc.length := g3.wf.pos
    -- the key
    refine Runs.bind (Runs.mono (Q := fun _ l5 => Gd doc (K + 1) l l5 ∧ l.parser.pos ≤ l5.parser.eaten)
      (E := EM doc (K + 1) l) ?_ (fun x l5 h5 => ?_) fun _ _ h => h)
    · refine Runs.bind (Runs.isOk (Runs.lift (((complexMapping_runs' g4.wf).and (complexMapping_qat hq g4.wf)).mono (fun _ p h => ?_) fun _ p h => ?_)))
      · refine Runs.ite (fun _ => ?_) fun h => absurd rfl h
        obtain ⟨⟨h, hp⟩, rp⟩ := h
        rw [fwd_pos] at hp
        have g5 : Gd doc (K + 1) l { fwd l3 with parser := p } := g4.trans h.gd
        refine Runs.bind (forward_runs ?_)
        have g6 := g5.trans (fwd_gd g5.wf)
        have hqp : p.pos ≤ doc.length := h.wf.pos
        have hc := hsc (K + 1) false true (fwd { fwd l3 with parser := p }) g6.wf rp rfl (by simp)
          (.inl ((hk.keep g6.keep).mono (by simp; omega))) (by rw [fwd_eaten]; show doc.length - p.pos + 2 ≤ n; omega)
        refine Runs.bind ((orErr_runs (hc.mono (fun _ _ h => h) fun _ _ _ => trivial)).mono (fun x l7 h7 => ?_) fun _ _ h => h.em)
        have g7 := g6.trans h7.gd
        have e7 := h7.gd.eaten
        rw [fwd_eaten] at e7
        have e7 : p.pos ≤ l7.parser.eaten := e7
        refine Runs.bind ((gapThenInd_runs hq (Nat.le_refl (K + 1)) g7.wf).mono (fun _ l8 h8 => Runs.pure ?_) fun e l8 h8 _ => ?_)
        · exact ⟨g7.trans h8.1, by have := h8.2.1; omega⟩
        · exact g7.trans h8.2.1
      · refine Runs.ite (fun h => absurd h (by simp)) fun _ => ?_
        obtain ⟨⟨h, hp⟩, -⟩ := h
        rw [fwd_eaten] at hp
        have he := h.eaten
        rw [fwd_eaten] at he
        have g5 : Gd doc (K + 1) l { fwd l3 with parser := p } := g4.trans h.gd
        have hc := hsf { fwd l3 with parser := p } g5.wf (by show QAt doc p.pos; rw [hp, p3]; exact r1) (hp.trans he.symm) ((hk.keep g5.keep).mono (by omega))
          (by show doc.length - p.eaten + 1 ≤ d; omega) (by show doc.length - p.eaten + 1 ≤ n; omega)
        refine (orErr_runs (hc.mono (fun _ _ h => h) fun _ _ _ => trivial)).mono (fun x l7 h7 => ?_) fun _ _ h => h.em
        refine ⟨g5.trans (h7.1.le (by omega)), ?_⟩
        have := h7.1.eaten
        have : p.eaten ≤ l7.parser.eaten := this
        omega
    obtain ⟨g5, e5⟩ := h5
    have q5 := g5.wf.eaten
    refine Runs.bind (Runs.isOk ((symL_runs (L := K + 1) hq g5.wf).mono (fun _ l6 h6 => ?_) fun _ l6 h6 => ?_))
    · refine Runs.ite (fun _ => ?_) fun h => absurd rfl h
      obtain ⟨g6, p6, i6, e6, r6⟩ := h6
      have g6' := g5.trans g6
      have hctx : Runs (context (orDefault () bound)) l6.parser (fun _ s' => Stp doc l6.parser s' ∧
          l6.parser.pos ≤ s'.pos ∧ QAt doc s'.pos) (fun _ _ => False) := by
        have w0 : PWF (tc doc) { l6.parser with eaten := l6.parser.pos } :=
          ⟨g6.wf.doc, g6.wf.consumed, Nat.zero_le _, Nat.le_refl _, g6.wf.pos, g6.wf.indent, g6.wf.tag1, g6.wf.tag2⟩
        have hb : Runs (orDefault () bound) { l6.parser with eaten := l6.parser.pos }
            (fun _ s' => Stp doc { l6.parser with eaten := l6.parser.pos } s' ∧ QAt doc s'.pos) (fun _ _ => False) :=
          Runs.orDefault (((bound_runs w0).and (bound_qat hq w0)).mono (fun _ _ h => ⟨h.1.1, h.2⟩)
            fun _ _ h => ⟨h.1.2.1, by rw [h.1.2.2]; exact r6 (by decide)⟩)
        unfold Runs at *
        rcases hx : orDefault () bound { l6.parser with eaten := l6.parser.pos } with ⟨r, s'⟩
        have hc : context (orDefault () bound) l6.parser = (r, { s' with eaten := l6.parser.eaten }) := by
          unfold context; simp only [hx]
        rw [hx] at hb
        rw [hc]
        cases r with
        | ok a =>
          obtain ⟨hb, rb⟩ := hb
          have w := hb.wf
          have e1 : s'.eaten = l6.parser.pos := hb.eaten
          have e2 : s'.eaten ≤ s'.pos := w.eaten
          have e3 : l6.parser.eaten ≤ l6.parser.pos := g6.wf.eaten
          refine ⟨⟨⟨w.doc, w.consumed, Nat.zero_le _, ?_, w.pos, w.indent, w.tag1, w.tag2⟩, rfl, hb.indent⟩, ?_, rb⟩
          · show l6.parser.eaten ≤ s'.pos; omega
          · show l6.parser.pos ≤ s'.pos; omega
        | err e => exact hb
        | panic p => trivial
        | diverge => exact hb
      refine Runs.bind (Runs.lift (hctx.mono (fun _ p h => ?_) fun _ _ h => h.elim))
      have g7 : Gd doc (K + 1) l { l6 with parser := p } := g6'.trans h.1.gd
      refine Runs.bind (forward_runs ?_)
      have g8 := g7.trans (fwd_gd g7.wf)
      have hqp : p.pos ≤ doc.length := h.1.wf.pos
      have hp6 := h.2.1
      have hc := hsc (K + 1) false true (fwd { l6 with parser := p }) g8.wf h.2.2 rfl (by simp)
          (.inl ((hk.keep g8.keep).mono (by simp; omega))) (by rw [fwd_eaten]; show doc.length - p.pos + 2 ≤ n; omega)
      refine Runs.bind ((orErr_runs (hc.mono (fun _ _ h => h) fun _ _ _ => trivial)).mono (fun x l9 h9 => ?_) fun _ _ h => h.em)
      have g9 := g8.trans h9.gd
      have e9 := h9.gd.eaten
      rw [fwd_eaten] at e9
      have e9 : p.pos ≤ l9.parser.eaten := e9
      have q9 := g9.wf.eaten
      have m9 := h9.marked
      refine Runs.bind (Runs.isOk ((symL_runs (L := K + 1) hq g9.wf).mono (fun _ l10 h10 => ?_) fun _ l10 h10 => ?_))
      · obtain ⟨g10, p10, i10, e10, r10⟩ := h10
        have q10 : l10.parser.pos ≤ doc.length := g10.wf.pos
        refine Runs.ite (fun _ => ?_) fun h => absurd rfl h
        have g10' := g9.trans g10
        refine (ih g10.wf (r10 (by decide)) (hk.keep g10'.keep) (by omega) (by omega) (by omega)).mono (fun _ _ h => g10'.trans h)
          fun e _ h hm => g10'.trans (h hm)
      · obtain ⟨g10, p10, i10, e10⟩ := h10
        have g10' := g9.trans g10
        refine Runs.ite (fun h => absurd h (by simp)) fun _ => ?_
        refine Runs.bind ((invL_runs (L := K + 1) hq g10.wf).mono (fun _ l8 h8 => ?_) fun _ _ h => h)
        have g8' := g10'.trans h8.1
        exact Runs.bind ((symL_runs (L := K + 1) hq h8.1.wf).mono (fun _ l9 h9 => Runs.pure (g8'.trans h9.1))
          fun _ l9 h9 _ => g8'.trans h9.1)
    · refine Runs.ite (fun h => absurd h (by simp)) fun _ => ?_
      exact lerr_runs.mono (fun _ _ h => h) fun _ _ h => h.em

/-- Every scalar and flow collection. -/
theorem scalarTerm_runs {n : Nat} {sc : ScalarCall} (hsc : ScRuns doc n sc) (hq : QuotesClosed doc) : ∀ {d K : Nat} {flow : Bool}
    {l : Loader}, PWF (tc doc) l.parser → QAt doc l.parser.eaten → Deep K l.parser.indent → doc.length - l.parser.eaten + 1 ≤ n →
    doc.length - l.parser.eaten + 1 ≤ d →
    Runs (scalarTerm sc n d K flow) l (fun _ l' => Gd doc (K + 1) l l') NM := by
  intro d
  induction d with
  | zero => intro K flow l _ _ _ _ h; omega
  | succ d ih =>
    intro K flow l hs hql hk hn hd
    rw [scalarTerm, scalarTermWith]
    refine Runs.bind ((scalarAtom_runs hs hq hql hk (by omega)).mono (fun o l1 g1 => ?_) fun _ _ h => h)
    cases o with
    | some y => exact Runs.pure g1
    | none =>
      have e1 := g1.eaten
      have q1 := g1.wf.eaten
      have sf : SfRuns doc n d (K + 1) (scalarNode (scalarTerm sc n d (K + 1) true)) := by
        intro l0 w0 r0 p0 d0 f0 n0
        refine (scalarNode_runs w0 hq r0 p0 (Q := fun l' => Gd doc (K + 1 + 1) l0 l' ∧
          l'.parser.pos = l'.parser.eaten) fun l1 h1 => ?_)
        have e1 := h1.eaten
        refine (ih h1.wf (by rw [← h1.marked]; exact h1.qat) (by rw [h1.indent]; exact d0) (by omega) (by omega)).mono (fun _ l2 g2 => ⟨g2.wf, fun a => ?_⟩)
          fun _ _ h => h
        have g := (h1.gd (L := K + 1 + 1)).trans (g2.trans (fwd_gd g2.wf))
        exact ⟨⟨g.wf, g.eaten, g.keep⟩, rfl⟩
      refine Runs.orElse (Runs.orElse (Runs.mono (Q := fun _ l' => Gd doc (K + 1) l l') (E := EM doc (K + 1) l) ?_
        (fun _ _ h => h) fun e l2 h2 => ?_))
      · -- a flow sequence
        refine Runs.bind ((symL_runs (L := K + 1) hq g1.wf).mono (fun _ l2 h2 => ?_) fun _ l2 h2 _ => g1.trans h2.1)
        obtain ⟨g2, p2, i2, e2, r2⟩ := h2
        have g2' := g1.trans g2
        have q2 : l2.parser.pos ≤ doc.length := g2.wf.pos
        refine Runs.bind ((seqFlowLoop_runs hq hsc g2.wf (r2 (by decide)) (hk.keep g2'.keep) (by omega) (by omega)).mono
          (fun v l3 g3 => Runs.bind (forward_runs (Runs.pure ?_))) fun e l3 h3 hm => g2'.trans (h3 hm))
        have g3' := g2'.trans g3
        exact g3'.trans (fwd_gd g3'.wf)
      · cases e with
        | terminate a m => exact PErr.noConfusion
        | mismatch =>
          have g2 := h2 rfl
          have e2 := g2.eaten
          have q2 := g2.wf.eaten
          refine Runs.mono (Q := fun _ l' => Gd doc (K + 1) l l') (E := EM doc (K + 1) l) ?_
            (fun _ _ h => h) fun e l3 h3 => ?_
          · refine Runs.bind ((symL_runs (L := K + 1) hq g2.wf).mono (fun _ l3 h3 => ?_) fun _ l3 h3 _ => g2.trans h3.1)
            obtain ⟨g3, p3, i3, e3, r3⟩ := h3
            have g3' := g2.trans g3
            have q3 : l3.parser.pos ≤ doc.length := g3.wf.pos
            refine Runs.bind ((mapFlowLoop_runs hq hsc sf g3.wf (r3 (by decide)) (hk.keep g3'.keep) (by omega) (by omega) (by omega)).mono
              (fun v l4 g4 => Runs.bind (forward_runs (collectMap_runs fun _ => ?_))) fun e l4 h4 hm => g3'.trans (h4 hm))
            have g4' := g3'.trans g4
            exact g4'.trans (fwd_gd g4'.wf)
          · cases e with
            | terminate a m => exact PErr.noConfusion
            | mismatch => exact Runs.pure (h3 rfl)

end
end YamlPeg
