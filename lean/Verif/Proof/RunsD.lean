import Verif.Proof.RunsB
/-! # Termination of documents and of the whole parse -/

namespace YamlPeg
open M Frame

/-- Nothing but spaces and a comment up to the end of the line. -/
def BareLine (post : Bytes) : Prop :=
  ∃ sp cmt nl r, post = sp ++ (cmt ++ nl :: r) ∧ (∀ c ∈ sp, c = 0x20) ∧
    (cmt = [] ∨ ∃ t, cmt = 0x23 :: t ∧ ∀ c ∈ t, c ≠ 0x0A ∧ c ≠ 0x0D) ∧ (nl = 0x0A ∨ nl = 0x0D)

/-- Every `---`, except at the very beginning, has nothing but a comment on its line. -/
def MarkersBare (doc : Bytes) : Prop :=
  ∀ pre post, doc = pre ++ b!"---" ++ post → pre ≠ [] → BareLine post

/-- The same from position `p` on. -/
def MB (doc : Bytes) (p : Nat) : Prop :=
  ∀ pre post, doc = pre ++ b!"---" ++ post → p ≤ pre.length → BareLine post

theorem dropWhile_all {f : UInt8 → Bool} {a : Bytes} (h : ∀ c ∈ a, f c = true) (b : Bytes) :
    (a ++ b).dropWhile f = b.dropWhile f := by
  induction a with
  | nil => rfl
  | cons x r ih =>
    rw [List.cons_append, List.dropWhile_cons, if_pos (h x (by simp))]
    exact ih fun c hc => h c (by simp [hc])

theorem gapSpec_bare {cmt r : Bytes} {nl : UInt8}
    (h2 : cmt = [] ∨ ∃ t, cmt = 0x23 :: t ∧ ∀ c ∈ t, c ≠ 0x0A ∧ c ≠ 0x0D) (h3 : nl = 0x0A ∨ nl = 0x0D) :
    (gapSpec true (cmt ++ nl :: r)).isSome = true := by
  have hb : isBlank nl = false := by rcases h3 with rfl | rfl <;> decide
  have hn : notIn b!"\n\r" nl = false := by rcases h3 with rfl | rfl <;> decide
  have hz : ¬ nlLen (nl :: r) = 0 := by
    rw [nlLen_zero_iff]
    intro h
    have := h nl r rfl
    rcases h3 with rfl | rfl
    · exact this.1 rfl
    · exact this.2 rfl
  have : ¬ nlLen (gapLead true (cmt ++ nl :: r)).2 = 0 := by
    simp only [gapLead, if_true, cmtSkip]
    rcases h2 with rfl | ⟨t, rfl, ht⟩
    · simp only [List.nil_append, List.dropWhile_cons, hb]
      split
      · rename_i q hq
        simp at hq
        rcases h3 with h | h <;> rw [h] at hq <;> simp at hq
      · exact hz
    · rw [List.cons_append, List.dropWhile_cons, if_neg (by decide)]
      simp only
      rw [dropWhile_all (fun c hc => by simp [notIn, ht c hc]), List.dropWhile_cons, if_neg (by simp [hn])]
      exact hz
  unfold gapSpec
  simp [this]

/-- Behind `---` and `context(bound)`. -/
def afterBound (post : Bytes) : Bytes := if headIn b!":{}[] ,\n\r" post then post.dropWhile isBlank else post

theorem BareLine.gaps {post : Bytes} (h : BareLine post) : (gapSpec true (afterBound post)).isSome = true := by
  obtain ⟨sp, cmt, nl, r, rfl, h1, h2, h3⟩ := h
  have hb : isBlank nl = false := by rcases h3 with rfl | rfl <;> decide
  have : afterBound (sp ++ (cmt ++ nl :: r)) = cmt ++ nl :: r := by
    unfold afterBound
    have hd : (cmt ++ nl :: r).dropWhile isBlank = cmt ++ nl :: r := by
      rcases h2 with rfl | ⟨t, rfl, ht⟩
      · simp [List.dropWhile_cons, hb]
      · rw [List.cons_append, List.dropWhile_cons, if_neg (by decide)]
    cases sp with
    | nil => simp only [List.nil_append, hd, ite_self]
    | cons x s =>
      rw [if_pos (by rw [h1 x (by simp)]; rfl), dropWhile_all, hd]
      intro c hc
      rw [h1 c hc]; decide
  rw [this]
  exact gapSpec_bare h2 h3

theorem MB.of {doc : Bytes} (h : MarkersBare doc) {p : Nat} (hp : 1 ≤ p) : MB doc p := fun pre post hd hl =>
  h pre post hd (by rintro rfl; simp at hl; omega)

section
variable {doc : Bytes} {l : Loader}

theorem ctxBound_eq (k : Ctx) (pre mid post : Bytes) : context (orDefault () bound) (st k pre mid post) =
    (.ok (), if headIn b!":{}[] ,\n\r" post then
      st k pre (mid ++ post.takeWhile isBlank) (post.dropWhile isBlank) else st k pre mid post) := by
  by_cases h : headIn b!":{}[] ,\n\r" post = true
  · rw [if_pos h, context_st (o := .ok ()) (p' := []) (m' := post.takeWhile isBlank) (post' := post.dropWhile isBlank) (k' := k)]
    · simp
    · unfold orDefault
      rw [bound_eq, if_pos h]; simp
  · rw [if_neg h, context_st (o := .ok ()) (p' := []) (m' := []) (post' := post) (k' := k)]
    · simp
    · unfold orDefault
      rw [bound_eq, if_neg h]; simp

theorem ctxBound_runs {s : Parser} {E : PErr → Parser → Prop} (hq : QuotesClosed doc) (hs : PWF (tc doc) s) (h0 : QAt doc s.pos) :
    Runs (context (orDefault () bound)) s
      (fun _ s' => Stp doc s s' ∧ s.pos ≤ s'.pos ∧ s'.rest = afterBound s.rest ∧ QAt doc s'.pos) E := by
  have hr := runs_stp (x := context (orDefault () bound)) (context_pk (c := tc doc) (pk_pf (Holds.orDefault bound_pk trivial)))
    (context_si (orDefault_si bound_si)) hs
  obtain ⟨k, pre, mid, post, rfl⟩ := PWF.exists_st hs
  unfold Runs at *
  rw [ctxBound_eq] at hr ⊢
  refine ⟨hr, ?_, ?_, ?_⟩
  · split <;> simp
  · unfold afterBound; rw [st_rest]; split <;> simp
  · simp only at hr
    split
    · rename_i hb
      rw [if_pos hb] at hr
      refine hq.run hr.wf (fun c hc => blank_opener (mem_takeWhile hc)) fun h0 => ?_
      have : post.dropWhile isBlank = post := by
        conv => rhs; rw [← List.takeWhile_append_dropWhile (p := isBlank) (l := post), h0]
        rfl
      rw [this]
      exact QOk.bnd hb
    · exact h0

theorem gapOr_runs {s : Parser} {E : PErr → Parser → Prop} (hs : PWF (tc doc) s) :
    Runs (orDefault 0 (gap true)) s (fun _ s' => Stp doc s s') E :=
  Runs.orDefault ((gap_runs hs).mono (fun _ _ h => h.1) fun _ _ h => h.2.1)

theorem symSeq_runs {s : Parser} {b : Bytes} (hs : PWF (tc doc) s) :
    Runs (symSeq b) s (fun _ s' => Stp doc s s' ∧ s'.pos = s.pos + b.length ∧ s.rest = b ++ s'.rest)
      (fun _ s' => Stp doc s s' ∧ s'.pos = s.eaten) := by
  have hr := runs_stp (symSeq_pk (c := tc doc) (l := b)) symSeq_si hs
  obtain ⟨k, pre, mid, post, rfl⟩ := PWF.exists_st hs
  unfold Runs at *
  rw [symSeq_eq] at hr ⊢
  by_cases h : b.isPrefixOf post = true
  · rw [if_pos h] at hr ⊢
    refine ⟨hr, by simp; omega, ?_⟩
    rw [st_rest, st_rest]
    obtain ⟨t, rfl⟩ := List.isPrefixOf_iff_prefix.mp h
    simp
  · rw [if_neg h] at hr ⊢
    exact ⟨hr, by simp⟩

/-- Behind `---`. -/
theorem marker_qat {s s' : Parser} (hq : QuotesClosed doc) (hs : PWF (tc doc) s) (hs' : PWF (tc doc) s')
    (h : s.rest = b!"---" ++ s'.rest) : QAt doc s'.pos := by
  rw [qat_rest hs']
  have hd : s.doc = doc := hs.doc
  refine hq.after (doc.take s.pos ++ b!"--") 0x2D s'.rest ?_ (by decide)
  have : doc = doc.take s.pos ++ s.rest := by rw [Parser.rest, hd, List.take_append_drop]
  rw [h] at this
  simpa using this

/-- One document. -/
theorem doc_runs {n : Nat} (hq : QuotesClosed doc) (hs : PWF (tc doc) l.parser) (h0 : QAt doc l.parser.pos)
    (he : Deep 1 l.parser.indent ∨ (gapSpec true (afterBound l.parser.rest)).isSome = true)
    (hn : doc.length + 2 ≤ n) :
    Runs (YamlPeg.doc n) l (fun _ l' => PWF (tc doc) l'.parser ∧ l.parser.pos ≤ l'.parser.eaten ∧
      l'.parser.pos = l'.parser.eaten) NM := by
  refine Runs.bind (Runs.lift ((ctxBound_runs hq hs h0).mono (fun _ p h => ?_) fun _ _ h => h))
  obtain ⟨h, hp, hr, hqa⟩ := h
  refine Runs.bind (forward_runs (Runs.bind (Runs.modify ?_)))
  have g1 : Gd doc 0 { l with parser := p } (fwd { l with parser := p }) := fwd_gd h.wf
  refine Runs.bind ((scalar_runs hq n 0 false false
    { fwd { l with parser := p } with anchors := l.anchors ++ [[]] } g1.wf hqa rfl (by simp) ?_ (by omega)).mono (fun ret l2 h2 => ?_) fun _ _ h => h)
  · rcases he with he | he
    · left
      show Deep 1 p.indent
      rw [h.indent]; exact he
    · right
      show (gapSpec true p.rest).isSome = true
      rw [hr]; exact he
  have e2 : p.pos ≤ l2.parser.eaten := h2.gd.eaten
  have w2 := h2.gd.wf
  refine Runs.bind (Runs.lift ((gapOr_runs w2).mono (fun _ p3 h3 => ?_) fun _ _ h => h))
  refine Runs.bind (Runs.lift (Runs.orDefault (Runs.mono (symSeq_runs (s := p3) h3.wf) (fun _ p4 h4 => ?_) fun _ p4 h4 => ?_)))
  · refine Runs.bind (forward_runs (Runs.bind (Runs.modify (Runs.pure ?_))))
    have g := h3.trans h4.1
    have e : p4.eaten = l2.parser.eaten := g.eaten
    have q : p4.eaten ≤ p4.pos := g.wf.eaten
    exact ⟨(fwd_gd (L := 0) (l := { l2 with parser := p4 }) g.wf).wf, by show l.parser.pos ≤ p4.pos; omega, rfl⟩
  · refine Runs.bind (forward_runs (Runs.bind (Runs.modify (Runs.pure ?_))))
    have g := h3.trans h4.1
    have e : p4.eaten = l2.parser.eaten := g.eaten
    have q : p4.eaten ≤ p4.pos := g.wf.eaten
    exact ⟨(fwd_gd (L := 0) (l := { l2 with parser := p4 }) g.wf).wf, by show l.parser.pos ≤ p4.pos; omega, rfl⟩

/-- The further documents. -/
theorem docsLoop_runs {n : Nat} (hq : QuotesClosed doc) (hn : doc.length + 2 ≤ n) : ∀ {m : Nat} {v : List Node} {l : Loader},
    PWF (tc doc) l.parser → l.parser.pos = l.parser.eaten → MB doc l.parser.eaten →
    doc.length - l.parser.eaten + 1 ≤ m → Runs (docsLoop n m v) l (fun _ _ => True) (fun _ _ => True) := by
  intro m
  induction m with
  | zero => intro v l _ _ _ h; omega
  | succ m ih =>
    intro v l hs hp hb hm
    refine Runs.bind (Runs.lift ((gapOr_runs hs).mono (fun _ p1 h1 => ?_) fun _ _ h => h))
    refine Runs.bind (Runs.lift ((runs_stp food_pk food_si h1.wf).mono (fun fd p2 h2 => ?_) fun _ _ _ => trivial))
    refine Runs.ite (fun _ => Runs.pure trivial) fun _ => ?_
    have g2 := h1.trans h2
    refine Runs.bind (Runs.isOk (Runs.lift (Runs.mono (symSeq_runs (s := p2) g2.wf) (fun _ p3 h3 => ?_) fun _ p3 h3 => ?_)))
    · refine Runs.ite (fun _ => ?_) fun h => absurd rfl h
      obtain ⟨h3, q3, r3⟩ := h3
      have g3 := g2.trans h3
      have q2 : p2.eaten ≤ p2.pos := g2.wf.eaten
      have e2 : p2.eaten = l.parser.eaten := g2.eaten
      have hl : p3.pos ≤ doc.length := g3.wf.pos
      have q3 : p3.pos = p2.pos + 3 := q3
      have hbare : BareLine p3.rest := by
        refine hb (p2.doc.take p2.pos) p3.rest ?_ ?_
        · have hd : p2.doc = doc := g2.wf.doc
          rw [List.append_assoc, ← r3, Parser.rest, List.take_append_drop, hd]
        · have hd : p2.doc = doc := g2.wf.doc
          rw [List.length_take, hd]
          omega
      refine Runs.bind ((doc_runs (n := n) (l := { l with parser := p3 }) hq g3.wf (marker_qat hq g2.wf g3.wf r3) (.inr hbare.gaps) hn).mono
        (fun d l4 h4 => ?_) fun _ _ _ => trivial)
      obtain ⟨w4, e4, p4⟩ := h4
      have e4 : p3.pos ≤ l4.parser.eaten := e4
      refine ih w4 p4 (fun pre post hd hl => hb pre post hd (by omega)) (by omega)
    · refine Runs.ite (fun h => absurd h (by simp)) fun _ => ?_
      exact (lerr_runs (Q := fun _ _ => True)).mono (fun _ _ _ => trivial) fun _ _ _ => trivial

theorem directive_runs {s : Parser} (hs : PWF (tc doc) s) :
    Runs directive s (fun _ s' => Stp doc s s' ∧ s.eaten + 1 ≤ s'.pos) (fun _ s' => Stp doc s s') := by
  refine Runs.bind ((sym_runs hs).mono (fun _ s1 h1 => ?_) fun _ _ h => h.2.1)
  have hmid : (PK (tc doc)).Holds (context (do
      if ← M.isOk (symSeq b!"YAML") then directiveYaml
      else if ← M.isOk (symSeq b!"TAG") then directiveTag
      else takeWhile (notIn b!"\n\r") (.more 0))) (fun _ => True) := by
    refine context_pk (pk_pf (Holds.bind (isOk_pk symSeq_pk) fun _ _ => Holds.ite (fun _ => directiveYaml_pk (.inr trivial)) fun _ => ?_))
    exact Holds.bind (isOk_pk symSeq_pk) fun _ _ => Holds.ite (fun _ => directiveTag_pk) fun _ => takeWhile_pk
  have hsi : SameInd (context (do
      if ← M.isOk (symSeq b!"YAML") then directiveYaml
      else if ← M.isOk (symSeq b!"TAG") then directiveTag
      else takeWhile (notIn b!"\n\r") (.more 0))) := by
    refine context_si (bind_si (isOk_si symSeq_si) fun _ => ite_si ?_ (bind_si (isOk_si symSeq_si) fun _ => ite_si ?_ takeWhile_si))
    · refine bind_si takeWhile_si fun _ => bind_si get_si fun s => ite_si errAt_si ?_
      refine bind_si (context_si ?_) fun _ => ite_si (sameInd_of fun _ => rfl) errAt_si
      exact bind_si (isOk_si symSeq_si) fun _ => ite_si pure_si (isOk_si symSeq_si)
    · refine bind_si takeWhile_si fun _ => bind_si sym_si fun _ => context_si (bind_si ?_ fun _ =>
        bind_si takeWhile_si fun _ => bind_si (context_si (bind_si takeWhile_si fun _ => text_si)) fun _ =>
        sameInd_of fun _ => rfl)
      refine bind_si (isOk_si identifier_si) fun _ => ite_si
        (bind_si text_si fun _ => bind_si sym_si fun _ => pure_si) ?_
      exact bind_si (isOk_si sym_si) fun _ => ite_si pure_si pure_si
  refine Runs.bind ((runs_stp hmid hsi h1.1.wf).mono (fun _ s2 h2 => ?_) fun _ _ h => h1.1.trans h)
  have g2 := h1.1.trans h2
  refine Runs.bind ((gap_runs g2.wf).mono (fun _ s3 h3 => Runs.pure ⟨g2.trans h3.1, ?_⟩) fun _ _ h => g2.trans h.2.1)
  have := h3.2.1
  have := g2.wf.eaten
  have := g2.eaten
  omega

theorem ctxDirective_runs {s : Parser} (hs : PWF (tc doc) s) :
    Runs (context directive) s (fun _ s' => Stp doc s s' ∧ s.pos + 1 ≤ s'.pos) (fun _ s' => Stp doc s s') := by
  have w0 : PWF (tc doc) { s with eaten := s.pos } :=
    ⟨hs.doc, hs.consumed, Nat.zero_le _, Nat.le_refl _, hs.pos, hs.indent, hs.tag1, hs.tag2⟩
  have hr := directive_runs w0
  have he : s.eaten ≤ s.pos := hs.eaten
  unfold Runs at *
  rcases hx : directive { s with eaten := s.pos } with ⟨r, s'⟩
  have hc : context directive s = (r, { s' with eaten := s.eaten }) := by unfold context; simp only [hx]
  rw [hx] at hr
  rw [hc]
  have fin : Stp doc { s with eaten := s.pos } s' → Stp doc s { s' with eaten := s.eaten } := by
    intro h
    have w := h.wf
    have e : s'.eaten = s.pos := h.eaten
    have q : s'.eaten ≤ s'.pos := w.eaten
    exact ⟨⟨w.doc, w.consumed, Nat.zero_le _, by show s.eaten ≤ s'.pos; omega, w.pos, w.indent, w.tag1, w.tag2⟩, rfl, h.indent⟩
  cases r with
  | ok a => exact ⟨fin hr.1, hr.2⟩
  | err e => exact fin hr
  | panic p => trivial
  | diverge => exact hr

/-- Behind a directive, or where it gave up, a value may begin. -/
def DirLeft {α : Type} (x : Out α × Parser) : Prop :=
  match x with
  | (.ok _, s') => QOk s'.rest
  | (.err .mismatch, s') => QOk s'.rest
  | _ => True

theorem context_left {α : Type} {x : PM α} {s : Parser} (h : DirLeft (x { s with eaten := s.pos })) :
    DirLeft (context x s) := by
  unfold context
  rcases hx : x { s with eaten := s.pos } with ⟨o, s'⟩
  rw [hx] at h
  rcases o with a | (_ | _) | p | _ <;> exact h

theorem ctx_st_left {α : Type} {x : PM α} {k : Ctx} {pre mid post : Bytes} (h : DirLeft (x (st k (pre ++ mid) [] post))) :
    DirLeft (context x (st k pre mid post)) := by
  refine context_left ?_
  have e0 : ({ st k pre mid post with eaten := (st k pre mid post).pos } : Parser) = st k (pre ++ mid) [] post := by
    simp [st]
  rw [e0]; exact h

theorem ws1_cases (k : Ctx) (pre mid post : Bytes) :
    (∃ w r, post = w ++ r ∧ w ≠ [] ∧ (∀ c ∈ w, isBlank c = true) ∧ (∀ c, r.head? = some c → isBlank c = false) ∧
      ws (.more 1) (st k pre mid post) = (.ok (), st k pre (mid ++ w) r)) ∨
    ws (.more 1) (st k pre mid post) = (.err .mismatch, st k pre [] (mid ++ post)) := by
  have e : ws (.more 1) = takeWhile isBlank (.more 1) := rfl
  rw [e, takeWhile_more1]
  by_cases h : post.takeWhile isBlank = []
  · right; rw [if_pos h]
  · left
    rw [if_neg h]
    refine ⟨_, _, (List.takeWhile_append_dropWhile).symm, h, fun c hc => mem_takeWhile hc, fun c hc => ?_, rfl⟩
    have := List.head?_dropWhile_not isBlank post
    rw [hc] at this
    simpa using this

theorem QOk.cons {c : UInt8} {r : Bytes} (h : bareHead c) : QOk (c :: r) :=
  .head fun d hd => by simp at hd; exact hd ▸ h

theorem errAt_left {α : Type} {m : String} {s : Parser} : DirLeft (errAt (α := α) m s) := by
  unfold errAt
  split <;> trivial

theorem directiveYaml_left {k : Ctx} {pre r : Bytes}
    (hy : ∀ w v post, r = w ++ v ++ post → (∀ c ∈ w, isBlank c = true) → v = b!"1.1" ∨ v = b!"1.2" → QOk post) :
    DirLeft (directiveYaml (st k pre b!"YAML" r)) := by
  unfold directiveYaml
  rcases ws1_cases k pre b!"YAML" r with ⟨w, r2, rfl, hw, hb, -, h⟩ | h
  · rw [bind_ok h, bind_ok (get_run _)]
    split
    · exact errAt_left
    · have key : ∀ v r3, (v = b!"1.1" ∨ v = b!"1.2") → r2 = v ++ r3 → DirLeft ((M.modify fun s =>
            { s with versionChecked := true } : PM Unit) (st k pre (b!"YAML" ++ w ++ v) r3)) := by
        intro v r3 hv h3
        show QOk (st k pre (b!"YAML" ++ w ++ v) r3).rest
        rw [st_rest]
        exact hy w v r3 (by rw [h3]; simp) hb hv
      by_cases h1 : (b!"1.1").isPrefixOf r2 = true
      · obtain ⟨r3, h3⟩ := List.isPrefixOf_iff_prefix.mp h1
        rw [bind_ok (context_st (o := .ok true) (p' := []) (m' := b!"1.1") (post' := r3) (k' := k) ?_)]
        · exact key _ _ (.inl rfl) h3.symm
        · rw [bind_ok (isOk_ok (by rw [symSeq_eq, if_pos h1]))]
          simp [← h3]
      · by_cases h2 : (b!"1.2").isPrefixOf r2 = true
        · obtain ⟨r3, h3⟩ := List.isPrefixOf_iff_prefix.mp h2
          rw [bind_ok (context_st (o := .ok true) (p' := []) (m' := b!"1.2") (post' := r3) (k' := k) ?_)]
          · exact key _ _ (.inr rfl) h3.symm
          · rw [bind_ok (isOk_err (by rw [symSeq_eq, if_neg h1]))]
            simp only [Bool.false_eq_true, if_false, List.nil_append]
            rw [isOk_ok (by rw [symSeq_eq, if_pos h2])]
            simp [← h3]
        · rw [bind_ok (context_st (o := .ok false) (p' := []) (m' := []) (post' := r2) (k' := k) ?_)]
          · exact errAt_left
          · rw [bind_ok (isOk_err (by rw [symSeq_eq, if_neg h1]))]
            simp only [Bool.false_eq_true, if_false, List.nil_append]
            rw [isOk_err (by rw [symSeq_eq, if_neg h2])]
            simp
  · rw [bind_err h]
    show QOk (st k pre [] (b!"YAML" ++ r)).rest
    rw [st_rest]
    exact .cons (by unfold bareHead; decide)

theorem directiveTag_left {k : Ctx} {pre r : Bytes}
    (hy : ∀ w post, r = w ++ b!"!" ++ post → (∀ c ∈ w, isBlank c = true) → QOk post) :
    DirLeft (directiveTag (st k pre b!"TAG" r)) := by
  have hT : ∀ r, QOk (b!"TAG" ++ r) := fun r => .cons (by unfold bareHead; decide)
  unfold directiveTag
  rcases ws1_cases k pre b!"TAG" r with ⟨w, r2, rfl, hw, hb, -, h⟩ | h
  · rw [bind_ok h]
    by_cases hh : ∃ r3, r2 = 0x21 :: r3
    · obtain ⟨r3, rfl⟩ := hh
      rw [bind_ok (sym_hit ..)]
      have q3 : QOk r3 := hy w r3 (by simp) hb
      refine ctx_st_left ?_
      generalize pre ++ (b!"TAG" ++ w ++ [0x21]) = pre'
      -- the handle
      have hhandle : (∃ t m r4, r3 = m ++ r4 ∧ directiveHandle (st k pre' [] r3) = (.ok t, st k pre' m r4)) ∨
          directiveHandle (st k pre' [] r3) = (.err .mismatch, st k pre' [] r3) := by
        unfold directiveHandle
        by_cases ha : headAlnum r3 = true
        · rw [bind_ok (isOk_ok (by rw [identifier_eq, if_pos ha]))]
          simp only [if_true]
          rw [bind_ok (text_st ..)]
          have e := List.takeWhile_append_dropWhile (p := idByte) (l := r3)
          generalize r3.takeWhile idByte = m at e
          generalize r3.dropWhile idByte = r4 at e
          subst e
          by_cases h4 : ∃ r5, r4 = 0x21 :: r5
          · obtain ⟨r5, rfl⟩ := h4
            left
            rw [bind_ok (sym_hit ..)]
            exact ⟨lossy m, m ++ [0x21], r5, by simp, by simp⟩
          · right
            have hm : sym 0x21 (st k pre' m r4) = (.err .mismatch, st k pre' [] (m ++ r4)) := by
              cases r4 with
              | nil => simp
              | cons x r => exact sym_miss _ _ _ _ _ _ (by rintro rfl; exact h4 ⟨r, rfl⟩)
            simp only [List.nil_append]
            rw [bind_err hm]
        · left
          rw [bind_ok (isOk_err (by rw [identifier_eq, if_neg ha]))]
          simp only [Bool.false_eq_true, if_false, List.nil_append]
          cases r3 with
          | nil => rw [bind_ok (isOk_err (sym_nil ..))]; exact ⟨b!"!", [], [], rfl, by simp⟩
          | cons x r =>
            by_cases hx : x = 0x21
            · subst hx
              rw [bind_ok (isOk_ok (sym_hit ..))]
              exact ⟨b!"!!", [0x21], r, rfl, by simp⟩
            · rw [bind_ok (isOk_err (sym_miss _ _ _ _ _ _ hx))]
              exact ⟨b!"!", [], x :: r, rfl, by simp⟩
      rcases hhandle with ⟨t, m, r4, rfl, h4⟩ | h4
      · rw [bind_ok h4]
        rcases ws1_cases k pre' m r4 with ⟨w5, r5, rfl, hw5, hb5, hn5, h5⟩ | h5
        · rw [bind_ok h5]
          by_cases h6 : r5.takeWhile (notIn b!" \n\r") = []
          · rw [bind_err (context_st (o := .err .mismatch) (p' := []) (m' := []) (post' := r5) (k' := k) ?_)]
            · show QOk (st k pre' _ r5).rest
              rw [st_rest]
              cases r5 with
              | nil => exact .nil
              | cons c q =>
                refine .cons ?_
                rw [List.takeWhile_cons] at h6
                split at h6
                · simp at h6
                · rename_i hc
                  simp [notIn] at hc
                  unfold bareHead
                  refine ⟨?_, ?_, ?_, ?_⟩ <;> (rintro rfl; revert hc; decide)
            · rw [bind_err (by rw [takeWhile_more1, if_pos h6])]; simp
          · rw [bind_ok (context_st (p' := []) (k' := k) (m' := r5.takeWhile (notIn b!" \n\r"))
              (post' := r5.dropWhile (notIn b!" \n\r")) (o := .ok (lossy (r5.takeWhile (notIn b!" \n\r")))) ?_)]
            · show QOk (st k pre' _ _).rest
              rw [st_rest]
              refine .head fun c hc => ?_
              have := List.head?_dropWhile_not (notIn b!" \n\r") r5
              rw [hc] at this
              simp [notIn] at this
              unfold bareHead
              refine ⟨?_, ?_, ?_, ?_⟩ <;> (rintro rfl; revert this; decide)
            · rw [bind_ok (by rw [takeWhile_more1, if_neg h6])]
              simp [text_st]
        · rw [bind_err h5]
          show QOk (st k pre' [] (m ++ r4)).rest
          rw [st_rest]; exact q3
      · rw [bind_err h4]
        show QOk (st k pre' [] r3).rest
        rw [st_rest]; exact q3
    · have hm : sym 0x21 (st k pre (b!"TAG" ++ w) r2) = (.err .mismatch, st k pre [] (b!"TAG" ++ w ++ r2)) := by
        cases r2 with
        | nil => simp
        | cons x r => exact sym_miss _ _ _ _ _ _ (by rintro rfl; exact hh ⟨r, rfl⟩)
      rw [bind_err hm]
      show QOk (st k pre [] (b!"TAG" ++ w ++ r2)).rest
      rw [st_rest, List.append_assoc]; exact hT _
  · rw [bind_err h]
    show QOk (st k pre [] (b!"TAG" ++ r)).rest
    rw [st_rest]; exact hT _

theorem bind_left {α β : Type} {x : PM α} {f : α → PM β} {s : Parser} (hx : DirLeft (x s))
    (hf : ∀ a s', x s = (.ok a, s') → QOk s'.rest → DirLeft (f a s')) : DirLeft ((x >>= f) s) := by
  rcases hr : x s with ⟨o, s'⟩
  rw [hr] at hx
  rcases o with a | (_ | _) | p | _
  · rw [bind_ok hr]; exact hf a s' hr hx
  · rw [bind_err hr]; exact hx
  · rw [bind_err hr]; trivial
  · rw [bind_panic hr]; trivial
  · rw [bind_diverge hr]; trivial

/-- Where a directive ends or gives up, a value may begin. -/
theorem ctxDirective_left (hq : QuotesClosed doc) {s : Parser} (hs : PWF (tc doc) s) (h0 : QAt doc s.pos) :
    DirLeft (context directive s) := by
  have hs0 := hs
  obtain ⟨k, pre, mid, post, rfl⟩ := PWF.exists_st hs
  rw [qat_st hs] at h0
  have hd : pre ++ (mid ++ post) = doc := hs.doc
  refine ctx_st_left ?_
  have hw : PWF (tc doc) (st k (pre ++ mid) [] post) := by
    have := hs.indent
    refine ⟨?_, hs.consumed, Nat.zero_le _, by simp [st], ?_, hs.indent, hs.tag1, hs.tag2⟩
    · show pre ++ mid ++ ([] ++ post) = doc
      rw [← hd]; simp
    · show (pre ++ mid).length + 0 ≤ doc.length
      rw [← hd]; simp
  unfold directive
  by_cases hh : ∃ r, post = 0x25 :: r
  · obtain ⟨r, rfl⟩ := hh
    have h1 : sym 0x25 (st k (pre ++ mid) [] (0x25 :: r)) = (.ok (), st k (pre ++ mid) [0x25] r) := by
      rw [sym_hit]; rfl
    have hw1 : PWF (tc doc) (st k (pre ++ mid) [0x25] r) := hw.move rfl
    rw [bind_ok h1]
    have hmid : (PK (tc doc)).Holds (context (do
        if ← M.isOk (symSeq b!"YAML") then directiveYaml
        else if ← M.isOk (symSeq b!"TAG") then directiveTag
        else takeWhile (notIn b!"\n\r") (.more 0))) (fun _ => True) := by
      refine context_pk (pk_pf (Holds.bind (isOk_pk symSeq_pk) fun _ _ => Holds.ite (fun _ => directiveYaml_pk (.inr trivial)) fun _ => ?_))
      exact Holds.bind (isOk_pk symSeq_pk) fun _ _ => Holds.ite (fun _ => directiveTag_pk) fun _ => takeWhile_pk
    refine bind_left (ctx_st_left ?_) fun a s' he hq' => ?_
    · by_cases hY : (b!"YAML").isPrefixOf r = true
      · rw [bind_ok (isOk_ok (by rw [symSeq_eq, if_pos hY]))]
        obtain ⟨r1, rfl⟩ := List.isPrefixOf_iff_prefix.mp hY
        refine directiveYaml_left fun w v q hr hb hv => hq.yaml (pre ++ mid) w v q ?_ hb hv
        rw [← hd]
        have hr : r1 = w ++ v ++ q := hr
        subst hr
        simp
      · rw [bind_ok (isOk_err (by rw [symSeq_eq, if_neg hY]))]
        simp only [Bool.false_eq_true, if_false, List.nil_append]
        by_cases hT : (b!"TAG").isPrefixOf r = true
        · rw [bind_ok (isOk_ok (by rw [symSeq_eq, if_pos hT]))]
          obtain ⟨r1, rfl⟩ := List.isPrefixOf_iff_prefix.mp hT
          refine directiveTag_left fun w q hr hb => hq.tagDir (pre ++ mid) w q ?_ hb
          rw [← hd]
          have hr : r1 = w ++ b!"!" ++ q := hr
          subst hr
          simp
        · rw [bind_ok (isOk_err (by rw [symSeq_eq, if_neg hT]))]
          simp only [Bool.false_eq_true, if_false, List.nil_append]
          rw [takeWhile_more0]
          show QOk (st k _ _ _).rest
          rw [st_rest]
          refine .head fun c hc => ?_
          have := List.head?_dropWhile_not (notIn b!"\n\r") r
          rw [hc] at this
          simp [notIn] at this
          unfold bareHead
          refine ⟨?_, ?_, ?_, ?_⟩ <;> (rintro rfl; revert this; decide)
    · have w2 : PWF (tc doc) s' := by
        have := hmid _ hw1
        rw [he] at this
        exact this.1
      have g1 := gap_runs w2
      have g2 := gap_qat hq w2
      unfold Runs at g1 g2
      rcases hg : gap true s' with ⟨o, s3⟩
      rw [hg] at g1 g2
      rcases o with a | (_ | _) | p | _
      · rw [bind_ok hg]; exact (qat_rest g1.1.wf).1 g2
      · rw [bind_err hg]
        exact (qat_rest g1.2.1.wf).1 (g2 ((qat_rest w2).2 hq'))
      · rw [bind_err hg]; trivial
      · rw [bind_panic hg]; trivial
      · rw [bind_diverge hg]; trivial
  · have hm : sym 0x25 (st k (pre ++ mid) [] post) = (.err .mismatch, st k (pre ++ mid) [] ([] ++ post)) := by
      cases post with
      | nil => simp
      | cons x r => exact sym_miss _ _ _ _ _ _ (by rintro rfl; exact hh ⟨r, rfl⟩)
    rw [bind_err hm]
    show QOk (st k _ _ _).rest
    rw [st_rest]; exact h0

theorem directives_runs (hq : QuotesClosed doc) : ∀ {n : Nat} {l : Loader}, PWF (tc doc) l.parser → QAt doc l.parser.pos →
    doc.length - l.parser.pos + 1 ≤ n →
    Runs (directives n) l (fun _ l' => Stp doc l.parser l'.parser ∧ QAt doc l'.parser.pos) (fun _ _ => True) := by
  intro n
  induction n with
  | zero => intro l _ _ h; omega
  | succ n ih =>
    intro l hs h0 hn
    have hr : Runs (lift (context directive)) l (fun _ l' => Stp doc l.parser l'.parser ∧ l.parser.pos + 1 ≤ l'.parser.pos)
        (fun _ l' => Stp doc l.parser l'.parser) := Runs.lift (ctxDirective_runs hs)
    have hl : match lift (context directive) l with
        | (.ok _, l') => QOk l'.parser.rest
        | (.err .mismatch, l') => QOk l'.parser.rest
        | _ => True := by
      have := ctxDirective_left hq hs h0
      unfold lift
      rcases hx : context directive l.parser with ⟨o, s'⟩
      rw [hx] at this
      rcases o with a | (_ | _) | p | _ <;> exact this
    unfold Runs at hr ⊢
    simp only [directives]
    rcases hx : lift (context directive) l with ⟨r, l1⟩
    rw [hx] at hr hl
    cases r with
    | ok a =>
      have q : l1.parser.pos ≤ doc.length := hr.1.wf.pos
      have hi : Runs (directives n) l1 (fun _ l' => Stp doc l.parser l'.parser ∧ QAt doc l'.parser.pos) (fun _ _ => True) :=
        (ih hr.1.wf ((qat_rest hr.1.wf).2 hl) (by have := hr.2; omega)).mono (fun _ _ h => ⟨hr.1.trans h.1, h.2⟩) fun _ _ h => h
      exact hi
    | err e =>
      cases e with
      | mismatch => exact ⟨hr, (qat_rest hr.wf).2 hl⟩
      | terminate a m => trivial
    | panic p => trivial
    | diverge => exact hr

/-- The whole parse. -/
theorem loaderParse_runs {n : Nat} (hq : QuotesClosed doc) (hb : MarkersBare doc) (hn : doc.length + 2 ≤ n)
    (hw : PWF (tc doc) l.parser) (hp : l.parser.pos = 0) (hi : l.parser.indent.length ≤ 1) :
    Runs (loaderParse n) l (fun _ _ => True) (fun _ _ => True) := by
  have key : ∀ p3, Stp doc l.parser p3 → QAt doc p3.pos → (∀ q, p3.pos ≤ q → MB doc q) → ∀ l' : Loader, Runs (do
        let d ← YamlPeg.doc n
        docsLoop n n [d]) { l' with parser := p3 } (fun _ _ => True) (fun _ _ => True) := by
    intro p3 g3 q3 hmb l'
    refine Runs.bind ((doc_runs (l := { l' with parser := p3 }) hq g3.wf q3 (.inl (.inl ?_)) hn).mono (fun d l4 h4 => ?_)
      fun _ _ _ => trivial)
    · show p3.indent.length ≤ 1
      rw [g3.indent]; exact hi
    · exact docsLoop_runs hq hn h4.1 h4.2.2 (hmb _ h4.2.1) (by omega)
  by_cases hpre : b!"---" <+: doc
  · obtain ⟨post, hpost⟩ := hpre
    have hrest : l.parser.rest = doc := by
      have hd : l.parser.doc = doc := hw.doc
      rw [Parser.rest, hp, hd]; rfl
    have he : l.parser.eaten = 0 := by have := hw.eaten; omega
    have hctx : context directive l.parser = (.err .mismatch, l.parser) := by
      have w0 : PWF (tc doc) { l.parser with eaten := l.parser.pos } :=
        ⟨hw.doc, hw.consumed, Nat.zero_le _, Nat.le_refl _, hw.pos, hw.indent, hw.tag1, hw.tag2⟩
      have hm : directive { l.parser with eaten := l.parser.pos } = (.err .mismatch, { l.parser with eaten := l.parser.pos }) := by
        rw [directive, bind_err (sym_absent w0 ?_)]
        show l.parser.rest.head? ≠ some 0x25
        rw [hrest, ← hpost]
        simp
      unfold context
      rw [hm]
    have hdir : directives n l = (.ok (), l) := by
      obtain ⟨m, rfl⟩ : ∃ m, n = m + 1 := ⟨n - 1, by omega⟩
      simp only [directives, lift, hctx]
    have hgap : gap true l.parser = (.err .mismatch, l.parser) := by
      obtain ⟨k, pre, mid, post', hst⟩ := PWF.exists_st hw
      rw [hst] at hrest ⊢
      rw [st_rest, ← hpost] at hrest
      rw [hrest]
      exact gap_tok _ _ _ (by decide) _
    refine Runs.bind ?_
    unfold Runs
    rw [hdir]
    refine Runs.bind (Runs.lift (Runs.orDefault ?_))
    unfold Runs
    rw [hgap]
    have hsym := symSeq_runs (b := b!"---") hw
    refine Runs.bind (Runs.lift (Runs.orDefault ?_))
    have h2 : Runs (symSeq b!"---") l.parser (fun _ s' => Stp doc l.parser s' ∧ s'.pos = 3 ∧ l.parser.rest = b!"---" ++ s'.rest) (fun _ _ => False) := by
      obtain ⟨k, pre, mid, post', hst⟩ := PWF.exists_st hw
      have hrest' : post' = doc := by rw [← hrest, hst, st_rest]
      unfold Runs at hsym ⊢
      have hpf : (b!"---").isPrefixOf post' = true := by
        rw [List.isPrefixOf_iff_prefix, hrest', ← hpost]
        exact ⟨post, rfl⟩
      rw [hst, symSeq_eq, if_pos hpf] at hsym ⊢
      refine ⟨hsym.1, hsym.2.1.trans ?_, hsym.2.2⟩
      rw [← hst, hp]; rfl
    refine h2.mono (fun _ p3 h3 => ?_) fun _ _ h => h.elim
    exact key p3 h3.1 (marker_qat hq hw h3.1.wf h3.2.2) (fun q hq => MB.of hb (by have := h3.2.1; omega)) _
  · have hmb : ∀ q, MB doc q := by
      intro q pre post hd _
      refine hb pre post hd ?_
      rintro rfl
      exact hpre ⟨post, by rw [hd]; rfl⟩
    have h0 : QAt doc l.parser.pos := by rw [hp]; exact hq.start
    have he0 : l.parser.eaten = 0 := by have := hw.eaten; omega
    refine Runs.bind ((directives_runs hq hw h0 (by omega)).mono (fun _ l1 h1 => ?_) fun _ _ h => h)
    have hgap : Runs (orDefault 0 (gap true)) l1.parser (fun _ s' => Stp doc l1.parser s' ∧ QAt doc s'.pos) (fun _ _ => True) :=
      Runs.orDefault (((gap_runs h1.1.wf).and (gap_qat hq h1.1.wf)).mono (fun _ _ h => ⟨h.1.1, h.2⟩)
        fun _ _ h => ⟨h.1.2.1, h.2 h1.2⟩)
    refine Runs.bind (Runs.lift (hgap.mono (fun _ p2 h2 => ?_) fun _ _ h => h))
    have g2 := h1.1.trans h2.1
    refine Runs.bind (Runs.lift (Runs.orDefault ((symSeq_runs (s := p2) g2.wf).mono (fun _ p3 h3 => ?_) fun _ p3 h3 => ?_)))
    · exact key p3 (g2.trans h3.1) (marker_qat hq g2.wf h3.1.wf h3.2.2) (fun q _ => hmb q) _
    · refine key p3 (g2.trans h3.1) ?_ (fun q _ => hmb q) _
      rw [h3.2, g2.eaten, he0]
      exact hq.start

end

theorem parse_runs {doc : Bytes} (h : HashCfg) (hq : QuotesClosed doc) (hb : MarkersBare doc) (c : Bool) :
    (loaderParse (doc.length + 2) { Loader.new h doc with cyclicMode := c }).1 ≠ .diverge := by
  have := loaderParse_runs (doc := doc) (l := { Loader.new h doc with cyclicMode := c }) (n := doc.length + 2) hq hb
    (Nat.le_refl _) ?_ rfl (by simp [Loader.new, Parser.new])
  · unfold Runs at this
    intro h
    rcases hx : loaderParse (doc.length + 2) { Loader.new _ doc with cyclicMode := c } with ⟨r, s⟩
    rw [hx] at this h
    cases r <;> simp at h
    exact this
  · exact ⟨rfl, fun h => h.elim, Nat.zero_le _, Nat.le_refl _, Nat.zero_le _, by simp [Loader.new, Parser.new], rfl, rfl⟩

end YamlPeg
