import Verif.Proof.RunsQ
import Verif.Proof.Block
import Verif.Proof.PropText
/-! # Termination of the loader -/

namespace YamlPeg
open M Frame

/-! ## Comparisons end -/

/-- The outcome is a value or a panic. -/
def Settled {α : Type} : Out α → Prop
  | .ok _ => True
  | .panic _ => True
  | _ => False

theorem Settled.andThen {x y : Out Bool} (hx : Settled x) (hy : Settled y) : Settled (x.andThen y) := by
  cases x with
  | ok b => cases b
            · trivial
            · exact hy
  | panic p => trivial
  | err e => exact hx
  | diverge => exact hx

theorem intEq?_settled (s t : Bytes) : Settled (intEq? s t) := by
  unfold intEq?; split
  · trivial
  · split <;> trivial
theorem floatEq?_settled (s t : Bytes) : Settled (floatEq? s t) := by
  unfold floatEq?; split
  · trivial
  · split <;> trivial

mutual
theorem nodeEq?_settled : ∀ a c : Node, Settled (Node.eq? a c)
  | .mk _ _ y1, .mk _ _ y2 => yamlEq?_settled y1 y2
theorem yamlEq?_settled : ∀ a c : Yaml, Settled (Yaml.eq? a c)
  | .null, c => by cases c <;> trivial
  | .bool _, c => by cases c <;> trivial
  | .int s, c => by cases c <;> first | trivial | exact intEq?_settled _ _
  | .float s, c => by cases c <;> first | trivial | exact floatEq?_settled _ _
  | .str _, c => by cases c <;> trivial
  | .alias _, c => by cases c <;> trivial
  | .seq l, c => by
    cases c <;> try trivial
    rename_i l2
    show Settled (if l.length = l2.length then nodesEq? l l2 else .ok false)
    split
    · exact nodesEq?_settled l l2
    · trivial
  | .map l, c => by
    cases c <;> try trivial
    rename_i l2
    show Settled (if l.length = l2.length then entriesEq? l l2 else .ok false)
    split
    · exact entriesEq?_settled l l2
    · trivial
theorem nodesEq?_settled : ∀ a c : List Node, Settled (nodesEq? a c)
  | [], c => by cases c <;> trivial
  | x :: xs, c => by
    cases c with
    | nil => trivial
    | cons y ys => exact (nodeEq?_settled x y).andThen (nodesEq?_settled xs ys)
theorem entriesEq?_settled : ∀ a c : List (Node × Node), Settled (entriesEq? a c)
  | [], c => by cases c <;> trivial
  | x :: xs, c => by
    cases c with
    | nil => trivial
    | cons y ys => exact (entryEq?_settled x y).andThen (entriesEq?_settled xs ys)
theorem entryEq?_settled : ∀ a c : Node × Node, Settled (entryEq? a c)
  | (k1, v1), (k2, v2) => (nodeEq?_settled k1 k2).andThen (nodeEq?_settled v1 v2)
end

theorem Settled.map {α β : Type} {f : α → β} {x : Out α} (h : Settled x) : Settled (x.map f) := by
  cases x <;> simp_all [Settled, Out.map]

theorem entriesTake_settled (h : HashCfg) (k : Node) (m : List (Node × Node)) : Settled (entriesTake h k m) := by
  induction m with
  | nil => trivial
  | cons e r ih =>
    simp only [entriesTake]
    split
    · have := nodeEq?_settled k e.1
      cases hq : Node.eq? k e.1 with
      | ok b => cases b
                · exact ih.map
                · trivial
      | panic p => trivial
      | err x => rw [hq] at this; exact this
      | diverge => rw [hq] at this; exact this
    · exact ih.map

theorem entriesCollect_settled (h : HashCfg) (acc m : List (Node × Node)) : Settled (entriesCollect h acc m) := by
  induction m generalizing acc with
  | nil => trivial
  | cons e r ih =>
    obtain ⟨k, v⟩ := e
    simp only [entriesCollect]
    have : Settled (entriesInsert h acc k v) := (entriesTake_settled h k acc).map
    cases hq : entriesInsert h acc k v with
    | ok b => exact ih b
    | panic p => trivial
    | err x => rw [hq] at this; exact this
    | diverge => rw [hq] at this; exact this

/-! ## Small steps -/

/-- Never a mismatch. -/
abbrev NM : PErr → Loader → Prop := fun e _ => e ≠ .mismatch

/-- The state after a part of the parse that keeps the first `L` entries of the
table. -/
structure Gd (doc : Bytes) (L : Nat) (l l' : Loader) : Prop where
  wf : PWF (tc doc) l'.parser
  eaten : l.parser.eaten ≤ l'.parser.eaten
  keep : Keep L l.parser.indent l'.parser.indent

section
variable {doc : Bytes} {α : Type} {l : Loader}

theorem Gd.refl {L : Nat} (h : PWF (tc doc) l.parser) : Gd doc L l l := ⟨h, Nat.le_refl _, Keep.refl _ _⟩
theorem Gd.trans {L : Nat} {a b c : Loader} (h : Gd doc L a b) (h' : Gd doc L b c) : Gd doc L a c :=
  ⟨h'.wf, Nat.le_trans h.eaten h'.eaten, h.keep.trans h'.keep⟩
theorem Gd.le {L L' : Nat} {a b : Loader} (h : Gd doc L a b) (hl : L' ≤ L) : Gd doc L' a b :=
  ⟨h.wf, h.eaten, h.keep.le hl⟩
theorem Stp.gd {L : Nat} {p : Parser} (h : Stp doc l.parser p) : Gd doc L l { l with parser := p } :=
  ⟨h.wf, Nat.le_of_eq h.eaten.symm, by show Keep L _ p.indent; rw [h.indent]; exact Keep.refl _ _⟩
theorem StpI.gd {L : Nat} {p : Parser} (h : StpI doc L l.parser p) : Gd doc (L + 1) l { l with parser := p } :=
  ⟨h.wf, Nat.le_of_eq h.eaten.symm, h.indent.keep⟩

theorem collectMap_runs {m : List (Node × Node)} {Q : Yaml → Loader → Prop} {E : PErr → Loader → Prop}
    (h : ∀ y, Q y l) : Runs (collectMap m) l Q E := by
  have := entriesCollect_settled l.hash [] m
  unfold Runs collectMap
  cases hq : entriesCollect l.hash [] m with
  | ok b => exact h _
  | panic p => trivial
  | err x => rw [hq] at this; exact this.elim
  | diverge => rw [hq] at this; exact this.elim

theorem lerr_runs {name : String} {Q : α → Loader → Prop} : Runs (lerr name) l Q NM := by
  refine Runs.lift ?_
  unfold Runs errAt
  rcases hm : indicatedMsg l.parser.doc l.parser.indicator with _ | m <;> simp

theorem orErr_runs {x : LM α} {name : String} {Q : α → Loader → Prop} (h : Runs x l Q (fun _ _ => True)) :
    Runs (orErr x name) l Q NM := by
  refine Runs.orElse (h.mono (fun _ _ h => h) fun e l' _ => ?_)
  cases e with
  | mismatch => exact lerr_runs
  | terminate n m => exact PErr.noConfusion

/-- Move the mark to the cursor. -/
def fwd (l : Loader) : Loader := { l with parser := { l.parser with eaten := l.parser.pos } }

theorem fwd_gd {L : Nat} (h : PWF (tc doc) l.parser) : Gd doc L l (fwd l) :=
  ⟨⟨h.doc, h.consumed, Nat.zero_le _, Nat.le_refl _, h.pos, h.indent, h.tag1, h.tag2⟩, h.eaten, Keep.refl _ _⟩

theorem forward_runs {Q : Unit → Loader → Prop} {E : PErr → Loader → Prop} (h : Q () (fwd l)) :
    Runs (lift forward) l Q E := Runs.lift (Runs.modify (f := fun s : Parser => { s with eaten := s.pos }) h)

/-- Move the cursor back to the mark. -/
def bwd (l : Loader) : Loader := { l with parser := { l.parser with pos := l.parser.eaten } }

theorem bwd_gd {L : Nat} (h : PWF (tc doc) l.parser) : Gd doc L l (bwd l) :=
  ⟨⟨h.doc, h.consumed, Nat.zero_le _, Nat.le_refl _, Nat.le_trans h.eaten h.pos, h.indent, h.tag1, h.tag2⟩,
    Nat.le_refl _, Keep.refl _ _⟩

theorem backward_runs {Q : Unit → Loader → Prop} {E : PErr → Loader → Prop} (h : Q () (bwd l)) :
    Runs (lift backward) l Q E := Runs.lift (Runs.modify (f := fun s : Parser => { s with pos := s.eaten }) h)

theorem curAnchors_runs {Q : Anchors → Loader → Prop} {E : PErr → Loader → Prop} (h : ∀ a, Q a l) :
    Runs curAnchors l Q E := by
  unfold Runs curAnchors
  cases l.anchors[l.docInd]? with
  | none => trivial
  | some a => exact h a


/-! ## Node properties -/

theorem anchor_runs {s : Parser} (hs : PWF (tc doc) s) (hd : QuotesClosed doc) (hq : QAt doc s.pos) :
    Runs anchor s (fun _ s' => Stp doc s s' ∧ headIn bnd s'.rest = true ∧ s.rest.head? = some 0x26)
      (fun _ s' => Stp doc s s' ∧ (s.rest.head? ≠ some 0x26 → s'.pos = s.eaten) ∧
        (s.rest.head? = some 0x26 → QAt doc s'.pos)) := by
  have hr := runs_stp (anchor_pk (c := tc doc)) anchor_si hs
  unfold Runs at *
  rcases hx : anchor s with ⟨r, s'⟩
  rw [hx] at hr
  obtain ⟨k, pre, mid, post, rfl⟩ := PWF.exists_st hs
  rw [qat_st hs] at hq
  by_cases hp : post.head? = some 0x26
  · obtain ⟨q, rfl⟩ : ∃ q, post = 0x26 :: q := by
      cases post with
      | nil => simp at hp
      | cons x q => simp at hp; exact ⟨q, by rw [hp]⟩
    rw [anchor_eq] at hx
    split at hx
    · rename_i ha
      simp only [Prod.mk.injEq] at hx
      obtain ⟨rfl, rfl⟩ := hx
      refine ⟨hr, ?_, by simp⟩
      rw [st_rest]
      exact hq.anchor q rfl ha
    · simp only [Prod.mk.injEq] at hx
      obtain ⟨rfl, rfl⟩ := hx
      refine ⟨hr, fun h => absurd (by simp) h, fun _ => ?_⟩
      exact hd.at hr.wf (x := pre ++ mid) (c := 0x26) (by simp) (by decide)
  · have : sym 0x26 (st k pre mid post) = (.err .mismatch, st k pre [] (mid ++ post)) := by
      cases post with
      | nil => simp
      | cons x q => exact sym_miss _ _ _ _ _ _ (by rintro rfl; simp at hp)
    rw [anchor, bind_err this] at hx
    simp only [Prod.mk.injEq] at hx
    obtain ⟨rfl, rfl⟩ := hx
    exact ⟨hr, fun _ => by simp, fun h => absurd (by simpa using h) hp⟩


theorem bound_runs_ok {s : Parser} {E : PErr → Parser → Prop} (hs : PWF (tc doc) s)
    (h : headIn b!":{}[] ,\n\r" s.rest = true) :
    Runs bound s (fun _ s' => Stp doc s s' ∧ s.pos ≤ s'.pos) E := by
  have hr := bound_runs hs
  unfold Runs at *
  obtain ⟨k, pre, mid, post, rfl⟩ := PWF.exists_st hs
  rw [st_rest] at h
  rw [bound_eq, if_pos h] at hr ⊢
  exact hr

/-- A sign that is not in the document is not matched. -/
theorem sym_absent {s : Parser} {c : UInt8} (hs : PWF (tc doc) s) (hc : s.rest.head? ≠ some c) :
    sym c s = (.err .mismatch, { s with pos := s.eaten }) := by
  obtain ⟨k, pre, mid, post, rfl⟩ := PWF.exists_st hs
  rw [st_rest] at hc
  rw [st_back]
  cases post with
  | nil => simp
  | cons x r => exact sym_miss _ _ _ _ _ _ (by rintro rfl; simp at hc)

theorem rest_mem {s : Parser} (hs : PWF (tc doc) s) {c : UInt8} (h : s.rest.head? = some c) : c ∈ doc := by
  have : c ∈ s.doc := List.mem_of_mem_drop (i := s.pos) (List.mem_of_head? h)
  rw [hs.doc] at this
  exact this

theorem Runs.okBind {σ α β : Type} {x : M σ α} {f : α → M σ β} {s s' : σ} {a : α} {Q : β → σ → Prop} {E : PErr → σ → Prop}
    (h : x s = (.ok a, s')) (h2 : Runs (f a) s' Q E) : Runs (x >>= f) s Q E := by
  unfold Runs at *
  rw [bind_ok h]; exact h2

theorem Runs.errBind {σ α β : Type} {x : M σ α} {f : α → M σ β} {s s' : σ} {e : PErr} {Q : β → σ → Prop} {E : PErr → σ → Prop}
    (h : x s = (.err e, s')) (h2 : E e s') : Runs (x >>= f) s Q E := by
  unfold Runs
  rw [bind_err h]; exact h2

theorem Runs.eq {σ α : Type} {x : M σ α} {s s' : σ} {a : α} {Q : α → σ → Prop} {E : PErr → σ → Prop}
    (h : x s = (.ok a, s')) (h2 : Q a s') : Runs x s Q E := by
  unfold Runs
  rw [h]; exact h2

theorem Runs.context {x : PM α} {s : Parser} {Q : α → Parser → Prop} {E : PErr → Parser → Prop}
    (h : Runs x { s with eaten := s.pos } (fun a s' => Q a { s' with eaten := s.eaten })
      (fun e s' => E e { s' with eaten := s.eaten })) : Runs (YamlPeg.context x) s Q E := by
  unfold Runs at *
  have hc : YamlPeg.context x s = ((x { s with eaten := s.pos }).1, { (x { s with eaten := s.pos }).2 with eaten := s.eaten }) := by
    unfold YamlPeg.context
    rcases x { s with eaten := s.pos } with ⟨o, s'⟩
    rfl
  rw [hc]
  rcases hx : x { s with eaten := s.pos } with ⟨o, s'⟩
  rw [hx] at h
  cases o <;> exact h

theorem skipIdent_skip (b : Bytes) : skipIdent (b.dropWhile idByte) = b.dropWhile idByte := by
  unfold skipIdent
  rw [if_neg]
  intro h
  cases hd : b.dropWhile idByte with
  | nil => rw [hd] at h; simp [headAlnum] at h
  | cons c r =>
    have hn := List.head_dropWhile_not (p := idByte) (l := b) (by rw [hd]; simp)
    simp only [hd, List.head_cons] at hn
    rw [hd] at h
    simp only [headAlnum] at h
    simp [idByte, h] at hn

/-- The word behind the prefix of a tag. -/
theorem tagWord_runs {E : PErr → Parser → Prop} (k : Ctx) (pre mid r v : Bytes) :
    Runs (do
      let doc ← YamlPeg.context (do
        if ← M.isOk identifier then text else pure [])
      pure (v ++ doc) : PM Bytes) (st k pre mid r) (fun _ s' => s'.rest = skipIdent r) E := by
  refine Runs.bind (Runs.context ?_)
  have e0 : ({ st k pre mid r with eaten := (st k pre mid r).pos } : Parser) = st k (pre ++ mid) [] r := by simp [st]
  rw [e0]
  have hrest : ∀ (p : Parser) (n : Nat), ({ p with eaten := n } : Parser).rest = p.rest := fun _ _ => rfl
  by_cases h : headAlnum r = true
  · refine Runs.okBind (isOk_ok (by rw [identifier_eq, if_pos h])) ?_
    simp only [if_true]
    refine Runs.eq (text_st ..) (Runs.pure ?_)
    rw [hrest, st_rest, skipIdent, if_pos h]
  · refine Runs.okBind (isOk_err (by rw [identifier_eq, if_neg h])) ?_
    simp only [Bool.false_eq_true, if_false]
    refine Runs.pure (Runs.pure ?_)
    rw [hrest, st_rest, skipIdent, if_neg h]; rfl

theorem sym_other {c : UInt8} {k : Ctx} {pre mid post : Bytes} (h : ∀ r, post ≠ c :: r) :
    sym c (st k pre mid post) = (.err .mismatch, st k pre [] (mid ++ post)) := by
  cases post with
  | nil => simp
  | cons x r => exact sym_miss _ _ _ _ _ _ (by rintro rfl; exact h r rfl)

theorem tagLookup_runs {key : Bytes} {s : Parser} {Q : Bytes → Parser → Prop} {E : PErr → Parser → Prop}
    (h : ∀ v, Q v s) : Runs (tagLookup key) s Q E := by
  unfold Runs tagLookup
  cases mapGet key s.tag with
  | none => trivial
  | some v => exact h v

/-- Where a tag ends. -/
theorem tag_left (k : Ctx) (pre mid b : Bytes) :
    Runs tag (st k pre mid (0x21 :: b)) (fun _ s' => tagLeft b = some s'.rest) (fun _ s' => QOk s'.rest) := by
  have hrest : ∀ (p : Parser) (n : Nat), ({ p with eaten := n } : Parser).rest = p.rest := fun _ _ => rfl
  refine Runs.okBind (sym_hit ..) (Runs.context ?_)
  have e0 : ({ st k pre (mid ++ [0x21]) b with eaten := (st k pre (mid ++ [0x21]) b).pos } : Parser) =
      st k (pre ++ (mid ++ [0x21])) [] b := by simp [st]
  rw [e0]
  simp only [hrest]
  generalize pre ++ (mid ++ [0x21]) = pre
  have fin : ∀ (v : Bytes) (mid r : Bytes), tagLeft b = some (skipIdent r) →
      Runs (do
        let doc ← YamlPeg.context (do
          if ← M.isOk identifier then text else pure [])
        pure (v ++ doc) : PM Bytes) (st k pre mid r) (fun _ s' => tagLeft b = some s'.rest) (fun _ s' => QOk s'.rest) := by
    intro v mid r h
    exact (tagWord_runs k pre mid r v).mono (fun _ s' h' => by rw [h', h]) fun _ _ h => h
  by_cases h : headAlnum b = true
  · refine Runs.okBind (orDefault_ok (by rw [identifier_eq, if_pos h])) ?_
    refine Runs.okBind (text_st ..) ?_
    have hne : (lossy ([] ++ b.takeWhile idByte)).isEmpty = false := by
      have hi : IsIdent (b.takeWhile idByte) := by
        refine ⟨?_, fun c hc => mem_takeWhile hc⟩
        cases b with
        | nil => simp [headAlnum] at h
        | cons x r =>
          have hx : idByte x = true := by
            simp only [headAlnum] at h; simp [idByte, h]
          simpa [List.takeWhile_cons, hx, headAlnum] using h
      rw [List.nil_append, hi.lossy]
      have := hi.ne
      simpa using this
    refine Runs.bind ?_
    unfold tagPrefixPart
    rw [if_pos (by rw [hne]; rfl)]
    by_cases hb : ∃ r, b.dropWhile idByte = 0x21 :: r
    · obtain ⟨r, hb⟩ := hb
      rw [hb]
      refine Runs.okBind (isOk_ok (sym_hit ..)) ?_
      simp only [if_true]
      refine tagLookup_runs fun v => fin _ _ _ ?_
      simp [tagLeft, h, hb]
    · refine Runs.okBind (isOk_err (sym_other fun r hr => hb ⟨r, hr⟩)) ?_
      simp only [Bool.false_eq_true, if_false]
      refine Runs.pure (fin _ _ _ ?_)
      simp only [List.nil_append, List.takeWhile_append_dropWhile]
      rw [skipIdent, if_pos h, tagLeft.eq_def, if_pos h]
      cases hd : b.dropWhile idByte with
      | nil => rfl
      | cons c r =>
        simp only
        rw [if_neg (by rintro rfl; exact hb ⟨r, hd⟩)]
  · refine Runs.okBind (orDefault_err (by rw [identifier_eq, if_neg h])) ?_
    refine Runs.okBind (text_st ..) ?_
    refine Runs.bind ?_
    unfold tagPrefixPart
    rw [if_neg (by decide)]
    by_cases h1 : ∃ r, b = 0x3C :: r
    · obtain ⟨r, rfl⟩ := h1
      refine Runs.okBind (isOk_ok (sym_hit ..)) ?_
      simp only [if_true]
      refine Runs.bind (Runs.context ?_)
      have e1 : ∀ m, ({ st k pre m r with eaten := (st k pre m r).pos } : Parser) = st k (pre ++ m) [] r := by
        intro m; simp [st]
      simp only [List.nil_append]
      rw [e1]
      by_cases h2 : (r.takeWhile (notIn b!" <>\n\r")).isEmpty = true
      · have h2 : r.takeWhile (notIn b!" <>\n\r") = [] := by simpa using h2
        refine Runs.errBind (by rw [takeWhile_more1, if_pos h2]) ?_
        rw [hrest, st_rest]
        refine QOk.head fun c hc => ?_
        cases r with
        | nil => simp at hc
        | cons x r =>
          simp at hc
          subst hc
          refine ⟨?_, ?_, ?_, ?_⟩ <;> (rintro rfl; revert h2; simp [List.takeWhile_cons, notIn])
      · have h2' : ¬ r.takeWhile (notIn b!" <>\n\r") = [] := by simpa using h2
        refine Runs.okBind (by rw [takeWhile_more1, if_neg h2']) ?_
        refine Runs.eq (text_st ..) ?_
        have e2 : ∀ w t, ({ st k (pre ++ [0x3C]) w t with eaten := (st k pre [0x3C] r).eaten } : Parser) =
            st k pre ([0x3C] ++ w) t := by intro w t; simp [st]; omega
        rw [e2]
        by_cases h3 : ∃ q, r.dropWhile (notIn b!" <>\n\r") = 0x3E :: q
        · obtain ⟨q, h3⟩ := h3
          rw [h3]
          refine Runs.okBind (sym_hit ..) (Runs.pure (fin _ _ _ ?_))
          simp [tagLeft, h, h2', h3]
        · refine Runs.errBind (sym_other fun q hq => h3 ⟨q, hq⟩) ?_
          rw [st_rest]
          refine QOk.head fun c hc => ?_
          simp at hc
          subst hc
          exact ⟨by decide, by decide, by decide, by decide⟩
    · refine Runs.okBind (isOk_err (sym_other fun r hr => h1 ⟨r, hr⟩)) ?_
      simp only [Bool.false_eq_true, if_false]
      by_cases h2 : ∃ r, b = 0x21 :: r
      · obtain ⟨r, rfl⟩ := h2
        refine Runs.okBind (isOk_ok (sym_hit ..)) ?_
        simp only [if_true]
        refine tagLookup_runs fun v => fin _ _ _ ?_
        simp [tagLeft, h]
      · refine Runs.okBind (isOk_err (sym_other fun r hr => h2 ⟨r, by simpa using hr⟩)) ?_
        simp only [Bool.false_eq_true, if_false]
        refine tagLookup_runs fun v => fin _ _ _ ?_
        simp only [List.nil_append]
        rw [skipIdent, if_neg h, tagLeft.eq_def, if_neg h]
        cases b with
        | nil => rfl
        | cons c r =>
          simp only
          rw [if_neg (by rintro rfl; exact h1 ⟨r, rfl⟩), if_neg (by rintro rfl; exact h2 ⟨r, rfl⟩)]

/-- A tag: it ends in front of a boundary, or fails at a place where a value may begin. -/
theorem tag_runs {s : Parser} (hs : PWF (tc doc) s) (hq : QAt doc s.pos) (hp : s.pos = s.eaten) :
    Runs tag s (fun _ s' => Stp doc s s' ∧ headIn bnd s'.rest = true ∧ s.rest.head? = some 0x21)
      (fun _ s' => Stp doc s s' ∧ QAt doc s'.pos ∧ (s.rest.head? ≠ some 0x21 → s'.pos = s.eaten)) := by
  by_cases hh : s.rest.head? = some 0x21
  · have hr := runs_stp (tag_pk (c := tc doc) trivial) tag_si hs
    obtain ⟨k, pre, mid, post, rfl⟩ := PWF.exists_st hs
    rw [qat_st hs] at hq
    rw [st_rest] at hh ⊢
    obtain ⟨b, rfl⟩ : ∃ b, post = 0x21 :: b := by
      cases post with
      | nil => simp at hh
      | cons x q => simp at hh; exact ⟨q, by rw [hh]⟩
    refine (hr.and (tag_left k pre mid b)).mono (fun _ s' h => ⟨h.1, hq.tag b rfl _ h.2, rfl⟩) fun _ s' h => ?_
    exact ⟨h.1, (qat_rest h.1.wf).2 h.2, fun h => absurd rfl h⟩
  · have hm := sym_absent hs (c := 0x21) hh
    have hr := sym_runs (c := 0x21) hs
    unfold Runs at *
    rw [hm] at hr
    rw [tag, bind_err hm]
    refine ⟨hr.2.1, ?_, fun _ => hr.2.2⟩
    show QAt doc s.eaten
    rw [← hp]; exact hq

/-- Behind the node properties. -/
structure Np (doc : Bytes) (l l' : Loader) : Prop where
  wf : PWF (tc doc) l'.parser
  eaten : l.parser.eaten ≤ l'.parser.eaten
  indent : l'.parser.indent = l.parser.indent
  marked : l'.parser.pos = l'.parser.eaten
  qat : QAt doc l'.parser.pos
  same : l.parser.rest.head? ≠ some 0x26 → l.parser.rest.head? ≠ some 0x21 → l'.parser.pos = l.parser.pos

theorem Np.gd {L : Nat} {l l' : Loader} (h : Np doc l l') : Gd doc L l l' :=
  ⟨h.wf, h.eaten, by rw [h.indent]; exact Keep.refl _ _⟩

theorem rest_congr {s s' : Parser} (h : s'.doc = s.doc) (hp : s'.pos = s.pos) : s'.rest = s.rest := by
  simp only [Parser.rest, h, hp]

/-- Behind one property. -/
structure Prp (doc : Bytes) (c : UInt8) (s : Parser) (a : Bytes) (s' : Parser) : Prop where
  stp : Stp doc s s'
  bnd : a.isEmpty = false → headIn bnd s'.rest = true
  qat : QAt doc s'.pos
  same : s.rest.head? ≠ some c → a = [] ∧ s'.pos = s.pos

theorem anchorOr_runs {s : Parser} {E : PErr → Parser → Prop} (hs : PWF (tc doc) s) (hd : QuotesClosed doc)
    (hq : QAt doc s.pos) (hp : s.pos = s.eaten) :
    Runs (orDefault [] anchor) s (fun a s' => Prp doc 0x26 s a s') E := by
  refine Runs.orDefault ((anchor_runs hs hd hq).mono (fun a s1 h1 => ?_) fun e s1 h1 => ?_)
  · exact ⟨h1.1, fun _ => h1.2.1, (qat_rest h1.1.wf).2 (.bnd h1.2.1), fun h => absurd h1.2.2 h⟩
  · refine ⟨h1.1, by simp, ?_, fun h => ⟨rfl, (h1.2.1 h).trans hp.symm⟩⟩
    by_cases h : s.rest.head? = some 0x26
    · exact h1.2.2 h
    · rw [h1.2.1 h, ← hp]; exact hq

theorem tagOr_runs {s : Parser} {E : PErr → Parser → Prop} (hs : PWF (tc doc) s)
    (hq : QAt doc s.pos) (hp : s.pos = s.eaten) :
    Runs (orDefault [] tag) s (fun a s' => Prp doc 0x21 s a s') E := by
  refine Runs.orDefault ((tag_runs hs hq hp).mono (fun a s1 h1 => ?_) fun e s1 h1 => ?_)
  · exact ⟨h1.1, fun _ => h1.2.1, (qat_rest h1.1.wf).2 (.bnd h1.2.1), fun h => absurd h1.2.2 h⟩
  · exact ⟨h1.1, by simp, h1.2.1, fun h => ⟨rfl, (h1.2.2 h).trans hp.symm⟩⟩

/-- The boundary behind a property, and the mark. -/
theorem propEnd_runs {c : UInt8} {a : Bytes} {s : Parser} {p : Parser} {l : Loader} (hd : QuotesClosed doc)
    (h : Prp doc c s a p) {E : PErr → Loader → Prop} :
    Runs (runIf (!a.isEmpty) (lift bound)) { l with parser := p } (fun _ l2 => Stp doc p l2.parser ∧ p.pos ≤ l2.parser.pos ∧
      QAt doc l2.parser.pos ∧ (s.rest.head? ≠ some c → l2.parser.pos = p.pos)) E := by
  cases ha : a.isEmpty with
  | true => exact Runs.pure ⟨Stp.refl h.stp.wf, Nat.le_refl _, h.qat, fun _ => rfl⟩
  | false =>
    show Runs (lift bound) _ _ _
    refine Runs.lift ?_
    have hb := (bound_runs_ok (s := p) (E := fun _ _ => False) h.stp.wf (h.bnd ha)).and (bound_qat hd h.stp.wf)
    refine hb.mono (fun _ s2 h2 => ⟨h2.1.1, h2.1.2, h2.2, fun hh => ?_⟩) fun _ _ h => h.1.elim
    rw [(h.same hh).1] at ha; simp at ha

theorem nodeProps_runs (hs : PWF (tc doc) l.parser) (hd : QuotesClosed doc) (hq : QAt doc l.parser.pos)
    (hp : l.parser.pos = l.parser.eaten) : Runs nodeProps l (fun _ l' => Np doc l l') NM := by
  refine Runs.bind (Runs.lift ((anchorOr_runs hs hd hq hp).mono (fun a s1 h1 => ?_) fun _ _ h => h))
  refine Runs.bind ((propEnd_runs hd h1 (l := l)).mono (fun _ l2 h2 => ?_) fun _ _ h => h)
  obtain ⟨g2, p2, q2, n2⟩ := h2
  refine Runs.bind (forward_runs ?_)
  have g3 := fwd_gd (L := 0) g2.wf
  refine Runs.bind (Runs.lift ((tagOr_runs (s := (fwd l2).parser) g3.wf q2 rfl).mono (fun t s4 h4 => ?_) fun _ _ h => h))
  refine Runs.bind ((propEnd_runs hd h4 (l := fwd l2)).mono (fun _ l5 h5 => ?_) fun _ _ h => h)
  obtain ⟨g5, p5, q5, n5⟩ := h5
  refine Runs.bind (forward_runs ?_)
  have g6 := fwd_gd (L := 0) g5.wf
  refine Runs.bind (Runs.lift ((anchorOr_runs (s := (fwd l5).parser) g6.wf hd q5 rfl).mono (fun a2 s7 h7 => ?_) fun _ _ h => h))
  -- positions and tables
  have e1 : s1.eaten = l.parser.eaten := h1.stp.eaten
  have b1 : s1.eaten ≤ s1.pos := h1.stp.wf.eaten
  have e4 : s4.eaten = l2.parser.pos := h4.stp.eaten
  have b4 : s4.eaten ≤ s4.pos := h4.stp.wf.eaten
  have e7 : s7.eaten = l5.parser.pos := h7.stp.eaten
  have b7 : s7.eaten ≤ s7.pos := h7.stp.wf.eaten
  have i1 := h1.stp.indent
  have i2 := g2.indent
  have i4 : s4.indent = l2.parser.indent := h4.stp.indent
  have i5 := g5.indent
  have i7 : s7.indent = l5.parser.indent := h7.stp.indent
  have hsame : l.parser.rest.head? ≠ some 0x26 → l.parser.rest.head? ≠ some 0x21 → a2 = [] ∧ s7.pos = l.parser.pos := by
    intro ha ht
    have p1 := (h1.same ha).2
    have p2 : l2.parser.pos = l.parser.pos := (n2 ha).trans p1
    have r2 : (fwd l2).parser.rest = l.parser.rest := rest_congr (by show l2.parser.doc = _; rw [g2.wf.doc, hs.doc]) p2
    have p4 : s4.pos = l2.parser.pos := (h4.same (by rw [r2]; exact ht)).2
    have p5 : l5.parser.pos = l.parser.pos := by rw [n5 (by rw [r2]; exact ht), p4, p2]
    have r5 : (fwd l5).parser.rest = l.parser.rest := rest_congr (by show l5.parser.doc = _; rw [g5.wf.doc, hs.doc]) p5
    have h8 := h7.same (by rw [r5]; exact ha)
    exact ⟨h8.1, h8.2.trans p5⟩
  refine Runs.bind (Runs.mono (Q := fun _ l8 => Stp doc s7 l8.parser ∧ s7.pos ≤ l8.parser.pos ∧ QAt doc l8.parser.pos ∧
    (a2 = [] → l8.parser.pos = s7.pos)) (E := NM) ?_ (fun a l8 h8 => ?_) fun _ _ h => h)
  · refine Runs.ite (fun ha => Runs.ite (fun _ => ?_) fun _ => lerr_runs) fun _ =>
      Runs.pure ⟨Stp.refl h7.stp.wf, Nat.le_refl _, h7.qat, fun _ => rfl⟩
    have ha : a2.isEmpty = false := by simpa using ha
    have hb := (bound_runs_ok (s := s7) (E := fun _ _ => False) h7.stp.wf (h7.bnd ha)).and (bound_qat hd h7.stp.wf)
    refine Runs.bind (Runs.lift (hb.mono (fun _ s8 h8 => Runs.pure ⟨h8.1.1, h8.1.2, h8.2, fun h => ?_⟩) fun _ _ h => h.1.elim))
    rw [h] at ha; simp at ha
  obtain ⟨g8, p8, q8, n8⟩ := h8
  have i8 := g8.indent
  refine Runs.bind (forward_runs (Runs.pure ?_))
  refine ⟨(fwd_gd (L := 0) g8.wf).wf, ?_, ?_, rfl, q8, fun ha ht => ?_⟩
  · show _ ≤ l8.parser.pos
    omega
  · show l8.parser.indent = _
    rw [i8, i7, i5, i4, i2, i1]
  · obtain ⟨h3, h4⟩ := hsame ha ht
    show l8.parser.pos = _
    rw [n8 h3, h4]

/-- `scalar_node` around `f`. -/
theorem scalarNode_runs {f : LM Yaml} (hs : PWF (tc doc) l.parser) (hd : QuotesClosed doc) (hq : QAt doc l.parser.pos)
    (hp : l.parser.pos = l.parser.eaten) {Q : Loader → Prop}
    (hf : ∀ l1, Np doc l l1 → Runs f l1 (fun _ l2 => PWF (tc doc) l2.parser ∧ ∀ a, Q { fwd l2 with anchors := a }) NM) :
    Runs (scalarNode f) l (fun _ l' => Q l') NM := by
  refine Runs.bind ((nodeProps_runs hs hd hq hp).mono (fun at' l1 h1 => ?_) fun _ _ h => h)
  refine Runs.bind (Runs.get ?_)
  refine Runs.bind ((hf l1 h1).mono (fun y l2 h2 => ?_) fun _ _ h => h)
  refine Runs.bind (forward_runs ?_)
  refine Runs.ite (fun _ => ?_) fun _ => Runs.pure (h2.2 _)
  refine Runs.bind (Runs.bind (curAnchors_runs fun a => Runs.bind (Runs.modify ?_)))
  exact Runs.pure (Runs.ite (fun _ => lerr_runs) fun _ => Runs.pure (h2.2 _))

end
end YamlPeg
