import Verif.Proof.Sim
/-!
# A run that begins behind a text

The runs over `D` and over `pre ++ D`, the second beginning behind `pre`, do the same.
-/

namespace YamlPeg
open M

/-- The state over `pre ++ s.doc` with the cursors behind `pre`. -/
def Parser.behind (pre : Bytes) (s : Parser) : Parser :=
  { s with doc := pre ++ s.doc, pos := s.pos + pre.length, eaten := s.eaten + pre.length }

/-- Messages for the same place. -/
def SamePlace (pre D m m' : Bytes) : Prop :=
  ∃ p, indicatedMsg D p = some m ∧ indicatedMsg (pre ++ D) (p + pre.length) = some m'

def shiftCfg (pre D : Bytes) : SimCfg Parser := ⟨fun s s' => s.doc = D ∧ s' = s.behind pre, SamePlace pre D⟩

section
variable {pre D : Bytes}

theorem behind_rest (s : Parser) : (s.behind pre).rest = s.rest := by
  simp only [Parser.rest, Parser.behind]
  rw [Nat.add_comm, ← List.drop_drop, List.drop_left]

theorem behind_le (s : Parser) : (s.behind pre).pos ≤ (s.behind pre).doc.length ↔ s.pos ≤ s.doc.length := by
  simp only [Parser.behind, List.length_append]; omega

theorem sim_food : Sim (shiftCfg pre D) Eq food food := by
  rintro s _ ⟨hD, rfl⟩
  unfold food
  simp only [behind_le, behind_rest]
  split
  · exact .inr ⟨rfl, hD, rfl⟩
  · exact .inr ⟨rfl, hD, rfl⟩

theorem sim_text : Sim (shiftCfg pre D) Eq text text := by
  rintro s _ ⟨hD, rfl⟩
  unfold text
  simp only [behind_le]
  have e1 : (s.behind pre).eaten < (s.behind pre).pos ↔ s.eaten < s.pos := by simp [Parser.behind]
  have e2 : ((s.behind pre).doc.take (s.behind pre).pos).drop (s.behind pre).eaten = (s.doc.take s.pos).drop s.eaten := by
    simp only [Parser.behind]
    rw [Nat.add_comm s.pos, List.take_length_add_append, Nat.add_comm s.eaten, ← List.drop_drop, List.drop_left]
  simp only [e1, e2]
  split
  · split
    · exact .inr ⟨rfl, hD, rfl⟩
    · exact .inr ⟨rfl, hD, rfl⟩
  · exact .inr ⟨rfl, hD, rfl⟩

theorem sim_err {α β : Type} (A : α → β → Prop) (nm : String) : Sim (shiftCfg pre D) A (errAt nm) (errAt nm) := by
  rintro s _ ⟨hD, rfl⟩
  unfold errAt
  have : (s.behind pre).indicator = s.indicator + pre.length := by simp [Parser.behind, Parser.indicator, Nat.add_assoc]
  rw [this]
  have h1 := indicatedMsg_isSome s.doc s.indicator
  have h2 := indicatedMsg_isSome (pre ++ s.doc) (s.indicator + pre.length)
  rw [List.length_append] at h2
  cases h3 : indicatedMsg s.doc s.indicator <;> cases h4 : indicatedMsg (pre ++ s.doc) (s.indicator + pre.length) <;>
    rw [h3] at h1 <;> rw [h4] at h2 <;> simp only [Option.isSome_none, Option.isSome_some, Bool.false_eq_true, false_iff, true_iff] at h1 h2
  · simp only [Parser.behind, h4]
    exact .inr ⟨rfl, hD, rfl⟩
  · omega
  · omega
  · simp only [Parser.behind, h4]
    refine .inr ⟨⟨rfl, s.indicator, ?_, ?_⟩, hD, rfl⟩
    · rw [← hD]; exact h3
    · rw [← hD]; exact h4

theorem sim_fwd : Sim (shiftCfg pre D) (fun _ _ => True) forward forward := by
  refine .modify ?_
  rintro s _ ⟨hD, rfl⟩
  exact ⟨hD, rfl⟩

theorem sim_bwd : Sim (shiftCfg pre D) (fun _ _ => True) backward backward := by
  refine .modify ?_
  rintro s _ ⟨hD, rfl⟩
  exact ⟨hD, rfl⟩

theorem sim_back (n : Nat) : Sim (shiftCfg pre D) (fun _ _ => True) (back n) (back n) := by
  rintro s _ ⟨hD, rfl⟩
  unfold back
  by_cases h : n ≤ s.pos
  · rw [if_pos h, if_pos (by simp only [Parser.behind]; omega)]
    refine .inr ⟨trivial, hD, ?_⟩
    simp only [Parser.behind, Parser.mk.injEq, true_and, and_true]
    omega
  · rw [if_neg h]; exact .inl rfl

theorem sim_ctx {α β : Type} {A : α → β → Prop} {x : PM α} {y : PM β} (h : Sim (shiftCfg pre D) A x y) :
    Sim (shiftCfg pre D) A (context x) (context y) := by
  rintro s _ ⟨hD, rfl⟩
  have := h { s with eaten := s.pos } ({ s with eaten := s.pos }.behind pre) ⟨hD, rfl⟩
  unfold context
  rcases hx : x { s with eaten := s.pos } with ⟨r, t⟩
  rcases hy : y ({ s with eaten := s.pos }.behind pre) with ⟨r', t'⟩
  rw [show y { s.behind pre with eaten := (s.behind pre).pos } = (r', t') from hy]
  rw [hx, hy] at this
  rcases this with h1 | ⟨h1, h2, h3⟩
  · exact .inl h1
  · refine .inr ⟨h1, h2, ?_⟩
    simp only at h3
    rw [h3]; rfl

theorem sim_take (f : UInt8 → Bool) (opt : TakeOpt) : Sim (shiftCfg pre D) (fun _ _ => True) (takeWhile f opt) (takeWhile f opt) := by
  rintro s _ ⟨hD, rfl⟩
  unfold takeWhile
  simp only [behind_le, behind_rest]
  have e : ∀ n, ({ s.behind pre with pos := (s.behind pre).pos + n } : Parser) = { s with pos := s.pos + n }.behind pre := by
    intro n
    simp only [Parser.behind, Parser.mk.injEq, true_and, and_true]
    omega
  simp only [e]
  split
  · split
    · split
      · exact .inr ⟨trivial, hD, rfl⟩
      · exact .inr ⟨trivial, hD, rfl⟩
    · split
      · split
        · exact .inr ⟨trivial, hD, rfl⟩
        · exact .inr ⟨trivial, hD, rfl⟩
      · exact .inr ⟨trivial, hD, rfl⟩
  · exact .inr ⟨rfl, hD, rfl⟩

/-! ## The sub-parsers -/

theorem sim_symSet (l : Bytes) : Sim (shiftCfg pre D) (fun _ _ => True) (symSet l) (symSet l) := sim_take _ _

theorem sim_sym (c : UInt8) : Sim (shiftCfg pre D) (fun _ _ => True) (sym c) (sym c) := sim_take _ _

theorem sim_symSeq : ∀ l : Bytes, Sim (shiftCfg pre D) (fun _ _ => True) (symSeq l) (symSeq l)
  | [] => .pure trivial
  | c :: r => .bindU (sim_sym c) (sim_symSeq r)

theorem sim_ws (opt : TakeOpt) : Sim (shiftCfg pre D) (fun _ _ => True) (ws opt) (ws opt) := sim_take _ _

theorem sim_nl : Sim (shiftCfg pre D) (fun _ _ => True) nl nl :=
  sim_ctx (.bindEq (sim_symSeq _).isOk fun _ => .ite (.pure trivial) (.bindEq (sim_symSeq _).isOk fun _ => .ite (.pure trivial)
    (.bindEq (sim_sym _).isOk fun _ => .ite (.pure trivial) (.bindEq (sim_sym _).isOk fun _ => .ite (.pure trivial) .mismatch))))

theorem sim_comment : Sim (shiftCfg pre D) (fun _ _ => True) comment comment :=
  .bindU (sim_ws _) (.bindU (sim_sym _) (sim_take _ _))

theorem sim_gapLoop (cmt : Bool) : ∀ n t, Sim (shiftCfg pre D) Eq (gapLoop cmt n t) (gapLoop cmt n t)
  | 0, _ => .diverge
  | n + 1, t => .bindU sim_fwd (.bindU (sim_ws _) (.bindU (.runIf (.orDefault trivial sim_comment)) (.bindEq sim_nl.isOk fun _ =>
      .ite (sim_gapLoop cmt n _) (.bindU sim_bwd (.pure rfl)))))

theorem sim_gap (cmt : Bool) : Sim (shiftCfg pre D) Eq (gap cmt) (gap cmt) := by
  refine sim_ctx (.bindU (.runIf (.orDefault trivial sim_comment)) (.bindU sim_nl (.bind .get ?_)))
  rintro s _ ⟨_, rfl⟩
  rw [behind_rest]
  exact sim_gapLoop _ _ _

theorem sim_bound : Sim (shiftCfg pre D) (fun _ _ => True) bound bound := .bindU (sim_symSet _) (.bindU (sim_back _) (sim_ws _))

theorem sim_complex : Sim (shiftCfg pre D) (fun _ _ => True) complexMapping complexMapping := .bindU (sim_sym _) sim_bound

theorem sim_numPrefix : Sim (shiftCfg pre D) (fun _ _ => True) numPrefix numPrefix := .bindU (.orDefault trivial (sim_sym _)) (sim_take _ _)

theorem sim_octalOrHex : Sim (shiftCfg pre D) Eq octalOrHex octalOrHex :=
  .bindEq (Sim.bindU (sim_sym _) (sim_take _ _)).isOk fun _ => .ite (.pure rfl) (Sim.bindU (sim_sym _) (sim_take _ _)).isOk

theorem sim_int : Sim (shiftCfg pre D) Eq int int :=
  .bindU sim_numPrefix (.bindEq sim_text fun _ => .bindEq (.ite (.bindEq (sim_ctx sim_octalOrHex) fun _ => .ite sim_text (.pure rfl)) (.pure rfl))
    fun _ => .bindU (sim_ws _) (.bindU sim_bound (.pure rfl)))

theorem sim_count {α : Type} {A : α → α → Prop} {x : PM α} (h : Sim (shiftCfg pre D) A x x) : Sim (shiftCfg pre D) Eq (count x) (count x) := by
  refine .bind .get ?_
  rintro s _ ⟨_, rfl⟩
  refine .bind h fun _ _ _ => .bind .get ?_
  rintro t _ ⟨_, rfl⟩
  have e : (s.behind pre).pos ≤ (t.behind pre).pos ↔ s.pos ≤ t.pos := by simp [Parser.behind]
  simp only [e]
  refine .ite (.pure ?_) .panic
  simp only [Parser.behind]; omega

theorem sim_floatTail : Sim (shiftCfg pre D) (fun _ _ => True) floatTail floatTail :=
  .bindEq (sim_count (sim_ws _)) fun _ => .bindU (.runIf (sim_back _)) sim_bound

theorem sim_float : Sim (shiftCfg pre D) Eq float float :=
  .bindU sim_numPrefix (.bindU (sim_sym _) (.bindU (sim_take _ _) (.bindEq sim_text fun _ => .bindU sim_floatTail (.pure rfl))))

theorem sim_sci : Sim (shiftCfg pre D) Eq sciFloat sciFloat :=
  .bindU sim_numPrefix (.bindU (sim_symSet _) (.bindU (sim_take _ _) (.bindU (sim_take _ _) (.bindEq sim_text fun _ => .bindU sim_floatTail (.pure rfl)))))

theorem sim_quotedLoop (q : UInt8) (ig : Bytes) : ∀ n v, Sim (shiftCfg pre D) Eq (quotedLoop q ig n v) (quotedLoop q ig n v)
  | 0, _ => .diverge
  | n + 1, v => by
    simp only [quotedLoop]
    refine .bindU sim_fwd (.bindU (sim_take _ _) (.bindEq sim_text fun _ => .bindU sim_fwd (.bindEq (sim_symSeq _).isOk fun _ =>
      .ite (sim_quotedLoop q ig n _) (.bind (sim_gap _).try? (optEq fun o => ?_)))))
    cases o with
    | some t => exact .bindU (sim_ws _) (sim_quotedLoop q ig n _)
    | none => exact .bindEq (sim_sym _).isOk fun _ => .ite (sim_quotedLoop q ig n _) (.bindEq (sim_sym _).isOk fun _ =>
        .ite (.pure rfl) (sim_quotedLoop q ig n _))

theorem sim_quoted (n : Nat) (q : UInt8) (ig : Bytes) : Sim (shiftCfg pre D) Eq (stringQuoted n q ig) (stringQuoted n q ig) :=
  sim_ctx (.bindU (sim_sym _) (.bindU sim_fwd (.bindU (sim_ws _) (.bindEq sim_text fun _ => sim_quotedLoop _ _ _ _))))

theorem sim_plainStop : Sim (shiftCfg pre D) Eq plainStop plainStop :=
  .bindEq sim_food fun _ => .ite (.pure rfl) (.bindEq (sim_symSeq _).isOk fun _ => .ite (.pure rfl)
    (.bindEq (.bindEq (sim_sym _).isOk fun _ => .ite sim_nl.isOk (.pure rfl)) fun _ => .ite (.pure rfl) (sim_symSeq _).isOk))

theorem sim_symTimes (c : UInt8) : ∀ n, Sim (shiftCfg pre D) (fun _ _ => True) (symTimes c n) (symTimes c n)
  | 0 => .pure trivial
  | n + 1 => .bindU (sim_sym c) (sim_symTimes c n)

theorem sim_ind (level : Nat) : Sim (shiftCfg pre D) (fun _ _ => True) (ind level) (ind level) := by
  refine .bindU (.modify ?_) (.bind .get ?_)
  · rintro s _ ⟨hD, rfl⟩
    exact ⟨hD, rfl⟩
  · rintro s _ ⟨_, rfl⟩
    exact sim_symTimes _ _

theorem sim_plainLoop (level : Nat) (inner : Bool) (patt : Bytes) : ∀ n v lead,
    Sim (shiftCfg pre D) Eq (plainLoop level inner patt n v lead) (plainLoop level inner patt n v lead)
  | 0, _, _ => .diverge
  | n + 1, v, lead => by
    have ih := sim_plainLoop level inner patt n
    simp only [plainLoop]
    refine .bindU sim_fwd (.bindU (sim_take _ _) (.bindEq sim_text fun _ => .bindU sim_fwd (.bindEq sim_plainStop fun _ =>
      .ite (.bindU sim_bwd (.pure rfl)) (.bindU sim_fwd (.bindEq (sim_symSet _).isOk fun _ => .ite (.bindEq sim_text fun _ => ih _ _) ?_)))))
    refine .bindEq (.ite (sim_symSet _).isOk (.pure rfl)) fun _ => .ite (.bindEq sim_text fun _ => ih _ _) ?_
    refine .bindEq (sim_ind _).isOk fun _ => .ite (ih _ _) (.bind (sim_gap _).try? (optEq fun o => ?_))
    cases o with
    | some t => exact .bindEq (sim_ind _).isOk fun _ => .ite (ih _ _) (.pure rfl)
    | none => exact .pure rfl

theorem sim_plain (n level : Nat) (inner : Bool) : Sim (shiftCfg pre D) Eq (stringPlain n level inner) (stringPlain n level inner) :=
  sim_ctx (.bindEq (sim_plainLoop _ _ _ _ _ _) fun _ => .ite .mismatch (.pure rfl))

theorem sim_wrappedLoop (level : Nat) (sep : UInt8) (leading : Bool) : ∀ n v,
    Sim (shiftCfg pre D) Eq (wrappedLoop level sep leading n v) (wrappedLoop level sep leading n v)
  | 0, _ => .diverge
  | n + 1, v => by
    have ih := sim_wrappedLoop level sep leading n
    simp only [wrappedLoop]
    have line : ∀ v : Bytes, Sim (shiftCfg pre D) Eq
        (do forward; takeWhile (notIn b!"\n\r") (.more 0); let s ← text; wrappedLoop level sep leading n (wrappedPush sep leading v s))
        (do forward; takeWhile (notIn b!"\n\r") (.more 0); let s ← text; wrappedLoop level sep leading n (wrappedPush sep leading v s)) :=
      fun v => .bindU sim_fwd (.bindU (sim_take _ _) (.bindEq sim_text fun _ => ih _))
    refine .bindU sim_nl (.bindU sim_fwd (.bindEq (sim_ind _).isOk fun _ => .ite (line _) (.bind (sim_gap _).try? (optEq fun o => ?_))))
    cases o with
    | some t => exact .bindEq (sim_ind _).isOk fun _ => .ite (line _) (.pure rfl)
    | none => exact .pure rfl

theorem sim_wrapped (level : Nat) (sep : UInt8) (leading : Bool) :
    Sim (shiftCfg pre D) Eq (stringWrapped level sep leading) (stringWrapped level sep leading) := by
  refine sim_ctx (.bind .get ?_)
  rintro s _ ⟨_, rfl⟩
  rw [behind_rest]
  exact .bindEq (sim_wrappedLoop _ _ _ _ _) fun _ => .bindU (sim_back _) (.pure rfl)

theorem sim_chomp : Sim (shiftCfg pre D) Eq chomp chomp :=
  sim_ctx (.bindEq (sim_sym _).isOk fun _ => .ite (.pure rfl) (.bindEq (sim_sym _).isOk fun _ => .ite (.pure rfl) (.pure rfl)))

theorem sim_literal (level : Nat) : Sim (shiftCfg pre D) Eq (stringLiteral level) (stringLiteral level) :=
  .bindU (sim_sym _) (.bindEq sim_chomp fun _ => .bindU (sim_ws _) (.bindEq (sim_wrapped _ _ _) fun _ => .pure rfl))

theorem sim_folded (level : Nat) : Sim (shiftCfg pre D) Eq (stringFolded level) (stringFolded level) :=
  .bindU (sim_sym _) (.bindEq sim_chomp fun _ => .bindU (sim_ws _) (.bindEq (sim_wrapped _ _ _) fun _ => .pure rfl))

theorem sim_identifier : Sim (shiftCfg pre D) (fun _ _ => True) identifier identifier := .bindU (sim_take _ _) (sim_take _ _)

theorem sim_tagLookup (key : Bytes) : Sim (shiftCfg pre D) Eq (tagLookup key) (tagLookup key) := by
  rintro s _ ⟨hD, rfl⟩
  unfold tagLookup
  rw [show (s.behind pre).tag = s.tag from rfl]
  split
  · exact .inr ⟨rfl, hD, rfl⟩
  · exact .inr ⟨rfl, hD, rfl⟩

theorem sim_tagPrefixPart (h : Bytes) : Sim (shiftCfg pre D) Eq (tagPrefixPart h) (tagPrefixPart h) :=
  .ite (.bindEq (sim_sym _).isOk fun _ => .ite (sim_tagLookup _) (.pure rfl))
    (.bindEq (sim_sym _).isOk fun _ => .ite (.bindEq (sim_ctx (.bindU (sim_take _ _) sim_text)) fun _ => .bindU (sim_sym _) (.pure rfl))
      (.bindEq (sim_sym _).isOk fun _ => .ite (sim_tagLookup _) (sim_tagLookup _)))

theorem sim_tag : Sim (shiftCfg pre D) Eq tag tag :=
  .bindU (sim_sym _) (sim_ctx (.bindU (.orDefault trivial sim_identifier) (.bindEq sim_text fun _ => .bindEq (sim_tagPrefixPart _) fun _ =>
    .bindEq (sim_ctx (.bindEq sim_identifier.isOk fun _ => .ite sim_text (.pure rfl))) fun _ => .pure rfl)))

theorem sim_anchor : Sim (shiftCfg pre D) Eq anchor anchor := .bindU (sim_sym _) (sim_ctx (.bindU sim_identifier sim_text))

theorem sim_anchorUse : Sim (shiftCfg pre D) Eq anchorUse anchorUse := .bindU (sim_sym _) (sim_ctx (.bindU sim_identifier sim_text))

theorem sim_indDefine (level : Nat) : Sim (shiftCfg pre D) (fun _ _ => True) (indDefine level) (indDefine level) := by
  refine .bindU (.runIf (sim_ind _)) (.bindEq (sim_count (sim_take _ _)) fun _ => .bind .get ?_)
  rintro s _ ⟨_, rfl⟩
  refine .ite (.modify ?_) (.ite (.modify ?_) .panic)
  · rintro s _ ⟨hD, rfl⟩
    exact ⟨hD, rfl⟩
  · rintro s _ ⟨hD, rfl⟩
    exact ⟨hD, rfl⟩

theorem sim_directiveYaml : Sim (shiftCfg pre D) (fun _ _ => True) directiveYaml directiveYaml := by
  refine .bindU (sim_ws _) (.bind .get ?_)
  rintro s _ ⟨_, rfl⟩
  refine .ite (sim_err _ _) (.bindEq (sim_ctx (.bindEq (sim_symSeq _).isOk fun _ => .ite (.pure rfl) (sim_symSeq _).isOk)) fun _ =>
    .ite (.modify ?_) (sim_err _ _))
  rintro s _ ⟨hD, rfl⟩
  exact ⟨hD, rfl⟩

theorem sim_directiveHandle : Sim (shiftCfg pre D) Eq directiveHandle directiveHandle :=
  .bindEq sim_identifier.isOk fun _ => .ite (.bindEq sim_text fun _ => .bindU (sim_sym _) (.pure rfl))
    (.bindEq (sim_sym _).isOk fun _ => .ite (.pure rfl) (.pure rfl))

theorem sim_directiveTag : Sim (shiftCfg pre D) (fun _ _ => True) directiveTag directiveTag := by
  refine .bindU (sim_ws _) (.bindU (sim_sym _) (sim_ctx (.bindEq sim_directiveHandle fun _ => .bindU (sim_ws _)
    (.bindEq (sim_ctx (.bindU (sim_take _ _) sim_text)) fun _ => .modify ?_))))
  rintro s _ ⟨hD, rfl⟩
  exact ⟨hD, rfl⟩

theorem sim_directive : Sim (shiftCfg pre D) (fun _ _ => True) directive directive :=
  .bindU (sim_sym _) (.bindU (sim_ctx (.bindEq (sim_symSeq _).isOk fun _ => .ite sim_directiveYaml
    (.bindEq (sim_symSeq _).isOk fun _ => .ite sim_directiveTag (sim_take _ _)))) (.bindEq (sim_gap _) fun _ => .pure trivial))

theorem sim_nums : Sim (shiftCfg pre D) Eq numTry numTry := by
  unfold numTry
  refine .bind (.try? sim_float) (optEq fun o => ?_)
  cases o with
  | some s => exact .pure rfl
  | none =>
  refine .bind (.try? sim_sci) (optEq fun o => ?_)
  cases o with
  | some s => exact .pure rfl
  | none =>
  refine .bind (.try? sim_int) (optEq fun o => ?_)
  cases o with
  | some s => exact .pure rfl
  | none => exact .pure rfl

theorem shift_base (pre D : Bytes) : Base (shiftCfg pre D) Any (· + pre.length) id where
  pos := by
    rintro s _ ⟨_, rfl⟩
    simp [Parser.behind, Parser.indicator, Nat.add_assoc]
  err := sim_err
  boundCtx := sim_ctx (.orDefault trivial sim_bound)
  endCtx := sim_ctx (.bindEq (.bindEq (sim_symSeq _).isOk fun _ => .ite (.pure rfl) (sim_symSeq _).isOk) fun c => .bindU (.runIf sim_bwd) (.pure rfl))
  fwdX := .of sim_fwd
  bwdX := .of sim_bwd
  food := sim_food.weaken fun _ _ h => by rw [h]
  symX := fun c _ _ => .of (sim_sym c)
  dashes := sim_symSeq _
  dots := sim_symSeq _
  boundX := .of sim_bound
  complex := sim_complex
  inv := sim_take _ _
  gap := (sim_gap _).void
  indX := fun level => .of (sim_ind level)
  defineX := fun level => .of (.bindEq (sim_gap _) fun _ => sim_indDefine level)
  anchor := sim_anchor
  tag := sim_tag
  anchorUse := sim_anchorUse
  nums := .of sim_nums
  single := fun n => sim_quoted n _ _
  double := fun n => sim_quoted n _ _
  plain := sim_plain
  literal := sim_literal
  folded := sim_folded
  directive := sim_ctx sim_directive

end

end YamlPeg
