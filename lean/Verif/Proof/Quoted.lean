import Verif.Proof.Leaf
/-! # Symbolic evaluation of quoted strings -/

namespace YamlPeg
open M

/-- The pieces of a quoted string: a plain byte, a backslash, a quoted quote. -/
inductive QTok where
  | byte (c : UInt8)
  | bs
  | quote

def QTok.text (ig : Bytes) : QTok → Bytes
  | .byte c => [c]
  | .bs => [0x5C]
  | .quote => ig

def QTok.val (q : UInt8) : QTok → Bytes
  | .byte c => [c]
  | .bs => [0x5C]
  | .quote => [q]

def qText (ig : Bytes) (ts : List QTok) : Bytes := ts.flatMap (QTok.text ig)
def qVal (q : UInt8) (ts : List QTok) : Bytes := ts.flatMap (QTok.val q)

/-- Every piece is read as such. -/
def qOK (q : UInt8) (ig : Bytes) (E : Bytes) : List QTok → Prop
  | [] => ig.isPrefixOf (q :: E) = false
  | .byte c :: ts => c ∉ [0x0A, 0x0D, 0x5C, q] ∧ qOK q ig E ts
  | .bs :: ts => ig.isPrefixOf (0x5C :: (qText ig ts ++ q :: E)) = false ∧ qOK q ig E ts
  | .quote :: ts => qOK q ig E ts

variable (k : Ctx) (L : Loader) (pre mid post : Bytes)

theorem gap_false_no {c : UInt8} {r : Bytes} (h1 : c ≠ 0x0A) (h2 : c ≠ 0x0D) :
    gap false (st k pre mid (c :: r)) = (.err .mismatch, st k pre mid (c :: r)) := by
  have h0 : nlLen (c :: r) = 0 := by rw [nlLen_zero_iff]; rintro _ _ ⟨⟩; exact ⟨h1, h2⟩
  have : gapSpec false (c :: r) = none := by simp [gapSpec, gapLead, h0]
  rw [gap_eq, this]; simp [gapLead]

/-- The first run of plain bytes. -/
theorem qSplit (ig : Bytes) (q : UInt8) (E : Bytes) : ∀ ts : List QTok, qOK q ig E ts → ∃ (run : Bytes) (ts' : List QTok),
    ts = run.map QTok.byte ++ ts' ∧ (∀ c ∈ run, c ∉ [0x0A, 0x0D, 0x5C, q]) ∧ qOK q ig E ts' ∧
    (ts' = [] ∨ (∃ s, ts' = .bs :: s) ∨ (∃ s, ts' = .quote :: s))
  | [], h => ⟨[], [], rfl, by simp, h, .inl rfl⟩
  | .bs :: ts, h => ⟨[], .bs :: ts, rfl, by simp, h, .inr (.inl ⟨_, rfl⟩)⟩
  | .quote :: ts, h => ⟨[], .quote :: ts, rfl, by simp, h, .inr (.inr ⟨_, rfl⟩)⟩
  | .byte c :: ts, h => by
    obtain ⟨run, ts', h1, h2, h3, h4⟩ := qSplit ig q E ts h.2
    refine ⟨c :: run, ts', by simp [h1], ?_, h3, h4⟩
    intro x hx
    simp only [List.mem_cons] at hx
    rcases hx with rfl | hx
    · exact h.1
    · exact h2 x hx

theorem qText_run (ig : Bytes) (run : Bytes) (ts : List QTok) :
    qText ig (run.map QTok.byte ++ ts) = run ++ qText ig ts := by
  induction run with
  | nil => rfl
  | cons c run ih => simp [qText, QTok.text] at ih ⊢; exact ih

theorem qVal_run (q : UInt8) (run : Bytes) (ts : List QTok) :
    qVal q (run.map QTok.byte ++ ts) = run ++ qVal q ts := by
  induction run with
  | nil => rfl
  | cons c run ih => simp [qVal, QTok.val] at ih ⊢; exact ih

/-- The quoting conventions of the two kinds of quoted strings. -/
def QuoteKind (q : UInt8) (ig : Bytes) : Prop := (q = 0x27 ∧ ig = b!"''") ∨ (q = 0x22 ∧ ig = b!"\\\"")

theorem quotedLoop_read {q : UInt8} {ig E : Bytes} (hq : QuoteKind q ig) :
    ∀ (m : Nat) (ts : List QTok), ts.length ≤ m → ∀ (n : Nat) (v pre mid : Bytes), ts.length < n → Utf8 (qText ig ts) →
      qOK q ig E ts → ∃ p' m', p' ++ m' = pre ++ mid ++ qText ig ts ++ [q] ∧
        quotedLoop q ig n v (st k pre mid (qText ig ts ++ q :: E)) = (.ok (v ++ qVal q ts), st k p' m' E) := by
  have hqa : q < 0x80 ∧ q ≠ 0x0A ∧ q ≠ 0x0D ∧ q ≠ 0x5C := by
    rcases hq with ⟨rfl, rfl⟩ | ⟨rfl, rfl⟩ <;> decide
  intro m
  induction m with
  | zero =>
    intro ts hts n v pre mid hn hu hok
    have : ts = [] := by simpa using hts
    subst this
    obtain ⟨n, rfl⟩ : ∃ i, n = i + 1 := ⟨n - 1, by simp at hn; omega⟩
    have hstop : notIn [0x0A, 0x0D, 0x5C, q] q = false := by rw [notIn_false]; simp
    refine ⟨pre ++ mid, [q], by simp [qText], ?_⟩
    simp only [qText, qVal, List.flatMap_nil, List.nil_append, List.append_nil]
    rw [quotedLoop, bind_ok (forward_st ..), bind_ok (takeWhile_more0 ..)]
    simp only [List.takeWhile, List.dropWhile, hstop, List.append_nil]
    rw [bind_ok (text_st ..), bind_ok (forward_st ..),
      bind_ok (isOk_err (symSeq_miss _ _ _ _ _ hok))]
    simp only [Bool.false_eq_true, if_false, List.append_nil, List.nil_append]
    rw [bind_ok (try_err (gap_false_no _ _ _ hqa.2.1 hqa.2.2.1))]
    simp only
    rw [bind_ok (isOk_err (sym_miss _ _ _ _ _ _ hqa.2.2.2))]
    simp only [Bool.false_eq_true, if_false, List.nil_append]
    rw [bind_ok (isOk_ok (sym_hit ..))]
    simp [lossy, lossyAux]
  | succ m ih =>
    intro ts hts n v pre mid hn hu hok
    obtain ⟨n, rfl⟩ : ∃ i, n = i + 1 := ⟨n - 1, by omega⟩
    obtain ⟨run, ts', rfl, hrun, hok', hts'⟩ := qSplit ig q E ts hok
    rw [qText_run] at hu
    rw [qText_run, qVal_run]
    simp only [List.length_append, List.length_map] at hts hn
    generalize hrest : qText ig ts' ++ q :: E = rest
    have hhead : ∀ c r, rest = c :: r → notIn [0x0A, 0x0D, 0x5C, q] c = false := by
      intro c r hc
      rw [notIn_false]
      rcases hts' with rfl | ⟨s, rfl⟩ | ⟨s, rfl⟩
      · simp [qText] at hrest; rw [← hrest] at hc; simp at hc; simp [hc.1]
      · simp [qText, QTok.text] at hrest; rw [← hrest] at hc; simp at hc; simp [← hc.1]
      · rw [← hrest] at hc
        rcases hq with ⟨rfl, rfl⟩ | ⟨rfl, rfl⟩ <;> (simp [qText, QTok.text] at hc; simp [← hc.1])
    obtain ⟨t1, t2⟩ := takeWhile_all (f := notIn [0x0A, 0x0D, 0x5C, q]) (d := run)
      (by intro x hx; have := hrun x hx; simpa [notIn] using this) rest hhead
    have hsplit : Utf8 run ∧ Utf8 (qText ig ts') := by
      cases hts'' : qText ig ts' with
      | nil => rw [hts''] at hu; exact ⟨by simpa using hu, .nil⟩
      | cons c r =>
        rw [hts''] at hu
        have hc : c < 0x80 := by
          have := hhead c (r ++ q :: E) (by rw [← hrest, hts'']; rfl)
          rw [notIn_false] at this
          simp at this
          rcases this with rfl | rfl | rfl | rfl
          · decide
          · decide
          · decide
          · exact hqa.1
        have := (Utf8.cut hc (a := run) (b := r)).1 hu
        exact ⟨this.1, (Utf8.cons_ascii hc).2 this.2⟩
    have hlossy := lossy_utf8 hsplit.1
    have e0 : run ++ qText ig ts' ++ q :: E = run ++ rest := by rw [← hrest]; simp
    rw [quotedLoop, bind_ok (forward_st ..), bind_ok (takeWhile_more0 ..), e0, t1, t2,
      bind_ok (text_st ..), bind_ok (forward_st ..)]
    simp only [List.nil_append, hlossy]
    rcases hts' with rfl | ⟨s, rfl⟩ | ⟨s, rfl⟩
    · -- the closing quote
      simp only [qText, List.flatMap_nil, List.nil_append] at hrest
      subst hrest
      refine ⟨pre ++ mid ++ run, [q], by simp [qText], ?_⟩
      rw [bind_ok (isOk_err (symSeq_miss _ _ _ _ _ hok'))]
      simp only [Bool.false_eq_true, if_false, List.nil_append]
      rw [bind_ok (try_err (gap_false_no _ _ _ hqa.2.1 hqa.2.2.1))]
      simp only
      rw [bind_ok (isOk_err (sym_miss _ _ _ _ _ _ hqa.2.2.2))]
      simp only [Bool.false_eq_true, if_false, List.nil_append]
      rw [bind_ok (isOk_ok (sym_hit ..))]
      simp [qVal]
    · -- a backslash
      have er : rest = 0x5C :: (qText ig s ++ q :: E) := by rw [← hrest]; simp [qText, QTok.text]
      subst er
      obtain ⟨p', m', hpm, hl⟩ := ih s (by simp at hts; omega) n (v ++ run ++ [0x5C])
        (pre ++ mid ++ run) [0x5C] (by simp at hn; omega)
        (by have := hsplit.2; simp [qText, QTok.text] at this
            exact (Utf8.cons_ascii (by decide)).1 this) hok'.2
      refine ⟨p', m', by rw [hpm]; simp [qText, QTok.text], ?_⟩
      rw [bind_ok (isOk_err (symSeq_miss _ _ _ _ _ hok'.1))]
      simp only [Bool.false_eq_true, if_false, List.nil_append]
      rw [bind_ok (try_err (gap_false_no _ _ _ (by decide) (by decide)))]
      simp only
      rw [bind_ok (isOk_ok (sym_hit ..))]
      simp only [if_true, List.nil_append]
      rw [hl]
      simp [qVal, QTok.val]
    · -- a quoted quote
      have er : rest = ig ++ (qText ig s ++ q :: E) := by rw [← hrest]; simp [qText, QTok.text]
      subst er
      obtain ⟨p', m', hpm, hl⟩ := ih s (by simp at hts; omega) n (v ++ run ++ [q])
        (pre ++ mid ++ run) ig (by simp at hn; omega)
        (by have := hsplit.2
            rcases hq with ⟨rfl, rfl⟩ | ⟨rfl, rfl⟩ <;> simp [qText, QTok.text] at this
            · exact (Utf8.cons_ascii (by decide)).1 ((Utf8.cons_ascii (by decide)).1 this)
            · exact (Utf8.cons_ascii (by decide)).1 ((Utf8.cons_ascii (by decide)).1 this)) hok'
      refine ⟨p', m', by rw [hpm]; simp [qText, QTok.text], ?_⟩
      rw [bind_ok (isOk_ok (symSeq_hit ..))]
      simp only [if_true, List.nil_append]
      rw [hl]
      simp [qVal, QTok.val]

/-- Blanks at the front belong to the text. -/
theorem qOK_drop {q : UInt8} {ig E : Bytes} (run : Bytes) {ts : List QTok}
    (h : qOK q ig E (run.map QTok.byte ++ ts)) : qOK q ig E ts := by
  induction run with
  | nil => exact h
  | cons c run ih => exact ih h.2

/-- The leading blanks. -/
theorem qBlanks (ig : Bytes) (q : UInt8) (E : Bytes) (hqb : isBlank q = false)
    (hib : ∃ c r, ig = c :: r ∧ isBlank c = false) : ∀ ts : List QTok, qOK q ig E ts →
    ∃ (run : Bytes) (ts' : List QTok), ts = run.map QTok.byte ++ ts' ∧ qOK q ig E ts' ∧
      (qText ig ts ++ q :: E).takeWhile isBlank = run ∧
      (qText ig ts ++ q :: E).dropWhile isBlank = qText ig ts' ++ q :: E ∧
      (∀ x ∈ run, isBlank x = true)
  | [], h => ⟨[], [], rfl, h, by simp [qText, List.takeWhile, hqb], by simp [qText, List.dropWhile, hqb], by simp⟩
  | .bs :: ts, h => ⟨[], .bs :: ts, rfl, h, by
      simp [qText, QTok.text, List.takeWhile, show isBlank 0x5C = false by decide], by
      simp [qText, QTok.text, List.dropWhile, show isBlank 0x5C = false by decide], by simp⟩
  | .quote :: ts, h => by
    obtain ⟨c, r, rfl, hc⟩ := hib
    exact ⟨[], .quote :: ts, rfl, h, by simp [qText, QTok.text, List.takeWhile, hc], by
      simp [qText, QTok.text, List.dropWhile, hc], by simp⟩
  | .byte c :: ts, h => by
    by_cases hc : isBlank c = true
    · obtain ⟨run, ts', h1, h2, h3, h4, h5⟩ := qBlanks ig q E hqb hib ts h.2
      refine ⟨c :: run, ts', by simp [h1], h2, ?_, ?_, ?_⟩
      · simp only [qText, QTok.text, List.flatMap_cons, List.cons_append, List.nil_append, List.takeWhile, hc]
        rw [show List.flatMap (QTok.text ig) ts = qText ig ts from rfl, h3]
      · simp only [qText, QTok.text, List.flatMap_cons, List.cons_append, List.nil_append, List.dropWhile, hc]
        rw [show List.flatMap (QTok.text ig) ts = qText ig ts from rfl, h4]; rfl
      · intro x hx
        simp only [List.mem_cons] at hx
        rcases hx with rfl | hx
        · exact hc
        · exact h5 x hx
    · have hc' : isBlank c = false := by simpa using hc
      exact ⟨[], .byte c :: ts, rfl, h, by simp [qText, QTok.text, List.takeWhile, hc'], by
        simp [qText, QTok.text, List.dropWhile, hc'], by simp⟩

/-- A quoted string is read exactly. -/
theorem stringQuoted_read {q : UInt8} {ig E : Bytes} (hq : QuoteKind q ig) {ts : List QTok}
    (hu : Utf8 (qText ig ts)) (hok : qOK q ig E ts) {n : Nat} (hn : ts.length < n) :
    stringQuoted n q ig (st k pre mid (q :: (qText ig ts ++ q :: E))) =
      (.ok (qVal q ts), st k pre (mid ++ (q :: (qText ig ts ++ [q]))) E) := by
  have hqb : isBlank q = false := by rcases hq with ⟨rfl, rfl⟩ | ⟨rfl, rfl⟩ <;> decide
  have hib : ∃ c r, ig = c :: r ∧ isBlank c = false := by
    rcases hq with ⟨rfl, rfl⟩ | ⟨rfl, rfl⟩
    · exact ⟨_, _, rfl, by decide⟩
    · exact ⟨_, _, rfl, by decide⟩
  obtain ⟨run, ts', h1, h2, h3, h4, h5⟩ := qBlanks ig q E hqb hib ts hok
  have hra : ∀ x ∈ run, x < 0x80 := by
    intro x hx
    have := h5 x hx
    simp only [isBlank, isAsciiWs, Bool.and_eq_true, Bool.or_eq_true, beq_iff_eq] at this
    rcases this.1.1 with (((h | h) | h) | h) | h <;> rw [h] <;> decide
  have hu' : Utf8 (qText ig ts') := by
    rw [h1, qText_run] at hu
    clear h1 h3 h4 h5
    induction run with
    | nil => exact hu
    | cons c run ih =>
      exact ih ((Utf8.cons_ascii (hra c (by simp))).1 hu) (fun x hx => hra x (by simp [hx]))
  obtain ⟨p', m', hpm, hl⟩ := quotedLoop_read k hq ts'.length ts' (Nat.le_refl _) n run
    (pre ++ mid ++ [q]) run (by rw [h1] at hn; simp at hn; omega) hu' h2
  have hpm' : p' ++ m' = pre ++ mid ++ (q :: (qText ig ts ++ [q])) := by
    rw [hpm, h1, qText_run]; simp
  have hval : run ++ qVal q ts' = qVal q ts := by rw [h1, qVal_run]
  have hbody : (do
      sym q
      forward
      ws (.more 0)
      let v ← text
      quotedLoop q ig n v : PM Bytes) (st k (pre ++ mid) [] (q :: (qText ig ts ++ q :: E))) =
      (.ok (qVal q ts), st k p' m' E) := by
    rw [bind_ok (sym_hit ..), bind_ok (forward_st ..), bind_ok (ws_st ..), h3, h4, bind_ok (text_st ..)]
    simp only [List.nil_append, lossy_ascii _ hra]
    rw [hl, hval]
  have hc := hbody
  rw [stringQuoted, context]
  have e : ({ st k pre mid (q :: (qText ig ts ++ q :: E)) with
      eaten := (st k pre mid (q :: (qText ig ts ++ q :: E))).pos } : Parser)
      = st k (pre ++ mid) [] (q :: (qText ig ts ++ q :: E)) := by simp [st]
  simp only [e, hc]
  congr 1
  have hlen := congrArg List.length hpm'
  have hdoc : p' ++ (m' ++ E) = pre ++ (mid ++ (q :: (qText ig ts ++ [q])) ++ E) := by
    rw [← List.append_assoc, hpm']; simp
  simp only [st, hdoc, Parser.mk.injEq, true_and, and_true]
  simp only [List.length_append] at hlen ⊢
  omega

end YamlPeg
