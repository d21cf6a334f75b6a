import Verif.Proof.Flow
import Verif.Proof.Gaps
import Verif.Proof.Words
import Verif.Proof.LastChar
import Verif.Proof.Charset
/-! # Quoted strings over several lines -/

namespace YamlPeg
open M

variable (k : Ctx) (L : Loader) (pre mid post : Bytes)

/-- Every piece of a line of a quoted string is read as such; `R` follows. -/
def qLine (q : UInt8) (ig : Bytes) (R : Bytes) : List QTok → Prop
  | [] => True
  | .byte c :: ts => c ∉ [0x0A, 0x0D, 0x5C, q] ∧ qLine q ig R ts
  | .bs :: ts => ig.isPrefixOf (0x5C :: (qText ig ts ++ R)) = false ∧ qLine q ig R ts
  | .quote :: ts => qLine q ig R ts

theorem qLineSplit (ig : Bytes) (q : UInt8) (R : Bytes) : ∀ ts : List QTok, qLine q ig R ts → ∃ (run : Bytes) (ts' : List QTok),
    ts = run.map QTok.byte ++ ts' ∧ (∀ c ∈ run, c ∉ [0x0A, 0x0D, 0x5C, q]) ∧ qLine q ig R ts' ∧
    (ts' = [] ∨ (∃ s, ts' = .bs :: s) ∨ (∃ s, ts' = .quote :: s))
  | [], h => ⟨[], [], rfl, by simp, h, .inl rfl⟩
  | .bs :: ts, h => ⟨[], .bs :: ts, rfl, by simp, h, .inr (.inl ⟨_, rfl⟩)⟩
  | .quote :: ts, h => ⟨[], .quote :: ts, rfl, by simp, h, .inr (.inr ⟨_, rfl⟩)⟩
  | .byte c :: ts, h => by
    obtain ⟨run, ts', h1, h2, h3, h4⟩ := qLineSplit ig q R ts h.2
    refine ⟨c :: run, ts', by simp [h1], ?_, h3, h4⟩
    intro x hx
    simp only [List.mem_cons] at hx
    rcases hx with rfl | hx
    · exact h.1
    · exact h2 x hx

/-- One line of a quoted string, up to the first text of the next line. -/
theorem quotedLoop_line {q : UInt8} {ig R taken left : Bytes} {t : Nat} (hq : QuoteKind q ig)
    (hg : gapSpec false R = some (t, taken, left)) (hR : ∃ c r, R = c :: r ∧ (c = 0x0A ∨ c = 0x0D)) :
    ∀ (m : Nat) (ts : List QTok), ts.length ≤ m → ∀ (n : Nat) (v pre mid : Bytes), ts.length < n → Utf8 (qText ig ts) →
      qLine q ig R ts → ∃ n' p' m', n ≤ n' + ts.length + 1 ∧
        p' ++ m' = pre ++ mid ++ qText ig ts ++ taken ++ left.takeWhile isBlank ∧
        quotedLoop q ig n v (st k pre mid (qText ig ts ++ R)) =
          quotedLoop q ig n' (quotedBreak (v ++ qVal q ts) t) (st k p' m' (left.dropWhile isBlank)) := by
  have hqa : q < 0x80 ∧ q ≠ 0x0A ∧ q ≠ 0x0D ∧ q ≠ 0x5C := by
    rcases hq with ⟨rfl, rfl⟩ | ⟨rfl, rfl⟩ <;> decide
  obtain ⟨b, r0, hR, hb⟩ := hR
  have hmiss : ig.isPrefixOf R = false := by
    rw [hR]
    rcases hq with ⟨rfl, rfl⟩ | ⟨rfl, rfl⟩ <;> rcases hb with rfl | rfl <;> simp [List.isPrefixOf]
  intro m
  induction m with
  | zero =>
    intro ts hts n v pre mid hn hu hok
    have : ts = [] := by simpa using hts
    subst this
    obtain ⟨n, rfl⟩ : ∃ i, n = i + 1 := ⟨n - 1, by simp at hn; omega⟩
    have hstop : notIn [0x0A, 0x0D, 0x5C, q] b = false := by rw [notIn_false]; rcases hb with rfl | rfl <;> simp
    refine ⟨n, pre ++ mid, taken ++ left.takeWhile isBlank, by simp, by simp [qText], ?_⟩
    simp only [qText, qVal, List.flatMap_nil, List.nil_append, List.append_nil]
    rw [quotedLoop, bind_ok (forward_st ..), bind_ok (takeWhile_more0 ..)]
    have e1 : R.takeWhile (notIn [0x0A, 0x0D, 0x5C, q]) = [] := by rw [hR]; simp [List.takeWhile, hstop]
    have e2 : R.dropWhile (notIn [0x0A, 0x0D, 0x5C, q]) = R := by rw [hR]; simp [List.dropWhile, hstop]
    simp only [e1, e2, List.append_nil]
    rw [bind_ok (text_st ..), bind_ok (forward_st ..),
      bind_ok (isOk_err (symSeq_miss _ _ _ _ _ hmiss))]
    simp only [Bool.false_eq_true, if_false, List.append_nil, List.nil_append]
    rw [bind_ok (try_ok (by rw [gap_eq, hg]))]
    simp only
    rw [bind_ok (ws_st ..)]
    simp [lossy, lossyAux]
  | succ m ih =>
    intro ts hts n v pre mid hn hu hok
    obtain ⟨n, rfl⟩ : ∃ i, n = i + 1 := ⟨n - 1, by omega⟩
    obtain ⟨run, ts', rfl, hrun, hok', hts'⟩ := qLineSplit ig q R ts hok
    rw [qText_run] at hu
    rw [qText_run, qVal_run]
    simp only [List.length_append, List.length_map] at hts hn
    generalize hrest : qText ig ts' ++ R = rest
    have hhead : ∀ c r, rest = c :: r → notIn [0x0A, 0x0D, 0x5C, q] c = false := by
      intro c r hc
      rw [notIn_false]
      rcases hts' with rfl | ⟨s, rfl⟩ | ⟨s, rfl⟩
      · simp [qText] at hrest; rw [← hrest, hR] at hc; simp at hc; rcases hb with rfl | rfl <;> simp [← hc.1]
      · simp [qText, QTok.text] at hrest; rw [← hrest] at hc; simp at hc; simp [← hc.1]
      · rw [← hrest] at hc
        rcases hq with ⟨rfl, rfl⟩ | ⟨rfl, rfl⟩ <;> (simp [qText, QTok.text] at hc; simp [← hc.1])
    obtain ⟨t1, t2⟩ := takeWhile_all (f := notIn [0x0A, 0x0D, 0x5C, q]) (d := run)
      (by intro x hx; have := hrun x hx; simpa [notIn] using this) rest hhead
    have hsplit : Utf8 run ∧ Utf8 (qText ig ts') := by
      cases hts'' : qText ig ts' with
      | nil => rw [hts''] at hu; exact ⟨by simpa using hu, .nil⟩
      | cons c r =>
        rw [hts''] at hu
        have hc : c < 0x80 := by
          have := hhead c (r ++ R) (by rw [← hrest, hts'']; rfl)
          rw [notIn_false] at this
          simp at this
          rcases this with rfl | rfl | rfl | rfl
          · decide
          · decide
          · decide
          · exact hqa.1
        have := (Utf8.cut hc (a := run) (b := r)).1 hu
        exact ⟨this.1, (Utf8.cons_ascii hc).2 this.2⟩
    have hlossy := lossy_utf8 hsplit.1
    have e0 : run ++ qText ig ts' ++ R = run ++ rest := by rw [← hrest]; simp
    rw [quotedLoop, bind_ok (forward_st ..), bind_ok (takeWhile_more0 ..), e0, t1, t2,
      bind_ok (text_st ..), bind_ok (forward_st ..)]
    simp only [List.nil_append, hlossy]
    rcases hts' with rfl | ⟨s, rfl⟩ | ⟨s, rfl⟩
    · -- the line break
      simp only [qText, List.flatMap_nil, List.nil_append] at hrest
      subst hrest
      refine ⟨n, pre ++ mid ++ run, taken ++ left.takeWhile isBlank, by simp, by simp [qText], ?_⟩
      rw [bind_ok (isOk_err (symSeq_miss _ _ _ _ _ hmiss))]
      simp only [Bool.false_eq_true, if_false, List.nil_append]
      rw [bind_ok (try_ok (by rw [gap_eq, hg]))]
      simp only
      rw [bind_ok (ws_st ..)]
      simp [qVal]
    · -- a backslash
      have er : rest = 0x5C :: (qText ig s ++ R) := by rw [← hrest]; simp [qText, QTok.text]
      subst er
      obtain ⟨n', p', m', hn', hpm, hl⟩ := ih s (by simp at hts; omega) n (v ++ run ++ [0x5C])
        (pre ++ mid ++ run) [0x5C] (by simp at hn; omega)
        (by have := hsplit.2; simp [qText, QTok.text] at this
            exact (Utf8.cons_ascii (by decide)).1 this) hok'.2
      refine ⟨n', p', m', by simp at hn' ⊢; omega, by rw [hpm]; simp [qText, QTok.text], ?_⟩
      rw [bind_ok (isOk_err (symSeq_miss _ _ _ _ _ hok'.1))]
      simp only [Bool.false_eq_true, if_false, List.nil_append]
      rw [bind_ok (try_err (gap_false_no _ _ _ (by decide) (by decide)))]
      simp only
      rw [bind_ok (isOk_ok (sym_hit ..))]
      simp only [if_true, List.nil_append]
      rw [hl]
      simp [qVal, QTok.val]
    · -- a quoted quote
      have er : rest = ig ++ (qText ig s ++ R) := by rw [← hrest]; simp [qText, QTok.text]
      subst er
      obtain ⟨n', p', m', hn', hpm, hl⟩ := ih s (by simp at hts; omega) n (v ++ run ++ [q])
        (pre ++ mid ++ run) ig (by simp at hn; omega)
        (by have := hsplit.2
            rcases hq with ⟨rfl, rfl⟩ | ⟨rfl, rfl⟩ <;> simp [qText, QTok.text] at this
            · exact (Utf8.cons_ascii (by decide)).1 ((Utf8.cons_ascii (by decide)).1 this)
            · exact (Utf8.cons_ascii (by decide)).1 ((Utf8.cons_ascii (by decide)).1 this)) hok'
      refine ⟨n', p', m', by simp at hn' ⊢; omega, by rw [hpm]; simp [qText, QTok.text], ?_⟩
      rw [bind_ok (isOk_ok (symSeq_hit ..))]
      simp only [if_true, List.nil_append]
      rw [hl]
      simp [qVal, QTok.val]

/-! ## Line breaks -/

/-- A line break inside a quoted scalar: the blanks left at the end of the line,
the blank lines that follow (blanks only), the blanks in front of the next text. -/
structure Break where
  trail : Bytes
  lines : List Bytes
  indent : Bytes

def Break.OK (b : Break) : Prop :=
  (∀ c ∈ b.trail, isBlank c = true) ∧ (∀ l ∈ b.lines, ∀ c ∈ l, isBlank c = true) ∧ ∀ c ∈ b.indent, isBlank c = true

/-- How the break is written, with the line break `nl`. -/
def Break.text (nl : Bytes) (b : Break) : Bytes := b.trail ++ (nl ++ (gapLines nl b.lines ++ b.indent))

/-- What it stands for: one space, or as many newlines as there are blank
lines (behind which the blanks at the end of the line stay). -/
def Break.val (b : Break) : Bytes :=
  if b.lines = [] then [0x20] else b.trail ++ List.replicate b.lines.length 0x0A

theorem blank_noNl {l : Bytes} (hl : ∀ c ∈ l, isBlank c = true) {r : Bytes} (hr : ∀ s, r ≠ 0x0D :: s) :
    ∀ s, l ++ r ≠ 0x0D :: s := by
  intro s
  cases l with
  | nil => exact hr s
  | cons x l =>
    intro h; simp at h
    have := hl x (by simp); rw [h.1] at this; revert this; decide

theorem gapMore_blank {nl left : Bytes} (hnl : LineBreak nl) (hl : nlLen (left.dropWhile isBlank) = 0) (hcr : ∀ s, left ≠ 0x0D :: s) :
    ∀ (ls : List Bytes) (n : Nat), (∀ l ∈ ls, ∀ c ∈ l, isBlank c = true) → ls.length < n →
      gapMore false n (gapLines nl ls ++ left) = (ls.length, gapLines nl ls, left)
  | _, 0, _, hn => by simp at hn
  | [], n + 1, _, _ => by simp [gapMore, gapLine, gapLines, hl]
  | l :: ls, n + 1, hls, hn => by
    have hls' : ∀ l ∈ ls, ∀ c ∈ l, isBlank c = true := fun x hx => hls x (by simp [hx])
    have hnlb : ∀ c r, nl ++ (gapLines nl ls ++ left) = c :: r → isBlank c = false := by
      rcases hnl with rfl | rfl <;> (rintro c r ⟨⟩; decide)
    have tk := takeWhile_all (f := isBlank) (d := l) (hls l (by simp)) (nl ++ (gapLines nl ls ++ left)) hnlb
    have h1 : nlLen (nl ++ (gapLines nl ls ++ left)) = nl.length := by
      rcases hnl with rfl | rfl
      · apply nlLen_lf
        cases ls with
        | nil => exact hcr
        | cons x ls =>
          rw [gapLines, List.append_assoc]
          exact blank_noNl (hls' x (by simp)) (by simp)
      · exact nlLen_crlf _
    have h0 : nl.length ≠ 0 := by rcases hnl with rfl | rfl <;> simp
    rw [show gapLines nl (l :: ls) ++ left = l ++ (nl ++ (gapLines nl ls ++ left)) by simp [gapLines], gapMore]
    simp only [gapLine, Bool.false_eq_true, if_false, tk.1, tk.2, h1, h0, List.drop_left, List.take_left]
    rw [gapMore_blank hnl hl hcr ls n hls' (by simp at hn; omega)]
    simp [gapLines]

theorem Break.gapSpec {nl R : Bytes} (hnl : LineBreak nl) (b : Break) (hb : b.OK)
    (hR : ∀ c r, R = c :: r → isBlank c = false ∧ c ≠ 0x0A ∧ c ≠ 0x0D) :
    YamlPeg.gapSpec false (nl ++ (gapLines nl b.lines ++ (b.indent ++ R))) =
      some (b.lines.length + 1, nl ++ gapLines nl b.lines, b.indent ++ R) ∧
    (b.indent ++ R).takeWhile isBlank = b.indent ∧ (b.indent ++ R).dropWhile isBlank = R := by
  have tk := takeWhile_all (f := isBlank) (d := b.indent) hb.2.2 R (fun c r h => (hR c r h).1)
  refine ⟨?_, tk⟩
  have hl : nlLen ((b.indent ++ R).dropWhile isBlank) = 0 := by
    rw [tk.2, nlLen_zero_iff]; intro c r h; exact (hR c r h).2
  have hcr : ∀ s, b.indent ++ R ≠ 0x0D :: s :=
    blank_noNl hb.2.2 (by rintro s rfl; exact (hR _ _ rfl).2.2 rfl)
  have h1 : nlLen (nl ++ (gapLines nl b.lines ++ (b.indent ++ R))) = nl.length := by
    rcases hnl with rfl | rfl
    · apply nlLen_lf
      cases hls : b.lines with
      | nil => exact hcr
      | cons x ls =>
        rw [gapLines, List.append_assoc]
        exact blank_noNl (hb.2.1 x (by simp [hls])) (by simp)
    · exact nlLen_crlf _
  have h0 : nl.length ≠ 0 := by rcases hnl with rfl | rfl <;> simp
  have := length_gapLines hnl b.lines
  simp only [YamlPeg.gapSpec, gapLead, Bool.false_eq_true, if_false, h1, h0, List.drop_left, List.take_left]
  rw [gapMore_blank hnl hl hcr b.lines _ hb.2.1 (by simp; omega)]
  simp

/-! ## All the lines -/

/-- A text a line break is not joined to, nor cut from. -/
def Clean (w : Bytes) : Prop := endsWithWs w = false ∧ endsWith w b!"\\" = false ∧ endsWith w b!"\\n" = false

theorem blank_ws {c : UInt8} (h : isBlank c = true) : isWs1 c = true := by
  simp only [isBlank, isAsciiWs, Bool.and_eq_true, Bool.or_eq_true, beq_iff_eq] at h
  rcases h.1.1 with (((h | h) | h) | h) | h <;> rw [h] <;> decide

theorem blank_ascii {c : UInt8} (h : isBlank c = true) : c < 0x80 := by
  simp only [isBlank, isAsciiWs, Bool.and_eq_true, Bool.or_eq_true, beq_iff_eq] at h
  rcases h.1.1 with (((h | h) | h) | h) | h <;> rw [h] <;> decide

theorem endsWith_snoc (a : Bytes) (c x : UInt8) : endsWith (a ++ [c]) [x] = (x == c) := by
  simp [endsWith, List.isSuffixOf, List.isPrefixOf]

theorem quotedBreak_val {w : Bytes} (hw : Clean w) {b : Break} (hb : b.OK) :
    quotedBreak (w ++ b.trail) (b.lines.length + 1) = w ++ b.val := by
  have h1 : endsWith (w ++ b.trail) b!"\\" = false := by
    rcases List.eq_nil_or_concat b.trail with h | ⟨a, c, h⟩
    · rw [h, List.append_nil]; exact hw.2.1
    · have hc := hb.1 c (by rw [h]; simp)
      rw [h, List.concat_eq_append, ← List.append_assoc, endsWith_snoc]
      simp only [beq_eq_false_iff_ne, ne_eq]
      rintro rfl; revert hc; decide
  have h2 : trimEnd (w ++ b.trail) = w := by
    rw [trimEnd_ws fun x hx => blank_ws (hb.1 x hx), trimEnd_of_endsWithWs hw.1]
  simp only [quotedBreak, h1, Bool.false_eq_true, if_false, Break.val]
  cases hl : b.lines with
  | nil => simp [h2, hw.2.2]
  | cons x ls => simp

theorem qLine_append {q : UInt8} {ig R : Bytes} {w : Bytes} (hw : ∀ c ∈ w, c ∉ [0x0A, 0x0D, 0x5C, q]) :
    ∀ ts : List QTok, qLine q ig (w ++ R) ts → qLine q ig R (ts ++ w.map .byte)
  | [], _ => by
    induction w with
    | nil => trivial
    | cons c w ih => exact ⟨hw c (by simp), ih (fun x hx => hw x (by simp [hx])) trivial⟩
  | .byte c :: ts, h => ⟨h.1, qLine_append hw ts h.2⟩
  | .bs :: ts, h => by
    refine ⟨?_, qLine_append hw ts h.2⟩
    have : qText ig (ts ++ w.map .byte) ++ R = qText ig ts ++ (w ++ R) := by
      have e : qText ig (w.map .byte) = w := by simpa [qText] using qText_run ig w []
      simp only [qText, List.flatMap_append] at e ⊢
      rw [e]; simp
    exact (congrArg (fun z => ig.isPrefixOf (0x5C :: z)) this).trans h.1
  | .quote :: ts, h => qLine_append hw ts h

/-- Tokens of a line of a quoted string. -/
def TokLine (q : UInt8) (ig E : Bytes) (ts : List QTok) : Prop :=
  Utf8 (qText ig ts) ∧ (∀ R, qLine q ig R ts) ∧ qOK q ig E ts

/-- The lines behind the first. -/
def qMore (ig nl : Bytes) : List (Break × List QTok) → Bytes
  | [] => []
  | (b, ts) :: r => b.text nl ++ (qText ig ts ++ qMore ig nl r)

def qMoreVal (q : UInt8) : List (Break × List QTok) → Bytes
  | [] => []
  | (b, ts) :: r => b.val ++ (qVal q ts ++ qMoreVal q r)

def qMoreLen : List (Break × List QTok) → Nat
  | [] => 0
  | (b, ts) :: r => b.trail.length + ts.length + 1 + qMoreLen r

/-- Each further line begins with text, and each line but the last ends cleanly. -/
def qMoreOK (q : UInt8) (ig E : Bytes) : Bytes → List (Break × List QTok) → Prop
  | _, [] => True
  | w, (b, ts) :: r => Clean w ∧ b.OK ∧ TokLine q ig E ts ∧
      (∀ c s, qText ig ts = c :: s → isBlank c = false ∧ c ≠ 0x0A ∧ c ≠ 0x0D) ∧ (qText ig ts ≠ [] ∨ r = []) ∧
      qMoreOK q ig E (w ++ b.val ++ qVal q ts) r

theorem quotedLoop_fold {q : UInt8} {ig E nl : Bytes} (hq : QuoteKind q ig) (hnl : LineBreak nl) :
    ∀ (r : List (Break × List QTok)) (ts : List QTok) (n : Nat) (v pre mid : Bytes),
      ts.length + qMoreLen r < n → TokLine q ig E ts → qMoreOK q ig E (v ++ qVal q ts) r →
      ∃ p' m', p' ++ m' = pre ++ mid ++ (qText ig ts ++ qMore ig nl r) ++ [q] ∧
        quotedLoop q ig n v (st k pre mid (qText ig ts ++ (qMore ig nl r ++ q :: E))) =
          (.ok (v ++ (qVal q ts ++ qMoreVal q r)), st k p' m' E)
  | [], ts, n, v, pre, mid, hn, hts, _ => by
    obtain ⟨p', m', h1, h2⟩ := quotedLoop_read k hq ts.length ts (Nat.le_refl _) n v pre mid
      (by simp [qMoreLen] at hn; omega) hts.1 hts.2.2
    exact ⟨p', m', by simpa [qMore] using h1, by simpa [qMore, qMoreVal] using h2⟩
  | (b, ts') :: r, ts, n, v, pre, mid, hn, hts, hr => by
    obtain ⟨hcl, hb, hts', hhead, hlast, hr⟩ := hr
    have hqb : isBlank q = false ∧ q ≠ 0x0A ∧ q ≠ 0x0D := by
      rcases hq with ⟨rfl, rfl⟩ | ⟨rfl, rfl⟩ <;> decide
    have hX : ∀ c s, qText ig ts' ++ (qMore ig nl r ++ q :: E) = c :: s → isBlank c = false ∧ c ≠ 0x0A ∧ c ≠ 0x0D := by
      intro c s h
      cases hq' : qText ig ts' with
      | nil =>
        rcases hlast with h' | rfl
        · exact absurd hq' h'
        · rw [hq'] at h; simp [qMore] at h; rw [← h.1]; exact hqb
      | cons x y => rw [hq'] at h; simp at h; rw [← h.1]; exact hhead x y hq'
    obtain ⟨hg, hb1, hb2⟩ := b.gapSpec hnl hb hX
    have hw : ∀ c ∈ b.trail, c ∉ [0x0A, 0x0D, 0x5C, q] := by
      intro c hc hm
      have := hb.1 c hc
      simp only [List.mem_cons, List.not_mem_nil, or_false] at hm
      rcases hm with rfl | rfl | rfl | rfl
      · revert this; decide
      · revert this; decide
      · revert this; decide
      · rw [hqb.1] at this; simp at this
    have htr : qText ig (ts ++ b.trail.map .byte) = qText ig ts ++ b.trail := by
      have e : qText ig (b.trail.map .byte) = b.trail := by simpa [qText] using qText_run ig b.trail []
      simp only [qText, List.flatMap_append] at e ⊢
      rw [e]
    have htv : qVal q (ts ++ b.trail.map .byte) = qVal q ts ++ b.trail := by
      have e : qVal q (b.trail.map .byte) = b.trail := by simpa [qVal] using qVal_run q b.trail []
      simp only [qVal, List.flatMap_append] at e ⊢
      rw [e]
    obtain ⟨n', p', m', hn', hpm, hl⟩ := quotedLoop_line k hq hg
      (by rcases hnl with rfl | rfl
          · exact ⟨_, _, rfl, .inl rfl⟩
          · exact ⟨_, _, rfl, .inr rfl⟩)
      (ts ++ b.trail.map QTok.byte).length (ts ++ b.trail.map QTok.byte) (Nat.le_refl _) n v pre mid
      (by simp [qMoreLen] at hn ⊢; omega)
      (by rw [htr]; exact Utf8.append hts.1 (Utf8.ascii fun x hx => blank_ascii (hb.1 x hx)))
      (qLine_append hw ts (hts.2.1 _))
    rw [htv, ← List.append_assoc v, quotedBreak_val hcl hb, hb2] at hl
    obtain ⟨p2, m2, hpm2, hl2⟩ := quotedLoop_fold hq hnl r ts' n' (v ++ qVal q ts ++ b.val) p' m'
      (by simp [qMoreLen] at hn hn' ⊢; omega) hts' hr
    refine ⟨p2, m2, ?_, ?_⟩
    · rw [hpm2, hpm, htr, hb1]; simp [qMore, Break.text]
    · have e : qText ig ts ++ (qMore ig nl ((b, ts') :: r) ++ q :: E) =
          qText ig (ts ++ b.trail.map QTok.byte) ++ (nl ++ (gapLines nl b.lines ++ (b.indent ++
            (qText ig ts' ++ (qMore ig nl r ++ q :: E))))) := by
        rw [htr]; simp [qMore, Break.text]
      rw [e, hl, hl2]
      simp [qMoreVal]

/-- The blanks at the front of the first line. -/
theorem qLead {q : UInt8} {ig : Bytes} (hib : ∃ c r, ig = c :: r ∧ isBlank c = false) : ∀ ts : List QTok,
    ∃ (run : Bytes) (ts' : List QTok), ts = run.map QTok.byte ++ ts' ∧ (∀ x ∈ run, isBlank x = true) ∧
      (ts' = [] ∨ ∃ c r, qText ig ts' = c :: r ∧ isBlank c = false)
  | [] => ⟨[], [], rfl, by simp, .inl rfl⟩
  | .bs :: ts => ⟨[], .bs :: ts, rfl, by simp, .inr ⟨0x5C, qText ig ts, by simp [qText, QTok.text], by decide⟩⟩
  | .quote :: ts => by
    obtain ⟨c, r, rfl, hc⟩ := hib
    exact ⟨[], .quote :: ts, rfl, by simp, .inr ⟨c, r ++ qText (c :: r) ts, by simp [qText, QTok.text], hc⟩⟩
  | .byte c :: ts => by
    by_cases hc : isBlank c = true
    · obtain ⟨run, ts', h1, h2, h3⟩ := qLead (q := q) hib ts
      refine ⟨c :: run, ts', by simp [h1], ?_, h3⟩
      intro x hx
      simp only [List.mem_cons] at hx
      rcases hx with rfl | hx
      · exact hc
      · exact h2 x hx
    · exact ⟨[], .byte c :: ts, rfl, by simp, .inr ⟨c, qText ig ts, by simp [qText, QTok.text], by simpa using hc⟩⟩

theorem qLine_drop {q : UInt8} {ig R : Bytes} (run : Bytes) {ts : List QTok}
    (h : qLine q ig R (run.map QTok.byte ++ ts)) : qLine q ig R ts := by
  induction run with
  | nil => exact h
  | cons c run ih => exact ih h.2

/-- A quoted string over several lines is read as its folded text. -/
theorem stringQuoted_fold {q : UInt8} {ig E nl : Bytes} (hq : QuoteKind q ig) (hnl : LineBreak nl)
    {ts : List QTok} {r : List (Break × List QTok)} (hts : TokLine q ig E ts) (hr : qMoreOK q ig E (qVal q ts) r)
    (h0 : ∀ b s u, r = (b, s) :: u → qText ig ts = [] → b.trail = []) {n : Nat} (hn : ts.length + qMoreLen r < n) :
    stringQuoted n q ig (st k pre mid (q :: (qText ig ts ++ (qMore ig nl r ++ q :: E)))) =
      (.ok (qVal q ts ++ qMoreVal q r), st k pre (mid ++ (q :: (qText ig ts ++ (qMore ig nl r ++ [q])))) E) := by
  have hqb : isBlank q = false := by rcases hq with ⟨rfl, rfl⟩ | ⟨rfl, rfl⟩ <;> decide
  have hib : ∃ c r, ig = c :: r ∧ isBlank c = false := by
    rcases hq with ⟨rfl, rfl⟩ | ⟨rfl, rfl⟩
    · exact ⟨_, _, rfl, by decide⟩
    · exact ⟨_, _, rfl, by decide⟩
  obtain ⟨run, ts', h1, h2, h3⟩ := qLead (q := q) hib ts
  have hra : ∀ x ∈ run, x < 0x80 := fun x hx => blank_ascii (h2 x hx)
  have hu' : Utf8 (qText ig ts') := by
    have hu := hts.1
    rw [h1, qText_run] at hu
    clear h1 h2 h3
    induction run with
    | nil => exact hu
    | cons c run ih =>
      exact ih (fun x hx => hra x (by simp [hx])) ((Utf8.cons_ascii (hra c (by simp))).1 hu)
  have hts' : TokLine q ig E ts' :=
    ⟨hu', fun R => qLine_drop run (by have := hts.2.1 R; rwa [h1] at this),
      qOK_drop run (by have := hts.2.2; rwa [h1] at this)⟩
  have hval : run ++ qVal q ts' = qVal q ts := by rw [h1, qVal_run]
  have hX : ∀ c s, qText ig ts' ++ (qMore ig nl r ++ q :: E) = c :: s → isBlank c = false := by
    intro c s h
    rcases h3 with rfl | ⟨x, y, h3, hx⟩
    · cases r with
      | nil => simp [qText, qMore] at h; rw [← h.1]; exact hqb
      | cons x u =>
        obtain ⟨b, s2⟩ := x
        have hcl : Clean (qVal q ts) := hr.1
        have hrun : run = [] := by
          have hw : endsWithWs run = false := by
            have := hcl.1; rw [← hval] at this; simpa [qVal] using this
          have h4 := trimEnd_of_endsWithWs hw
          have h5 : trimEnd ([] ++ run) = trimEnd [] := trimEnd_ws fun x hx => blank_ws (h2 x hx)
          rw [List.nil_append, h4] at h5
          rw [h5]; rfl
        subst hrun
        have := h0 b s2 u rfl (by rw [h1]; rfl)
        simp only [qText, List.flatMap_nil, List.nil_append, qMore, Break.text, this, List.append_assoc] at h
        rcases hnl with rfl | rfl
        · simp at h; rw [← h.1]; decide
        · simp at h; rw [← h.1]; decide
    · rw [h3] at h; simp at h; rw [← h.1]; exact hx
  have tk := takeWhile_all (f := isBlank) (d := run) h2 _ hX
  have et : qText ig ts ++ (qMore ig nl r ++ q :: E) = run ++ (qText ig ts' ++ (qMore ig nl r ++ q :: E)) := by
    rw [h1, qText_run]; simp
  obtain ⟨p', m', hpm, hl⟩ := quotedLoop_fold k (E := E) hq hnl r ts' n run
    (pre ++ mid ++ [q]) run (by rw [h1] at hn; simp at hn; omega) hts' (by rw [hval]; exact hr)
  have hpm' : p' ++ m' = pre ++ mid ++ (q :: (qText ig ts ++ (qMore ig nl r ++ [q]))) := by
    rw [hpm, h1, qText_run]; simp
  rw [← List.append_assoc run, hval] at hl
  have hbody : (do
      sym q
      forward
      ws (.more 0)
      let v ← text
      quotedLoop q ig n v : PM Bytes) (st k (pre ++ mid) [] (q :: (qText ig ts ++ (qMore ig nl r ++ q :: E)))) =
      (.ok (qVal q ts ++ qMoreVal q r), st k p' m' E) := by
    rw [bind_ok (sym_hit ..), bind_ok (forward_st ..), bind_ok (ws_st ..), et, tk.1, tk.2, bind_ok (text_st ..)]
    simp only [List.nil_append, lossy_ascii _ hra]
    exact hl
  have hc := hbody
  rw [stringQuoted, context]
  generalize hB : qText ig ts ++ (qMore ig nl r ++ q :: E) = B at hc
  have hB' : B = qText ig ts ++ (qMore ig nl r ++ [q]) ++ E := by rw [← hB]; simp
  have e : ({ st k pre mid (q :: B) with eaten := (st k pre mid (q :: B)).pos } : Parser)
      = st k (pre ++ mid) [] (q :: B) := by simp [st]
  simp only [e, hc]
  congr 1
  have hlen := congrArg List.length hpm'
  have hdoc : p' ++ (m' ++ E) = pre ++ (mid ++ (q :: (qText ig ts ++ (qMore ig nl r ++ [q]))) ++ E) := by
    rw [← List.append_assoc, hpm']; simp
  simp only [st, hdoc, Parser.mk.injEq, true_and, and_true]
  simp only [List.length_append] at hlen ⊢
  omega

/-! ## Lines of text -/

/-- A line that may stand in front of a line break: it does not end with white
space, with a backslash, or with the characters `\\n`. -/
def LineEnd (s : Bytes) : Prop :=
  endsWithWs s = false ∧ s.getLast? ≠ some 0x5C ∧ endsWith s b!"\\n" = false

/-- The lines behind the line `s`: line breaks and texts.  A further line begins
with no blank, and only the last may be empty; every line but the last can
stand in front of a line break. -/
def FoldMore : Bytes → List (Break × Bytes) → Prop
  | _, [] => True
  | s, (b, t) :: r => LineEnd s ∧ b.OK ∧ (s = [] → b.trail = []) ∧ Utf8 t ∧ (∀ c u, t = c :: u → isBlank c = false) ∧
      (t ≠ [] ∨ r = []) ∧ FoldMore t r

/-- The text of a scalar over several lines; `enc` writes a line. -/
def foldText (enc : Bytes → Bytes) (nl : Bytes) (s : Bytes) (r : List (Break × Bytes)) : Bytes :=
  enc s ++ r.flatMap fun x => x.1.text nl ++ enc x.2

/-- What it stands for. -/
def foldVal (s : Bytes) (r : List (Break × Bytes)) : Bytes := s ++ r.flatMap fun x => x.1.val ++ x.2

theorem endsWith1 (w : Bytes) (x : UInt8) : endsWith w [x] = true ↔ w.getLast? = some x := by
  rcases List.eq_nil_or_concat w with rfl | ⟨a, c, rfl⟩
  · simp [endsWith, List.isSuffixOf, List.isPrefixOf]
  · rw [List.concat_eq_append, endsWith_snoc, List.getLast?_concat, beq_iff_eq, Option.some.injEq]; exact eq_comm

theorem endsWith2 (w : Bytes) (x y : UInt8) :
    endsWith w [x, y] = true ↔ ∃ a, w = a ++ [x, y] := by
  rw [endsWith, List.isSuffixOf_iff_suffix]
  exact ⟨fun ⟨a, h⟩ => ⟨a, h.symm⟩, fun ⟨a, h⟩ => ⟨a, h.symm⟩⟩

theorem Clean.nil : Clean [] := ⟨rfl, rfl, rfl⟩

theorem Clean.append {w s : Bytes} (hs : Clean s) (hu : Utf8 s) (hne : s ≠ []) (hw : w.getLast? ≠ some 0x5C) :
    Clean (w ++ s) := by
  refine ⟨by rw [endsWithWs_append hu hne]; exact hs.1, ?_, ?_⟩
  · obtain ⟨a, c, rfl⟩ : ∃ a c, s = a ++ [c] := by
      rcases List.eq_nil_or_concat s with h | ⟨a, c, h⟩
      · exact absurd h hne
      · exact ⟨a, c, by simpa using h⟩
    have := hs.2.1
    rw [endsWith_snoc] at this
    rw [← List.append_assoc, endsWith_snoc, this]
  · rw [Bool.eq_false_iff, ne_eq, endsWith2]
    rintro ⟨a, h⟩
    rcases List.eq_nil_or_concat s with rfl | ⟨s1, c, rfl⟩
    · simp at hne
    rcases List.eq_nil_or_concat s1 with rfl | ⟨s2, d, rfl⟩
    · have : w = a ++ [0x5C] ∧ c = 0x6E := by
        have h' : w ++ [c] = (a ++ [0x5C]) ++ [0x6E] := by simpa using h
        have := List.append_inj' h' rfl
        exact ⟨this.1, by simpa using this.2⟩
      rw [this.1] at hw; simp at hw
    · have h2 : endsWith ((s2.concat d).concat c) b!"\\n" = false := hs.2.2
      have h' : (w ++ s2) ++ [d, c] = a ++ [0x5C, 0x6E] := by simpa using h
      have := List.append_inj' h' rfl
      have e : (s2.concat d).concat c = s2 ++ [0x5C, 0x6E] := by rw [← this.2]; simp
      rw [e, (endsWith2 _ _ _).2 ⟨_, rfl⟩] at h2; simp at h2

theorem Break.val_last (b : Break) (w : Bytes) : (w ++ b.val).getLast? ≠ some 0x5C := by
  simp only [Break.val]
  split
  · simp
  · rename_i h
    obtain ⟨x, l, h⟩ := List.exists_cons_of_ne_nil h
    rw [h, List.length_cons, List.replicate_succ', ← List.append_assoc, ← List.append_assoc]
    simp

theorem LineEnd.clean {s : Bytes} (h : LineEnd s) : Clean s :=
  ⟨h.1, by rw [Bool.eq_false_iff, ne_eq, endsWith1]; exact h.2.1, h.2.2⟩

/-- The lines of a scalar, as tokens. -/
def tokMore (tok : Bytes → List QTok) (r : List (Break × Bytes)) : List (Break × List QTok) :=
  r.map fun x => (x.1, tok x.2)

theorem qMoreOK_of {q : UInt8} {ig E : Bytes} {tok : Bytes → List QTok} {N : Bytes → Prop}
    (H : ∀ s, Utf8 s → N s → TokLine q ig E (tok s))
    (Hc : ∀ s, Utf8 s → LineEnd s → Clean (qVal q (tok s)))
    (Hu : ∀ s, Utf8 s → Utf8 (qVal q (tok s))) (Hv : ∀ s, qVal q (tok s) = [] → s = [])
    (Ht : ∀ s, qText ig (tok s) = [] → s = [])
    (Hh : ∀ s, N s → (∀ c u, s = c :: u → isBlank c = false) →
      ∀ c u, qText ig (tok s) = c :: u → isBlank c = false ∧ c ≠ 0x0A ∧ c ≠ 0x0D) :
    ∀ (r : List (Break × Bytes)) (w s : Bytes), w.getLast? ≠ some 0x5C → Utf8 s → (s = [] → w = [] ∨ r = []) →
      (∀ x ∈ r, N x.2) → FoldMore s r → qMoreOK q ig E (w ++ qVal q (tok s)) (tokMore tok r)
  | [], _, _, _, _, _, _, _ => trivial
  | (b, t) :: r, w, s, hw, hu, hs, hN, h => by
    obtain ⟨h1, h2, h3, h4, h5, h6, h7⟩ := h
    have hn := hN (b, t) (by simp)
    refine ⟨?_, h2, H t h4 hn, Hh t hn h5, ?_, ?_⟩
    · by_cases hv : qVal q (tok s) = []
      · rcases hs (Hv s hv) with h | h
        · rw [h, hv]; exact Clean.nil
        · simp at h
      · exact (Hc s hu h1).append (Hu s hu) hv hw
    · rcases h6 with h6 | rfl
      · exact .inl fun h => h6 (Ht t h)
      · exact .inr rfl
    · refine qMoreOK_of H Hc Hu Hv Ht Hh r (w ++ qVal q (tok s) ++ b.val) t (b.val_last _) h4 ?_
        (fun x hx => hN x (by simp [hx])) h7
      rintro rfl
      rcases h6 with h6 | h6
      · exact absurd rfl h6
      · exact .inr h6

theorem qMore_text (tok : Bytes → List QTok) (ig nl : Bytes) (r : List (Break × Bytes)) :
    qMore ig nl (tokMore tok r) = r.flatMap fun x => x.1.text nl ++ qText ig (tok x.2) := by
  induction r with
  | nil => rfl
  | cons x r ih => simp only [tokMore, List.map_cons, qMore, List.flatMap_cons] at ih ⊢; rw [ih]; simp

theorem qMore_val (tok : Bytes → List QTok) (q : UInt8) (r : List (Break × Bytes)) :
    qMoreVal q (tokMore tok r) = r.flatMap fun x => x.1.val ++ qVal q (tok x.2) := by
  induction r with
  | nil => rfl
  | cons x r ih => simp only [tokMore, List.map_cons, qMoreVal, List.flatMap_cons] at ih ⊢; rw [ih]; simp

/-! ## Single quotes -/

def sqEnc (s : Bytes) : Bytes := s.flatMap (fun c => if c = 0x27 then [0x27, 0x27] else [c])

/-- A string in single quotes over several lines. -/
def singleFolded (nl s : Bytes) (r : List (Break × Bytes)) : Bytes := 0x27 :: (foldText sqEnc nl s r ++ [0x27])

theorem sqTok_line {s : Bytes} (hs : ∀ c ∈ s, c ≠ 0x0A ∧ c ≠ 0x0D) (R : Bytes) : qLine 0x27 b!"''" R (s.map sqTok) := by
  induction s with
  | nil => trivial
  | cons c s ih =>
    have ih' := ih fun x hx => hs x (by simp [hx])
    have hc := hs c (by simp)
    simp only [List.map_cons, sqTok]
    split
    · exact ih'
    · split
      · exact ⟨by simp [List.isPrefixOf], ih'⟩
      · rename_i h1 h2
        exact ⟨by simp [hc.1, hc.2, h1, h2], ih'⟩

theorem sqEnc_cons (c : UInt8) (s : Bytes) : ∃ u, sqEnc (c :: s) = c :: u := by
  simp only [sqEnc, List.flatMap_cons]
  by_cases h : c = 0x27
  · subst h; exact ⟨_, rfl⟩
  · simp [h]

theorem single_fold {nl s E : Bytes} (hnl : LineBreak nl) {r : List (Break × Bytes)} (hE : ∀ r, E ≠ 0x27 :: r)
    (hu : Utf8 s) (hs : ∀ c ∈ s, c ≠ 0x0A ∧ c ≠ 0x0D) (hr : FoldMore s r)
    (hrs : ∀ x ∈ r, ∀ c ∈ x.2, c ≠ 0x0A ∧ c ≠ 0x0D) {n : Nat} (hn : (s.map sqTok).length + qMoreLen (tokMore (·.map sqTok) r) < n) :
    stringQuoted n 0x27 b!"''" (st k pre mid (singleFolded nl s r ++ E)) =
      (.ok (foldVal s r), st k pre (mid ++ singleFolded nl s r) E) := by
  have H : ∀ s, Utf8 s → (∀ c ∈ s, c ≠ 0x0A ∧ c ≠ 0x0D) → TokLine 0x27 b!"''" E (s.map sqTok) :=
    fun s hu hs => ⟨by rw [sqTok_text]; exact utf8_double hu, sqTok_line hs, sqTok_ok hE hs⟩
  have hOK := qMoreOK_of (q := 0x27) (ig := b!"''") (E := E) (tok := (·.map sqTok)) (N := fun s => ∀ c ∈ s, c ≠ 0x0A ∧ c ≠ 0x0D) H
    (fun s _ h => by rw [sqTok_val]; exact h.clean) (fun s h => by rw [sqTok_val]; exact h)
    (fun s h => by rwa [sqTok_val] at h)
    (fun s h => by
      rw [sqTok_text] at h
      cases s with
      | nil => rfl
      | cons c s => obtain ⟨u, hu⟩ := sqEnc_cons c s; rw [sqEnc] at hu; rw [hu] at h; simp at h)
    (fun s hs h c u hc => by
      rw [sqTok_text] at hc
      cases s with
      | nil => simp at hc
      | cons d s =>
        obtain ⟨u, hu⟩ := sqEnc_cons d s; rw [sqEnc] at hu; rw [hu] at hc; simp at hc
        rw [← hc.1]; exact ⟨h d s rfl, hs d (by simp)⟩)
    r [] s (by simp) hu (fun _ => .inl rfl) hrs hr
  have := stringQuoted_fold k pre mid (.inl ⟨rfl, rfl⟩) hnl (H s hu hs) (by simpa using hOK) (by
    rintro b s2 u he h0
    cases r with
    | nil => simp [tokMore] at he
    | cons x r =>
      simp only [tokMore, List.map_cons, List.cons.injEq, Prod.mk.injEq] at he
      rw [← he.1.1]
      refine hr.2.2.1 ?_
      rw [sqTok_text] at h0
      cases s with
      | nil => rfl
      | cons c s => obtain ⟨u, hu⟩ := sqEnc_cons c s; rw [sqEnc] at hu; rw [hu] at h0; simp at h0) hn
  rw [qMore_text, qMore_val, sqTok_text, sqTok_val] at this
  simp only [sqTok_text, sqTok_val] at this
  simpa [singleFolded, foldText, foldVal, sqEnc] using this

/-- How far the loop goes. -/
def singleLen (s : Bytes) (r : List (Break × Bytes)) : Nat := (s.map sqTok).length + qMoreLen (tokMore (·.map sqTok) r)

/-- A string in single quotes, as a scalar in a block or in a flow collection. -/
theorem scalarAtom_singleFolded {nl s E : Bytes} (hnl : LineBreak nl) {r : List (Break × Bytes)} (hE : ∀ r, E ≠ 0x27 :: r)
    (hu : Utf8 s) (hs : ∀ c ∈ s, c ≠ 0x0A ∧ c ≠ 0x0D) (hr : FoldMore s r)
    (hrs : ∀ x ∈ r, ∀ c ∈ x.2, c ≠ 0x0A ∧ c ≠ 0x0D) {n : Nat} (hn : singleLen s r < n) (level : Nat) (flow : Bool) :
    scalarAtom n level flow (ld L (st k pre [] (singleFolded nl s r ++ E))) =
      (.ok (some (.str (foldVal s r))), ld L (st k pre (singleFolded nl s r) E)) := by
  have hq := single_fold k pre [] hnl hE hu hs hr hrs (n := n) hn
  have hnum : NotNum (singleFolded nl s r ++ E) := .inl (by
    show List.takeWhile isDigit (unsigned (0x27 :: _)) = []
    simp [unsigned, List.takeWhile, show isDigit 0x27 = false by decide])
  rw [scalarAtom, bind_ok (try_err (lift_of (float_no _ _ _ hnum)))]
  simp only
  rw [bind_ok (try_err (lift_of (sciFloat_no _ _ _ hnum)))]
  simp only
  rw [bind_ok (try_err (lift_of (int_no _ _ _ hnum)))]
  simp only
  rw [bind_ok (try_err (lift_of (anchorUse_no _ _ _ (by rintro r; simp [singleFolded]))))]
  simp only
  rw [bind_ok (try_ok (lift_of hq))]
  simp

theorem single_folded_leaf {nl s : Bytes} (hnl : LineBreak nl) {r : List (Break × Bytes)}
    (hu : Utf8 s) (hs : ∀ c ∈ s, c ≠ 0x0A ∧ c ≠ 0x0D) (hr : FoldMore s r)
    (hrs : ∀ x ∈ r, ∀ c ∈ x.2, c ≠ 0x0A ∧ c ≠ 0x0D) :
    LeafOK .loose (singleFolded nl s r) (fun _ => .str (foldVal s r)) := by
  refine ⟨fun k level E hw hE => ?_, ⟨0x27, _, rfl, by decide, by decide, by simp⟩⟩
  refine ⟨k, rfl, singleLen s r + 1, fun a n i ha hn hi L pre => ?_⟩
  obtain ⟨i, rfl⟩ : ∃ j, i = j + 1 := ⟨i - 1, by omega⟩
  refine ⟨pre, _, rfl, scalarTerm_atom _ (scalarAtom_singleFolded _ _ _ hnl ?_ hu hs hr hrs (by omega) level false)⟩
  rintro r rfl
  rcases hE.head _ _ rfl with h | h | h | h <;> simp at h

/-! ## Double quotes -/

/-- A string in double quotes over several lines. -/
def doubleFolded (nl s : Bytes) (r : List (Break × Bytes)) : Bytes :=
  0x22 :: (foldText (·.flatMap quoteByte) nl s r ++ [0x22])

theorem dqTok_line {R : Bytes} : ∀ {s : Bytes}, s.getLast? ≠ some 0x5C → qLine 0x22 b!"\\\"" R (s.flatMap dqTok)
  | [], _ => trivial
  | c :: s, hl => by
    have ih : qLine 0x22 b!"\\\"" R (s.flatMap dqTok) := by
      cases s with
      | nil => trivial
      | cons d s => exact dqTok_line (by simpa using hl)
    simp only [List.flatMap_cons, dqTok]
    have hb : ∀ x, (b!"\\\"").isPrefixOf (0x5C :: (qText b!"\\\"" (QTok.byte x :: s.flatMap dqTok) ++ R)) =
        (0x22 == x) := by
      intro x
      simp [qText, QTok.text, List.isPrefixOf]
    split
    · exact ih
    · split
      · rename_i hc
        subst hc
        refine ⟨by simp [qText, QTok.text, List.isPrefixOf], ?_, ih⟩
        cases s with
        | nil => simp at hl
        | cons d s =>
          obtain ⟨x, u, hx, hne⟩ := quoteByte_head d (s.flatMap quoteByte)
          show (b!"\\\"").isPrefixOf (0x5C :: (qText b!"\\\"" ((d :: s).flatMap dqTok) ++ R)) = false
          rw [dqTok_text, List.flatMap_cons, hx]
          simp [List.isPrefixOf, Ne.symm hne]
      · repeat' split
        all_goals first
          | exact ⟨(hb _).trans (by decide), by decide, ih⟩
          | (refine ⟨?_, ih⟩; simp_all)

theorem escapeByte_hi {c : UInt8} (hc : ¬ c < 0x80) : escapeByte c = [c] := by
  have : ∀ d : UInt8, d < 0x80 → c ≠ d := by rintro d hd rfl; exact hc hd
  simp [escapeByte, this 0x5C (by decide), this 0x0A (by decide),
      this 0x0D (by decide), this 0x09 (by decide), this 0x08 (by decide), this 0x0C (by decide)]

theorem utf8_escape {s : Bytes} (h : Utf8 s) : Utf8 (s.flatMap escapeByte) := by
  apply utf8_flatMap _ _ h
  · intro c hc; exact escapeByte_hi hc
  · intro c hc x hx
    simp only [escapeByte] at hx
    repeat' split at hx
    all_goals first
      | (simp at hx; subst hx; exact hc)
      | (simp at hx; rcases hx with rfl | rfl <;> decide)
      | (simp at hx; subst hx; decide)

theorem escapeByte_ne (c : UInt8) : escapeByte c ≠ [] := by
  simp only [escapeByte]; repeat' split
  all_goals simp

theorem endsWithWs_ascii {a : Bytes} {c : UInt8} (hc : c < 0x80) : endsWithWs (a ++ [c]) = isWs1 c := by
  simp only [endsWithWs, List.reverse_append, List.reverse_cons, List.reverse_nil, List.nil_append,
    List.singleton_append]
  cases a.reverse with
  | nil => simp
  | cons d r => cases r <;> simp [isWs2_ascii _ hc, isWs3_ascii _ _ hc]

theorem escape_id {s : Bytes} (h : ∀ c ∈ s, ¬ c < 0x80) : s.flatMap escapeByte = s := by
  induction s with
  | nil => rfl
  | cons c s ih => rw [List.flatMap_cons, escapeByte_hi (h c (by simp)), ih fun x hx => h x (by simp [hx])]; rfl

theorem charShape_hi {x : UInt8} {rest : Bytes} (h : CharShape x rest rest.length) :
    (x < 0x80 ∧ rest = []) ∨ ∀ c ∈ x :: rest, ¬ c < 0x80 := by
  have hc := charShape_cont h
  rw [List.take_length] at hc
  have hcont : ∀ c ∈ rest, ¬ c < 0x80 := by
    intro c hm
    have := hc c hm
    have key : ∀ c : UInt8, isCont c = true → ¬ c < 0x80 :=
      fun c => of_decide_eq_true <| byte_forall (P := fun c => decide <| isCont c = true → ¬ c < 0x80) (by decide +kernel) c
    exact key c this
  have hx : (x < 0x80 ∧ rest = []) ∨ ¬ x < 0x80 := by
    rcases h with ⟨h, h0⟩ | ⟨h, _⟩ | ⟨h, _⟩ | ⟨h, _⟩
    · exact .inl ⟨h, by simpa using h0⟩
    · exact .inr h
    · exact .inr h
    · exact .inr h
  rcases hx with hx | hx
  · exact .inl hx
  · right
    intro c hm
    simp only [List.mem_cons] at hm
    rcases hm with rfl | hm
    · exact hx
    · exact hcont c hm

theorem snoc_of_ne {s : Bytes} (h : s ≠ []) : ∃ a c, s = a ++ [c] := by
  rcases List.eq_nil_or_concat s with h' | ⟨a, c, h'⟩
  · exact absurd h' h
  · exact ⟨a, c, by simpa using h'⟩

theorem escape_clean {s : Bytes} (hu : Utf8 s) (h : LineEnd s) : Clean (s.flatMap escapeByte) := by
  by_cases hne : s = []
  · subst hne; exact Clean.nil
  obtain ⟨a, x, rest, rfl, hs⟩ := utf8_last hu hne
  rcases charShape_hi hs with ⟨hx, rfl⟩ | hh
  · -- an ASCII character
    have hw : isWs1 x = false := by rw [← endsWithWs_ascii (a := a) hx]; exact h.1
    have h2 : x ≠ 0x5C := by have := h.2.1; simpa using this
    have nA : x ≠ 0x0A := by rintro rfl; exact absurd hw (by decide)
    have nD : x ≠ 0x0D := by rintro rfl; exact absurd hw (by decide)
    have n9 : x ≠ 0x09 := by rintro rfl; exact absurd hw (by decide)
    have nC : x ≠ 0x0C := by rintro rfl; exact absurd hw (by decide)
    by_cases n8 : x = 0x08
    · subst n8
      have e : (a ++ [0x08]).flatMap escapeByte = (a.flatMap escapeByte ++ [0x5C]) ++ [0x62] := by
        simp [escapeByte]
      rw [e]
      refine ⟨by rw [endsWithWs_ascii (by decide)]; decide, by rw [endsWith_snoc]; decide, ?_⟩
      rw [Bool.eq_false_iff, ne_eq, endsWith2]
      rintro ⟨b, hb⟩
      have := congrArg List.getLast? hb
      simp at this
    · have e : (a ++ [x]).flatMap escapeByte = a.flatMap escapeByte ++ [x] := by
        simp [escapeByte, h2, nA, nD, n9, nC, n8]
      rw [e]
      refine ⟨by rw [endsWithWs_ascii hx]; exact hw, by rw [endsWith_snoc]; simp [Ne.symm h2], ?_⟩
      rw [Bool.eq_false_iff, ne_eq, endsWith2]
      rintro ⟨b, hb⟩
      have hi := List.append_inj' (s₁ := a.flatMap escapeByte) (t₁ := [x]) (s₂ := b ++ [0x5C]) (t₂ := [0x6E])
        (by simpa using hb) rfl
      have hx' : x = 0x6E := by simpa using hi.2
      by_cases ha : a = []
      · subst ha; simp at hi
      obtain ⟨a', d, rfl⟩ := snoc_of_ne ha
      have hd : d = 0x5C := by
        have h1 := hi.1
        rw [List.flatMap_append] at h1
        simp only [List.flatMap_cons, List.flatMap_nil, List.append_nil] at h1
        simp only [escapeByte] at h1
        repeat' split at h1
        all_goals first
          | assumption
          | (exfalso
             have := congrArg List.getLast? h1
             simp at this; done)
          | (have := congrArg List.getLast? h1
             simpa using this)
      have := h.2.2
      rw [hd, hx', Bool.eq_false_iff, ne_eq, endsWith2] at this
      exact this ⟨a', by simp⟩
  · -- a longer character
    have e : (a ++ x :: rest).flatMap escapeByte = a.flatMap escapeByte ++ x :: rest := by
      rw [List.flatMap_append, escape_id hh]
    obtain ⟨r', d, hd⟩ := snoc_of_ne (s := x :: rest) (by simp)
    have hd8 : ¬ d < 0x80 := hh d (by rw [hd]; simp)
    have hux : Utf8 (x :: rest) := by
      refine .char x rest rest.length ((utf8Step_true_iff _ _ _).2 hs) ?_
      simp; exact .nil
    rw [e]
    refine ⟨?_, ?_, ?_⟩
    · rw [endsWithWs_append hux (by simp), ← endsWithWs_append hux (by simp) a]; exact h.1
    · rw [hd, ← List.append_assoc, endsWith_snoc]
      simp only [beq_eq_false_iff_ne, ne_eq]
      rintro rfl; exact hd8 (by decide)
    · rw [Bool.eq_false_iff, ne_eq, endsWith2]
      rintro ⟨b, hb⟩
      rw [hd, ← List.append_assoc] at hb
      have : d = 0x6E := by have := congrArg List.getLast? hb; simpa using this
      exact hd8 (by rw [this]; decide)

theorem escapeGo_plain {w : Bytes} (hw : ∀ c ∈ w, c ≠ 0x5C) (r : Bytes) :
    escapeGo false (w ++ r) = w ++ escapeGo false r := by
  induction w with
  | nil => rfl
  | cons x l ih =>
    have hx : (x == 0x5C) = false := by simpa using hw x (by simp)
    simp only [List.cons_append, escapeGo, hx, Bool.false_and, Bool.false_eq_true, if_false]
    rw [ih fun y hy => hw y (by simp [hy])]

theorem escapeGo_escaped (s r : Bytes) : escapeGo false (s.flatMap escapeByte ++ r) = s ++ escapeGo false r := by
  induction s with
  | nil => rfl
  | cons c s ih =>
    simp only [List.flatMap_cons, List.append_assoc, List.cons_append]
    by_cases h1 : c = 0x5C
    · subst h1; simp [escapeByte, escapeGo, ih]; rfl
    by_cases h2 : c = 0x0A
    · subst h2; simp [escapeByte, escapeGo, ih]; rfl
    by_cases h3 : c = 0x0D
    · subst h3; simp [escapeByte, escapeGo, ih]; rfl
    by_cases h4 : c = 0x09
    · subst h4; simp [escapeByte, escapeGo, ih]; rfl
    by_cases h5 : c = 0x08
    · subst h5; simp [escapeByte, escapeGo, ih]; rfl
    by_cases h6 : c = 0x0C
    · subst h6; simp [escapeByte, escapeGo, ih]; rfl
    simp [escapeByte, h1, h2, h3, h4, h5, h6, escapeGo, ih]

theorem Break.val_plain {b : Break} (hb : b.OK) : ∀ c ∈ b.val, c ≠ 0x5C := by
  intro c hc
  simp only [Break.val] at hc
  split at hc
  · simp at hc; rw [hc]; decide
  · simp only [List.mem_append, List.mem_replicate] at hc
    rcases hc with hc | ⟨_, hc⟩
    · rintro rfl; have := hb.1 _ hc; revert this; decide
    · rw [hc]; decide

theorem FoldMore.breaks : ∀ {s : Bytes} {r : List (Break × Bytes)}, FoldMore s r → ∀ x ∈ r, x.1.OK
  | _, [], _, x, hx => by simp at hx
  | s, (b, t) :: r, h, x, hx => by
    simp only [List.mem_cons] at hx
    rcases hx with rfl | hx
    · exact h.2.1
    · exact FoldMore.breaks h.2.2.2.2.2.2 x hx

theorem escape_fold {s : Bytes} {r : List (Break × Bytes)} (h : FoldMore s r) :
    escape (s.flatMap escapeByte ++ r.flatMap fun x => x.1.val ++ x.2.flatMap escapeByte) = foldVal s r := by
  rw [escape, escapeGo_escaped, foldVal]
  congr 1
  have hb := h.breaks
  clear h
  induction r with
  | nil => rfl
  | cons x r ih =>
    simp only [List.flatMap_cons, List.append_assoc]
    rw [escapeGo_plain (x.1.val_plain (hb x (by simp))), escapeGo_escaped, ih fun y hy => hb y (by simp [hy])]

theorem quoteEnc_cons (c : UInt8) (s : Bytes) :
    ∃ x u, (c :: s).flatMap quoteByte = x :: u ∧ (x = c ∨ x = 0x5C) ∧ x ≠ 0x0A ∧ x ≠ 0x0D := by
  simp only [List.flatMap_cons, quoteByte, escapeByte]
  repeat' split
  all_goals first
    | exact ⟨_, _, rfl, .inr rfl, by decide, by decide⟩
    | exact ⟨_, _, rfl, .inl rfl, by assumption, by assumption⟩

theorem double_fold {nl s E : Bytes} (hnl : LineBreak nl) {r : List (Break × Bytes)}
    (hu : Utf8 s) (hs : s.getLast? ≠ some 0x5C) (hr : FoldMore s r)
    (hrs : ∀ x ∈ r, x.2.getLast? ≠ some 0x5C) {n : Nat}
    (hn : (s.flatMap dqTok).length + qMoreLen (tokMore (·.flatMap dqTok) r) < n) :
    stringQuoted n 0x22 b!"\\\"" (st k pre mid (doubleFolded nl s r ++ E)) =
      (.ok (s.flatMap escapeByte ++ r.flatMap fun x => x.1.val ++ x.2.flatMap escapeByte),
        st k pre (mid ++ doubleFolded nl s r) E) := by
  have H : ∀ s : Bytes, Utf8 s → s.getLast? ≠ some 0x5C → TokLine 0x22 b!"\\\"" E (s.flatMap dqTok) :=
    fun s hu hs => ⟨by rw [dqTok_text]; exact utf8_quote hu, fun R => dqTok_line hs, dqTok_ok hs⟩
  have Ht : ∀ s : Bytes, qText b!"\\\"" (s.flatMap dqTok) = [] → s = [] := by
    intro s h
    rw [dqTok_text] at h
    cases s with
    | nil => rfl
    | cons c s => obtain ⟨x, u, hu, _⟩ := quoteEnc_cons c s; rw [hu] at h; simp at h
  have hOK := qMoreOK_of (q := 0x22) (ig := b!"\\\"") (E := E) (tok := (·.flatMap dqTok)) (N := fun s => s.getLast? ≠ some 0x5C) H
    (fun s hu h => by rw [dqTok_val]; exact escape_clean hu h) (fun s h => by rw [dqTok_val]; exact utf8_escape h)
    (fun s h => by
      rw [dqTok_val] at h
      cases s with
      | nil => rfl
      | cons c s => simp [escapeByte_ne] at h)
    Ht
    (fun s hs h c u hc => by
      rw [dqTok_text] at hc
      cases s with
      | nil => simp at hc
      | cons d s =>
        obtain ⟨x, u, hu, h1, h2⟩ := quoteEnc_cons d s; rw [hu] at hc; simp at hc
        rw [← hc.1]
        refine ⟨?_, h2⟩
        rcases h1 with rfl | rfl
        · exact h _ s rfl
        · decide)
    r [] s (by simp) hu (fun _ => .inl rfl) hrs hr
  have := stringQuoted_fold k pre mid (.inr ⟨rfl, rfl⟩) hnl (H s hu hs) (by simpa using hOK) (by
    rintro b s2 u he h0
    cases r with
    | nil => simp [tokMore] at he
    | cons x r =>
      simp only [tokMore, List.map_cons, List.cons.injEq, Prod.mk.injEq] at he
      rw [← he.1.1]
      exact hr.2.2.1 (Ht s h0)) hn
  rw [qMore_text, qMore_val, dqTok_text, dqTok_val] at this
  simp only [dqTok_text, dqTok_val] at this
  simpa [doubleFolded, foldText] using this

/-- How far the loop goes. -/
def doubleLen (s : Bytes) (r : List (Break × Bytes)) : Nat :=
  (s.flatMap dqTok).length + qMoreLen (tokMore (·.flatMap dqTok) r)

/-- A string in double quotes, as a scalar in a block or in a flow collection. -/
theorem scalarAtom_doubleFolded {nl s E : Bytes} (hnl : LineBreak nl) {r : List (Break × Bytes)}
    (hu : Utf8 s) (hs : s.getLast? ≠ some 0x5C) (hr : FoldMore s r) (hrs : ∀ x ∈ r, x.2.getLast? ≠ some 0x5C)
    {n : Nat} (hn : doubleLen s r < n) (level : Nat) (flow : Bool) :
    scalarAtom n level flow (ld L (st k pre [] (doubleFolded nl s r ++ E))) =
      (.ok (some (.str (foldVal s r))), ld L (st k pre (doubleFolded nl s r) E)) := by
  have hq := double_fold k pre [] (E := E) hnl hu hs hr hrs (n := n) hn
  have hnum : NotNum (doubleFolded nl s r ++ E) := .inl (by
    show List.takeWhile isDigit (unsigned (0x22 :: _)) = []
    simp [unsigned, show isDigit 0x22 = false by decide])
  rw [scalarAtom, bind_ok (try_err (lift_of (float_no _ _ _ hnum)))]
  simp only
  rw [bind_ok (try_err (lift_of (sciFloat_no _ _ _ hnum)))]
  simp only
  rw [bind_ok (try_err (lift_of (int_no _ _ _ hnum)))]
  simp only
  rw [bind_ok (try_err (lift_of (anchorUse_no _ _ _ (by rintro r; simp [doubleFolded]))))]
  simp only
  rw [bind_ok (try_err (lift_of (stringQuoted_no _ _ _ _ _ _ (by rintro r; simp [doubleFolded]))))]
  simp only
  rw [bind_ok (try_ok (lift_of hq))]
  simp [escape_fold hr]

theorem double_folded_leaf {nl s : Bytes} (hnl : LineBreak nl) {r : List (Break × Bytes)}
    (hu : Utf8 s) (hs : s.getLast? ≠ some 0x5C) (hr : FoldMore s r) (hrs : ∀ x ∈ r, x.2.getLast? ≠ some 0x5C) :
    LeafOK .loose (doubleFolded nl s r) (fun _ => .str (foldVal s r)) := by
  refine ⟨fun k level E hw hE => ?_, ⟨0x22, _, rfl, by decide, by decide, by simp⟩⟩
  refine ⟨k, rfl, doubleLen s r + 1, fun a n i ha hn hi L pre => ?_⟩
  obtain ⟨i, rfl⟩ : ∃ j, i = j + 1 := ⟨i - 1, by omega⟩
  exact ⟨pre, _, rfl, scalarTerm_atom _ (scalarAtom_doubleFolded _ _ _ hnl hu hs hr hrs (by omega) level false)⟩

/-! ## They are UTF-8 -/

theorem gapLines_ascii {nl : Bytes} (hnl : LineBreak nl) : ∀ {ls : List Bytes}, (∀ l ∈ ls, ∀ c ∈ l, isBlank c = true) →
    ∀ c ∈ gapLines nl ls, c < 0x80
  | [], _, c, hc => by simp [gapLines] at hc
  | l :: ls, h, c, hc => by
    simp only [gapLines, List.mem_append] at hc
    rcases hc with hc | hc | hc
    · exact blank_ascii (h l (by simp) c hc)
    · rcases hnl with rfl | rfl <;> simp at hc
      · subst hc; decide
      · rcases hc with rfl | rfl <;> decide
    · exact gapLines_ascii hnl (fun x hx => h x (by simp [hx])) c hc

theorem Break.OK.utf8 {b : Break} (hb : b.OK) {nl : Bytes} (hnl : LineBreak nl) : Utf8 (b.text nl) := by
  apply Utf8.ascii
  intro c hc
  simp only [Break.text, List.mem_append] at hc
  rcases hc with hc | hc | hc | hc
  · exact blank_ascii (hb.1 c hc)
  · rcases hnl with rfl | rfl <;> simp at hc
    · subst hc; decide
    · rcases hc with rfl | rfl <;> decide
  · exact gapLines_ascii hnl hb.2.1 c hc
  · exact blank_ascii (hb.2.2 c hc)

theorem FoldMore.utf8 : ∀ {s : Bytes} {r : List (Break × Bytes)}, FoldMore s r → ∀ x ∈ r, Utf8 x.2
  | _, [], _, x, hx => by simp at hx
  | s, (b, t) :: r, h, x, hx => by
    simp only [List.mem_cons] at hx
    rcases hx with rfl | hx
    · exact h.2.2.2.1
    · exact FoldMore.utf8 h.2.2.2.2.2.2 x hx

theorem foldText_utf8 {enc : Bytes → Bytes} (he : ∀ s, Utf8 s → Utf8 (enc s)) {nl s : Bytes} (hnl : LineBreak nl)
    {r : List (Break × Bytes)} (hu : Utf8 s) (hr : FoldMore s r) : Utf8 (foldText enc nl s r) := by
  have h1 := hr.breaks
  have h2 := hr.utf8
  refine Utf8.append (he s hu) ?_
  clear hr
  induction r with
  | nil => exact .nil
  | cons x r ih =>
    rw [List.flatMap_cons]
    exact Utf8.append (Utf8.append ((h1 x (by simp)).utf8 hnl) (he _ (h2 x (by simp))))
      (ih (fun y hy => h1 y (by simp [hy])) fun y hy => h2 y (by simp [hy]))

end YamlPeg
