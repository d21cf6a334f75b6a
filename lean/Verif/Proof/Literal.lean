import Verif.Proof.ScalarText
import Verif.Proof.LastChar
/-! # Block scalars: literal and folded -/

namespace YamlPeg
open M

/-- The lines of a block scalar: the number of empty lines in front, the line. -/
abbrev WLines := List (Nat × Bytes)

/-- Each line on a new line, indented by `τ`, behind its empty lines. -/
def wText (τ : Nat) (ls : WLines) : Bytes :=
  ls.flatMap fun x => 0x0A :: (List.replicate x.1 0x0A ++ (spaces τ ++ x.2))

def wVal (sep : UInt8) (leading : Bool) (v : Bytes) (ls : WLines) : Bytes :=
  ls.foldl (fun v x => wrappedPush sep leading (v ++ List.replicate x.1 0x0A) x.2) v

/-- A line of a block scalar: no line break, and some character that is no blank. -/
structure WLine (l : Bytes) : Prop where
  utf8 : Utf8 l
  noBreak : ∀ c ∈ l, c ≠ 0x0A ∧ c ≠ 0x0D
  content : ∃ c ∈ l, isBlank c = false

theorem dropWhile_content {f : UInt8 → Bool} {l : Bytes} (h : ∃ c ∈ l, f c = false) (R : Bytes) :
    ∃ c r, c ∈ l ∧ f c = false ∧ (l ++ R).dropWhile f = c :: r := by
  induction l with
  | nil => simp at h
  | cons x l ih =>
    by_cases hx : f x = true
    · obtain ⟨c, hc, hf⟩ := h
      simp only [List.mem_cons] at hc
      rcases hc with rfl | hc
      · rw [hx] at hf; simp at hf
      · obtain ⟨c', r, h1, h2, h3⟩ := ih ⟨c, hc, hf⟩
        exact ⟨c', r, by simp [h1], h2, by simp [List.dropWhile, hx, h3]⟩
    · simp only [Bool.not_eq_true] at hx
      exact ⟨x, l ++ R, by simp, hx, by simp [List.dropWhile, hx]⟩

/-- The line behind the empty lines. -/
theorem WLine.stop {l : Bytes} (h : WLine l) (τ : Nat) (R : Bytes) :
    nlLen ((spaces τ ++ (l ++ R)).dropWhile isBlank) = 0 := by
  obtain ⟨c, hc, hb⟩ := h.content
  obtain ⟨x, r, hx, hxb, he⟩ := dropWhile_content (l := spaces τ ++ l) (f := isBlank) ⟨c, by simp [hc], hb⟩ R
  rw [← List.append_assoc, he, nlLen_zero_iff]
  rintro _ _ ⟨⟩
  simp only [List.mem_append] at hx
  rcases hx with hx | hx
  · simp [spaces] at hx; rw [hx.2] at hxb; exact absurd hxb (by decide)
  · exact h.noBreak x hx

theorem gapMore_empty {S : Bytes} (hS : nlLen (S.dropWhile isBlank) = 0) (hc : ∀ r, S ≠ 0x0D :: r) :
    ∀ (j n : Nat), j < n → gapMore false n (List.replicate j 0x0A ++ S) = (j, List.replicate j 0x0A, S)
  | 0, 0, h => by simp at h
  | 0, n + 1, _ => by simp [gapMore, gapLine, hS]
  | j + 1, 0, h => by simp at h
  | j + 1, n + 1, h => by
    have h1 : nlLen (0x0A :: (List.replicate j 0x0A ++ S)) = 1 := by
      apply nlLen_lf
      cases j with
      | zero => simpa using hc
      | succ j => simp [List.replicate_succ]
    have ih := gapMore_empty hS hc j n (by omega)
    rw [gapMore]
    simp only [gapLine, List.replicate_succ, List.cons_append, List.dropWhile, List.takeWhile, blank_nl.1,
      Bool.false_eq_true, if_false, h1, List.drop_succ_cons, List.drop_zero, ih]
    simp

theorem gapSpec_empty {S : Bytes} (hS : nlLen (S.dropWhile isBlank) = 0) (hc : ∀ r, S ≠ 0x0D :: r) (j : Nat) :
    gapSpec false (List.replicate (j + 1) 0x0A ++ S) = some (j + 1, List.replicate (j + 1) 0x0A, S) := by
  have h1 : nlLen (0x0A :: (List.replicate j 0x0A ++ S)) = 1 := by
    apply nlLen_lf
    cases j with
    | zero => simpa using hc
    | succ j => simp [List.replicate_succ]
  have := gapMore_empty hS hc j ((List.replicate j 0x0A ++ S).length + 1) (by simp; omega)
  simp only [gapSpec, gapLead, List.replicate_succ, List.cons_append, Bool.false_eq_true, if_false, h1,
    List.drop_succ_cons, List.drop_zero, this]
  simp

theorem nl_lf {X : Bytes} (h : ∀ r, X ≠ 0x0D :: r) (k : Ctx) (pre mid : Bytes) :
    nl (st k pre mid (0x0A :: X)) = (.ok (), st k pre (mid ++ [0x0A]) X) := by
  rw [nl_eq, nlLen_lf h]; simp

theorem wText_head (τ : Nat) (ls : WLines) (left : Bytes) :
    ∃ r, wText τ ls ++ 0x0A :: left = 0x0A :: r := by
  cases ls with
  | nil => exact ⟨left, rfl⟩
  | cons x ls => exact ⟨_, rfl⟩

theorem spaces_no_cr {τ : Nat} (hτ : 0 < τ) (R : Bytes) : ∀ r, spaces τ ++ R ≠ 0x0D :: r := by
  obtain ⟨t, rfl⟩ : ∃ t, τ = t + 1 := ⟨τ - 1, by omega⟩
  intro r; simp [spaces, List.replicate_succ]

theorem wrappedLoop_read {level τ : Nat} (hτ : 0 < τ) {sep : UInt8} {leading : Bool} {left : Bytes}
    (hl : nlLen left = 0) (hp : (spaces τ).isPrefixOf left = false) :
    ∀ (ls : WLines) (k : Ctx) (pre mid v : Bytes) (n : Nat), k.want level = τ → ls.length < n →
      (∀ x ∈ ls, WLine x.2) →
      wrappedLoop level sep leading n v (st k pre mid (wText τ ls ++ 0x0A :: left)) =
        (.ok (wVal sep leading v ls), st (k.at level) (pre ++ (mid ++ (wText τ ls ++ [0x0A]))) [] left)
  | _, _, _, _, _, 0, _, h, _ => by omega
  | [], k, pre, mid, v, n + 1, hw, _, _ => by
    have hcr : ∀ r, left ≠ 0x0D :: r := by
      rintro r rfl; rw [nlLen_zero_iff] at hl; exact absurd rfl (hl _ _ rfl).2
    have hg : gapSpec false left = none := by simp [gapSpec, gapLead, hl]
    simp only [wText, List.flatMap_nil, List.nil_append, wVal, List.foldl_nil]
    rw [wrappedLoop, bind_ok (nl_lf hcr ..), bind_ok (forward_st ..),
      bind_ok (isOk_err (ind_miss _ _ _ _ _ (by rw [hw]; exact hp)))]
    simp only [Bool.false_eq_true, if_false]
    rw [List.nil_append, bind_ok (try_err (by rw [gap_eq, hg]))]
    simp [gapLead]
  | (j, l) :: ls, k, pre, mid, v, n + 1, hw, hn, hls => by
    have hline := hls (j, l) (by simp)
    obtain ⟨r0, hr0⟩ := wText_head τ ls left
    have ih := wrappedLoop_read (level := level) hτ (sep := sep) (leading := leading) hl hp ls (k.at level)
    generalize hR : wText τ ls ++ 0x0A :: left = R at ih hr0
    have htxt : wText τ ((j, l) :: ls) ++ 0x0A :: left =
        0x0A :: (List.replicate j 0x0A ++ (spaces τ ++ (l ++ R))) := by
      simp [wText, ← hR]
    have tk := takeWhile_all (f := notIn b!"\n\r") (d := l) (fun x hx => by
      have := hline.noBreak x hx; simp [notIn, this.1, this.2]) R (by rintro c r h; rw [hr0] at h; cases h; decide)
    have fin : ∀ (v' m' p : Bytes), (do
        forward
        takeWhile (notIn b!"\n\r") (.more 0)
        let s ← text
        wrappedLoop level sep leading n (wrappedPush sep leading v' s) : PM Bytes)
        (st (k.at level) p m' (l ++ R)) =
        (.ok (wVal sep leading (wrappedPush sep leading v' l) ls),
          st (k.at level) (p ++ m' ++ (l ++ (wText τ ls ++ [0x0A]))) [] left) := by
      intro v' m' p
      rw [bind_ok (forward_st ..), bind_ok (takeWhile_more0 ..), tk.1, tk.2, bind_ok (text_st ..),
        List.nil_append, lossy_utf8 hline.utf8, ih _ _ _ _ (by simpa using hw) (by simp at hn; omega)
          (fun x hx => hls x (by simp [hx]))]
      simp
    rw [htxt]
    have e1 : wVal sep leading v ((j, l) :: ls) =
        wVal sep leading (wrappedPush sep leading (v ++ List.replicate j 0x0A) l) ls := rfl
    have e2 : wText τ ((j, l) :: ls) = 0x0A :: (List.replicate j 0x0A ++ (spaces τ ++ l)) ++ wText τ ls := by
      simp [wText]
    rw [e1, e2]
    cases j with
    | zero =>
      simp only [List.replicate_zero, List.nil_append, List.append_nil]
      rw [wrappedLoop, bind_ok (nl_lf (spaces_no_cr hτ _) ..), bind_ok (forward_st ..)]
      have hh := ind_hit k (pre ++ (mid ++ [0x0A])) [] (l ++ R) level
      rw [hw] at hh
      rw [bind_ok (isOk_ok hh)]
      simp only [if_true, List.nil_append]
      rw [fin]
      simp
    | succ j =>
      have hcr : ∀ r, List.replicate (j + 1) 0x0A ++ (spaces τ ++ (l ++ R)) ≠ 0x0D :: r := by
        simp [List.replicate_succ]
      rw [wrappedLoop, bind_ok (nl_lf hcr ..), bind_ok (forward_st ..)]
      rw [bind_ok (isOk_err (ind_miss _ _ _ _ _ ?_))]
      · simp only [Bool.false_eq_true, if_false, List.nil_append]
        rw [bind_ok (try_ok (by rw [gap_eq, gapSpec_empty (hline.stop τ R) (spaces_no_cr hτ _)]))]
        simp only
        have hh := ind_hit (k.at level) (pre ++ (mid ++ [0x0A])) ([] ++ List.replicate (j + 1) 0x0A) (l ++ R) level
        rw [Ctx.want_at, hw, Ctx.at_idem] at hh
        rw [bind_ok (isOk_ok hh)]
        simp only [if_true]
        rw [fin]
        simp
      · rw [hw]; exact spaces_not_prefix_cons hτ (by decide) _

theorem wText_length (τ : Nat) (ls : WLines) : ls.length ≤ (wText τ ls).length := by
  induction ls with
  | nil => simp
  | cons x ls ih => simp only [wText, List.flatMap_cons] at ih ⊢; simp only [List.length_append, List.length_cons]; omega

theorem stringWrapped_read {level τ : Nat} (hτ : 0 < τ) {sep : UInt8} {leading : Bool} {left : Bytes}
    (hl : nlLen left = 0) (hp : (spaces τ).isPrefixOf left = false) (ls : WLines) (k : Ctx) (pre mid : Bytes)
    (hw : k.want level = τ) (hls : ∀ x ∈ ls, WLine x.2) :
    stringWrapped level sep leading (st k pre mid (wText τ ls ++ 0x0A :: left)) =
      (.ok (wVal sep leading [] ls ++ [0x0A]), st (k.at level) pre (mid ++ wText τ ls) (0x0A :: left)) := by
  have hlen := wText_length τ ls
  have h := wrappedLoop_read hτ (sep := sep) (leading := leading) hl hp ls k (pre ++ mid) [] []
    ((wText τ ls ++ 0x0A :: left).length + 1) hw (by simp; omega) hls
  have e0 : ({ st k pre mid (wText τ ls ++ 0x0A :: left) with
      eaten := (st k pre mid (wText τ ls ++ 0x0A :: left)).pos } : Parser) =
      st k (pre ++ mid) [] (wText τ ls ++ 0x0A :: left) := by simp [st]
  simp only [stringWrapped, context, e0, bind_run, get_run, st_rest, h]
  simp only [back, st_pos, List.length_append, List.length_nil, List.length_singleton]
  rw [if_pos (by omega)]
  simp [st]
  omega


/-! ## The value of a block scalar -/

/-- The text of a block scalar behind its header: each line on its own line,
indented by `τ`; empty lines are really empty. -/
def blockLines (τ : Nat) (ls : List Bytes) : Bytes :=
  ls.flatMap fun l => 0x0A :: (if l = [] then [] else spaces τ ++ l)

/-- The lines of a literal block, joined by line feeds. -/
def literalValue : List Bytes → Bytes
  | [] => []
  | [l] => l
  | l :: m :: ls => l ++ 0x0A :: literalValue (m :: ls)

/-- The lines of a folded block: a single line break turns into a blank, `n`
empty lines turn into `n` line feeds. -/
def foldedValue : List Bytes → Bytes
  | [] => []
  | [l] => l
  | l :: m :: ls =>
    if l = [] then 0x0A :: foldedValue (m :: ls)
    else if m = [] then l ++ foldedValue (m :: ls)
    else l ++ 0x20 :: foldedValue (m :: ls)

def groupLines : Nat → List Bytes → WLines
  | _, [] => []
  | j, l :: ls => if l = [] then groupLines (j + 1) ls else (j, l) :: groupLines 0 ls

theorem wText_group (τ : Nat) : ∀ (ls : List Bytes) (j : Nat), ls.getLast? ≠ some [] → (ls = [] → j = 0) →
    wText τ (groupLines j ls) = List.replicate j 0x0A ++ blockLines τ ls
  | [], j, _, h => by simp [h rfl, groupLines, wText, blockLines]
  | l :: ls, j, hl, _ => by
    by_cases hn : l = []
    · subst hn
      have hls : ls ≠ [] := by rintro rfl; simp at hl
      have hl' : ls.getLast? ≠ some [] := by
        cases ls with
        | nil => simp at hls
        | cons a ls => simpa [List.getLast?_cons_cons] using hl
      have := wText_group τ ls (j + 1) hl' (fun h => absurd h hls)
      simp only [groupLines, if_true, this, blockLines, List.flatMap_cons]
      simp [List.replicate_succ']
    · have hl' : ls.getLast? ≠ some [] := by
        cases ls with
        | nil => simp
        | cons a ls => simpa [List.getLast?_cons_cons] using hl
      have := wText_group τ ls 0 hl' (fun _ => rfl)
      simp only [groupLines, hn, if_false]
      have e : wText τ ((j, l) :: groupLines 0 ls) =
          0x0A :: (List.replicate j 0x0A ++ (spaces τ ++ l)) ++ wText τ (groupLines 0 ls) := by simp [wText]
      rw [e, this]
      simp only [blockLines, List.flatMap_cons, hn, if_false, List.replicate_zero, List.nil_append]
      rw [← List.cons_append, ← List.replicate_succ, List.replicate_succ']
      simp

theorem groupLines_lines : ∀ (ls : List Bytes) (j : Nat) (P : Bytes → Prop), (∀ l ∈ ls, l ≠ [] → P l) →
    ∀ x ∈ groupLines j ls, P x.2
  | [], _, _, _ => by simp [groupLines]
  | l :: ls, j, P, h => by
    by_cases hn : l = []
    · simp only [groupLines, hn, if_true]
      exact groupLines_lines ls (j + 1) P (fun m hm => h m (by simp [hm]))
    · simp only [groupLines, hn, if_false, List.mem_cons]
      rintro x (rfl | hx)
      · exact h l (by simp) hn
      · exact groupLines_lines ls 0 P (fun m hm => h m (by simp [hm])) x hx

theorem wVal_literal : ∀ (ls : List Bytes) (j : Nat) (v : Bytes), ls.getLast? ≠ some [] → (ls = [] → j = 0) →
    v ≠ [] → wVal 0x0A true v (groupLines j ls) = v ++ List.replicate j 0x0A ++ ls.flatMap (fun l => 0x0A :: l)
  | [], j, v, _, h, _ => by simp [h rfl, groupLines, wVal]
  | l :: ls, j, v, hl, _, hv => by
    by_cases hn : l = []
    · subst hn
      have hls : ls ≠ [] := by rintro rfl; simp at hl
      have hl' : ls.getLast? ≠ some [] := by
        cases ls with
        | nil => simp at hls
        | cons a ls => simpa [List.getLast?_cons_cons] using hl
      have := wVal_literal ls (j + 1) v hl' (fun h => absurd h hls) hv
      simp only [groupLines, if_true, this]
      simp [List.replicate_succ']
    · have hl' : ls.getLast? ≠ some [] := by
        cases ls with
        | nil => simp
        | cons a ls => simpa [List.getLast?_cons_cons] using hl
      have := wVal_literal ls 0 (v ++ List.replicate j 0x0A ++ 0x0A :: l) hl' (fun _ => rfl) (by simp)
      simp only [groupLines, hn, if_false]
      have e : wVal 0x0A true v ((j, l) :: groupLines 0 ls) =
          wVal 0x0A true (wrappedPush 0x0A true (v ++ List.replicate j 0x0A) l) (groupLines 0 ls) := rfl
      have e2 : wrappedPush 0x0A true (v ++ List.replicate j 0x0A) l = v ++ List.replicate j 0x0A ++ 0x0A :: l := by
        have : (v ++ List.replicate j 0x0A).isEmpty = false := by simp [hv]
        simp only [wrappedPush, this]; simp
      rw [e, e2, this]; simp

theorem literalValue_cons (l : Bytes) : ∀ ls : List Bytes,
    literalValue (l :: ls) = l ++ ls.flatMap (fun l => 0x0A :: l)
  | [] => by simp [literalValue]
  | m :: ls => by rw [literalValue, literalValue_cons m ls]; simp

theorem wVal_literal_top {l : Bytes} {ls : List Bytes} (hl : l ≠ []) (hlast : (l :: ls).getLast? ≠ some []) :
    wVal 0x0A true [] (groupLines 0 (l :: ls)) = literalValue (l :: ls) := by
  have hl' : ls.getLast? ≠ some [] := by
    cases ls with
    | nil => simp
    | cons a ls => simpa [List.getLast?_cons_cons] using hlast
  simp only [groupLines, hl, if_false]
  have e : wVal 0x0A true [] ((0, l) :: groupLines 0 ls) = wVal 0x0A true l (groupLines 0 ls) := by
    simp [wVal, wrappedPush]
  rw [e, wVal_literal ls 0 l hl' (fun _ => rfl) hl, literalValue_cons]; simp

/-- What folding appends behind a line: `first` tells that the break has not been
written yet. -/
def foldTail : Nat → List Bytes → Bytes
  | _, [] => []
  | j, l :: ls =>
    if l = [] then foldTail (j + 1) ls
    else (if j = 0 then [0x20] else List.replicate j 0x0A) ++ l ++ foldTail 0 ls

theorem wVal_folded : ∀ (ls : List Bytes) (j : Nat) (v : Bytes), (∀ l ∈ ls, l ≠ [] → Utf8 l ∧
      trimStart l = l ∧ endsWithWs l = false) → v ≠ [] → endsWithWs v = false →
    wVal 0x20 false v (groupLines j ls) = v ++ foldTail j ls
  | [], j, v, _, _, _ => by simp [groupLines, wVal, foldTail]
  | l :: ls, j, v, hl, hv, hw => by
    by_cases hn : l = []
    · subst hn
      have := wVal_folded ls (j + 1) v (fun m hm => hl m (by simp [hm])) hv hw
      simp only [groupLines, if_true, this, foldTail]
    · obtain ⟨hu, ht, he⟩ := hl l (by simp) hn
      simp only [groupLines, hn, if_false, foldTail]
      have e : wVal 0x20 false v ((j, l) :: groupLines 0 ls) =
          wVal 0x20 false (wrappedPush 0x20 false (v ++ List.replicate j 0x0A) l) (groupLines 0 ls) := rfl
      have e2 : wrappedPush 0x20 false (v ++ List.replicate j 0x0A) l =
          v ++ ((if j = 0 then [0x20] else List.replicate j 0x0A) ++ l) := by
        have : (v ++ List.replicate j 0x0A).isEmpty = false := by simp [hv]
        simp only [wrappedPush, this, ht]
        cases j with
        | zero => simp [hw]
        | succ j =>
          have : endsWithWs (v ++ List.replicate (j + 1) 0x0A) = true := by
            rw [List.replicate_succ', ← List.append_assoc]
            simp [endsWithWs]; left; decide
          simp [this]
      rw [e, e2, wVal_folded ls 0 _ (fun m hm => hl m (by simp [hm])) (by simp [hv])]
      · simp
      · rw [← List.append_assoc, endsWithWs_append hu hn, he]

theorem foldTail_folded : ∀ (ls : List Bytes) (l : Bytes), (l :: ls).getLast? ≠ some [] →
    (l ≠ [] → foldedValue (l :: ls) = l ++ foldTail 0 ls) ∧
    (∀ j, l = [] → List.replicate j 0x0A ++ foldedValue (l :: ls) = foldTail (j + 1) ls)
  | [], l, h => by
    refine ⟨fun _ => by simp [foldedValue, foldTail], ?_⟩
    rintro j rfl; simp at h
  | m :: ls, l, h => by
    have ih := foldTail_folded ls m (by simpa [List.getLast?_cons_cons] using h)
    by_cases hm : m = []
    · subst hm
      constructor
      · intro hl
        have := ih.2 0 rfl
        rw [foldedValue]
        simp only [hl, if_false, if_true]
        rw [foldTail]; simp only [if_true]
        rw [← this]; simp
      · rintro j rfl
        have := ih.2 (j + 1) rfl
        rw [foldedValue]
        simp only [if_true]
        rw [foldTail]; simp only [if_true]
        rw [← this, List.replicate_succ']; simp
    · have ih := ih.1 hm
      constructor
      · intro hl
        rw [foldedValue]
        simp only [hl, hm, if_false]
        rw [foldTail]; simp only [hm, if_false, if_true, ih]; simp
      · rintro j rfl
        rw [foldedValue]
        simp only [if_true]
        rw [foldTail, ih]; simp only [hm, if_false]
        rw [if_neg (by omega), List.replicate_succ']; simp

theorem wVal_folded_top {l : Bytes} {ls : List Bytes} (hl : l ≠ []) (hlast : (l :: ls).getLast? ≠ some [])
    (h : ∀ m ∈ l :: ls, m ≠ [] → Utf8 m ∧ trimStart m = m ∧ endsWithWs m = false) :
    wVal 0x20 false [] (groupLines 0 (l :: ls)) = foldedValue (l :: ls) := by
  obtain ⟨hu, ht, he⟩ := h l (by simp) hl
  simp only [groupLines, hl, if_false]
  have e : wVal 0x20 false [] ((0, l) :: groupLines 0 ls) = wVal 0x20 false l (groupLines 0 ls) := by
    simp [wVal, wrappedPush, ht]
  rw [e, wVal_folded ls 0 l (fun m hm => h m (by simp [hm])) hl he, (foldTail_folded ls l hlast).1 hl]

/-! ## The last line of the value -/

theorem literalValue_last : ∀ (ls : List Bytes) {t : Bytes}, ls.getLast? = some t →
    ∃ a, literalValue ls = a ++ t
  | [], t, h => by simp at h
  | [l], t, h => by simp at h; subst h; exact ⟨[], rfl⟩
  | l :: m :: ls, t, h => by
    obtain ⟨a, ha⟩ := literalValue_last (m :: ls) (t := t) (by simpa [List.getLast?_cons_cons] using h)
    exact ⟨l ++ 0x0A :: a, by simp [literalValue, ha]⟩

theorem foldedValue_last : ∀ (ls : List Bytes) {t : Bytes}, ls.getLast? = some t →
    ∃ a, foldedValue ls = a ++ t
  | [], t, h => by simp at h
  | [l], t, h => by simp at h; subst h; exact ⟨[], rfl⟩
  | l :: m :: ls, t, h => by
    obtain ⟨a, ha⟩ := foldedValue_last (m :: ls) (t := t) (by simpa [List.getLast?_cons_cons] using h)
    rw [foldedValue, ha]
    split
    · exact ⟨0x0A :: a, by simp⟩
    · split
      · exact ⟨l ++ a, by simp⟩
      · exact ⟨l ++ 0x20 :: a, by simp⟩

/-! ## Block scalars -/

/-- How a block scalar treats the line feeds at its end. -/
def Chomp.mark : Chomp → Bytes
  | .strip => b!"-" | .keep => b!"+" | .clip => []

def Chomp.ends : Chomp → Bytes
  | .strip => [] | _ => [0x0A]

/-- Lines of a block scalar that are read verbatim: the first and the last have
content, the others may be empty; the last one does not end in white space. -/
structure BlockScalar (ls : List Bytes) : Prop where
  first : ∃ l r, ls = l :: r ∧ l ≠ []
  last : ∃ l, ls.getLast? = some l ∧ l ≠ [] ∧ endsWithWs l = false
  lines : ∀ l ∈ ls, l ≠ [] → WLine l

/-- Lines that a folded block joins. -/
structure FoldedLines (ls : List Bytes) : Prop where
  lines : ∀ l ∈ ls, l ≠ [] → trimStart l = l ∧ endsWithWs l = false

theorem Chomp.apply_line (c : Chomp) {v : Bytes} (h : endsWithWs v = false) :
    c.apply (v ++ [0x0A]) = v ++ c.ends := by
  have : trimEnd (v ++ [0x0A]) = v := by
    rw [trimEnd_ws (by simp; decide), trimEnd_of_endsWithWs h]
  cases c <;> simp [Chomp.apply, Chomp.ends, this]

theorem chomp_read (c : Chomp) (k : Ctx) (pre mid : Bytes) {X : Bytes} (hX : ∃ r, X = 0x0A :: r) :
    ∃ p m, p ++ m = pre ++ mid ++ c.mark ∧
      chomp (st k pre mid (c.mark ++ X)) = (.ok c, st k p m X) := by
  obtain ⟨r, rfl⟩ := hX
  refine ⟨pre, mid ++ c.mark, by simp, ?_⟩
  unfold chomp
  cases c with
  | strip =>
    refine context_st (p' := []) (m' := b!"-") ?_
    rw [show (Chomp.strip.mark : Bytes) ++ 0x0A :: r = 0x2D :: 0x0A :: r from rfl,
      bind_ok (isOk_ok (sym_hit ..))]
    simp
  | keep =>
    refine context_st (p' := []) (m' := b!"+") ?_
    rw [show (Chomp.keep.mark : Bytes) ++ 0x0A :: r = 0x2B :: 0x0A :: r from rfl,
      bind_ok (isOk_err (sym_miss _ _ _ _ _ _ (by decide)))]
    simp only [Bool.false_eq_true, if_false, List.nil_append]
    rw [bind_ok (isOk_ok (sym_hit ..))]
    simp
  | clip =>
    refine context_st (p' := []) (m' := []) ?_
    rw [show (Chomp.clip.mark : Bytes) ++ 0x0A :: r = 0x0A :: r from rfl,
      bind_ok (isOk_err (sym_miss _ _ _ _ _ _ (by decide)))]
    simp only [Bool.false_eq_true, if_false, List.nil_append]
    rw [bind_ok (isOk_err (sym_miss _ _ _ _ _ _ (by decide)))]
    simp

theorem BlockScalar.group {ls : List Bytes} (h : BlockScalar ls) (τ : Nat) :
    wText τ (groupLines 0 ls) = blockLines τ ls ∧ (∀ x ∈ groupLines 0 ls, WLine x.2) ∧
      ls.getLast? ≠ some [] := by
  obtain ⟨t, ht, hne, _⟩ := h.last
  have hl : ls.getLast? ≠ some [] := by rw [ht]; simpa using hne
  refine ⟨?_, groupLines_lines ls 0 _ h.lines, hl⟩
  simpa using wText_group τ ls 0 hl (fun _ => rfl)

theorem blockLines_head {ls : List Bytes} (h : ls ≠ []) (τ : Nat) (E : Bytes) :
    ∃ r, blockLines τ ls ++ E = 0x0A :: r := by
  cases ls with
  | nil => simp at h
  | cons l ls => exact ⟨_, rfl⟩

theorem blockScalar_body {τ : Nat} (hτ : 0 < τ) {ls : List Bytes} (h : BlockScalar ls) (c : Chomp)
    {sep : UInt8} {leading : Bool} {v : Bytes} (hv : wVal sep leading [] (groupLines 0 ls) = v)
    (hve : endsWithWs v = false) (k : Ctx) (pre mid : Bytes) (level : Nat) (hw : k.want level = τ) {E : Bytes}
    (hE : Fits (.lit τ) E) :
    ∃ p m, p ++ m = pre ++ mid ++ c.mark ++ blockLines τ ls ∧
      (do
        let c ← chomp
        ws (.more 0)
        let s ← stringWrapped level sep leading
        pure (c.apply s) : PM Bytes) (st k pre mid (c.mark ++ (blockLines τ ls ++ E))) =
        (.ok (v ++ c.ends), st (k.at level) p m E) := by
  obtain ⟨left, rfl, hl, hp⟩ := hE
  obtain ⟨g1, g2, _⟩ := h.group τ
  have hne : ls ≠ [] := by obtain ⟨l, r, rfl, _⟩ := h.first; simp
  obtain ⟨p, m, hpm, hch⟩ := chomp_read c k pre mid (blockLines_head hne τ (0x0A :: left))
  refine ⟨p, m ++ blockLines τ ls, by rw [← hpm]; simp, ?_⟩
  rw [bind_ok hch]
  obtain ⟨r, hr⟩ := blockLines_head hne τ (0x0A :: left)
  have hws : ws (.more 0) (st k p m (blockLines τ ls ++ 0x0A :: left)) =
      (.ok (), st k p m (blockLines τ ls ++ 0x0A :: left)) := by
    rw [hr]; simp [List.takeWhile, List.dropWhile, blank_nl.1]
  rw [bind_ok hws, ← g1, bind_ok (stringWrapped_read hτ hl hp _ _ _ _ hw g2), hv]
  rw [pure_run, c.apply_line hve]

theorem BlockScalar.literal {τ : Nat} (hτ : 0 < τ) {ls : List Bytes} (h : BlockScalar ls) (c : Chomp) :
    LitOK τ (0x7C :: (c.mark ++ blockLines τ ls)) (literalValue ls ++ c.ends) := by
  refine ⟨⟨_, .inl rfl⟩, ?_⟩
  intro k level E sc n map L pre hw hE
  have hlast := (h.group τ).2.2
  obtain ⟨l0, r0, rfl, hl0⟩ := h.first
  obtain ⟨t, ht, htne, hte⟩ := h.last
  obtain ⟨a, ha⟩ := literalValue_last _ ht
  have hve : endsWithWs (literalValue (l0 :: r0)) = false := by
    rw [ha, endsWithWs_append (h.lines t (List.mem_of_getLast? ht) htne).utf8 htne, hte]
  obtain ⟨p, m, hpm, hb⟩ := blockScalar_body hτ h c (wVal_literal_top hl0 hlast) hve k pre [0x7C] level hw hE
  refine ⟨p, m, by rw [hpm]; simp, ?_⟩
  have : stringLiteral level (st k pre [] (0x7C :: (c.mark ++ blockLines τ (l0 :: r0)) ++ E)) =
      (.ok (literalValue (l0 :: r0) ++ c.ends), st (k.at level) p m E) := by
    rw [stringLiteral, List.cons_append, bind_ok (sym_hit ..)]
    simpa using hb
  rw [scalarBody, bind_ok (try_ok (lift_of this))]
  rfl

theorem BlockScalar.folded {τ : Nat} (hτ : 0 < τ) {ls : List Bytes} (h : BlockScalar ls) (hf : FoldedLines ls)
    (c : Chomp) :
    LitOK τ (0x3E :: (c.mark ++ blockLines τ ls)) (foldedValue ls ++ c.ends) := by
  refine ⟨⟨_, .inr rfl⟩, ?_⟩
  intro k level E sc n map L pre hw hE
  have hlast := (h.group τ).2.2
  obtain ⟨l0, r0, rfl, hl0⟩ := h.first
  obtain ⟨t, ht, htne, hte⟩ := h.last
  obtain ⟨a, ha⟩ := foldedValue_last _ ht
  have hve : endsWithWs (foldedValue (l0 :: r0)) = false := by
    rw [ha, endsWithWs_append (h.lines t (List.mem_of_getLast? ht) htne).utf8 htne, hte]
  obtain ⟨p, m, hpm, hb⟩ := blockScalar_body hτ h c
    (wVal_folded_top hl0 hlast (fun m hm hne => ⟨(h.lines m hm hne).utf8, hf.lines m hm hne⟩)) hve k pre [0x3E] level hw hE
  refine ⟨p, m, by rw [hpm]; simp, ?_⟩
  have h1 : stringLiteral level (st k pre [] (0x3E :: (c.mark ++ blockLines τ (l0 :: r0)) ++ E)) =
      (.err .mismatch, st k pre [] (0x3E :: (c.mark ++ blockLines τ (l0 :: r0)) ++ E)) := by
    rw [stringLiteral, List.cons_append, bind_err (sym_miss _ _ _ _ _ _ (by decide))]; simp
  have : stringFolded level (st k pre [] (0x3E :: (c.mark ++ blockLines τ (l0 :: r0)) ++ E)) =
      (.ok (foldedValue (l0 :: r0) ++ c.ends), st (k.at level) p m E) := by
    rw [stringFolded, List.cons_append, bind_ok (sym_hit ..)]
    simpa using hb
  rw [scalarBody, bind_ok (try_err (lift_of h1))]
  simp only
  rw [bind_ok (try_ok (lift_of this))]
  rfl

end YamlPeg
