import Verif.Proof.TreeRead
/-! # Concrete gaps: empty lines and comment lines -/

namespace YamlPeg
open M

/-- A line that carries no content: empty, or a comment after blanks. -/
def IdleLine (l : Bytes) : Prop :=
  l = [] ∨ ∃ b c, l = b ++ 0x23 :: c ∧ (∀ x ∈ b, isBlank x = true) ∧ (∀ x ∈ c, x ≠ 0x0A ∧ x ≠ 0x0D)

/-- Lines, each closed by the line break `nl`. -/
def gapLines (nl : Bytes) : List Bytes → Bytes
  | [] => []
  | l :: ls => l ++ (nl ++ gapLines nl ls)

/-- Line feed, or carriage return and line feed. -/
def LineBreak (nl : Bytes) : Prop := nl = [0x0A] ∨ nl = [0x0D, 0x0A]

/-- Text at which a gap ends. -/
def GapStop (left : Bytes) : Prop := left = [] ∨ ∃ j c r, left = spaces j ++ c :: r ∧ tokHead c = true

theorem blank_nl : isBlank 0x0A = false ∧ isBlank 0x0D = false := by decide

theorem isBlank_space : isBlank 0x20 = true := by decide

/-- Nothing to skip in front of a line break. -/
theorem cmtSkip_nl {nl : Bytes} (h : LineBreak nl) (r : Bytes) : cmtSkip (nl ++ r) = ([], nl ++ r) := by
  rcases h with rfl | rfl
  · simp [cmtSkip, List.dropWhile, blank_nl.1]
  · simp [cmtSkip, List.dropWhile, blank_nl.2]

theorem cmtSkip_idle {l nl : Bytes} (hl : IdleLine l) (h : LineBreak nl) (r : Bytes) :
    cmtSkip (l ++ (nl ++ r)) = (l, nl ++ r) := by
  rcases hl with rfl | ⟨b, c, rfl, hb, hc⟩
  · exact cmtSkip_nl h r
  · have t := takeWhile_all hb (0x23 :: (c ++ (nl ++ r))) (by rintro _ _ ⟨⟩; decide)
    have hn : ∀ x s, nl ++ r = x :: s → notIn b!"\n\r" x = false := by
      rcases h with rfl | rfl <;> (rintro x s ⟨⟩; decide)
    have t2 := takeWhile_all (f := notIn b!"\n\r") (d := c) (by
      intro x hx; have := hc x hx; simp [notIn, this.1, this.2]) (nl ++ r) hn
    have e : b ++ 0x23 :: c ++ (nl ++ r) = b ++ 0x23 :: (c ++ (nl ++ r)) := by simp
    simp only [cmtSkip, e]
    rw [t.2, t.1]
    simp only [t2.1, t2.2]

theorem nlLen_crlf (r : Bytes) : nlLen (0x0D :: 0x0A :: r) = 2 := by rw [nlLen]

theorem nlLen_lf {r : Bytes} (h : ∀ s, r ≠ 0x0D :: s) : nlLen (0x0A :: r) = 1 := by
  cases r with
  | nil => rfl
  | cons x s =>
    have : x ≠ 0x0D := by rintro rfl; exact h s rfl
    unfold nlLen
    split
    · simp_all
    · simp_all
    · rfl
    · simp_all
    · simp_all

theorem GapStop.no_cr {left : Bytes} (h : GapStop left) : ∀ s, left ≠ 0x0D :: s := by
  rintro s rfl
  rcases h with h | ⟨j, c, r, h, hc⟩
  · simp at h
  · cases j with
    | zero => simp [spaces] at h; exact (tokHead_ne hc).2.2.1 h.1.symm
    | succ j => simp [spaces, List.replicate_succ] at h

theorem IdleLine.no_cr {l : Bytes} (h : IdleLine l) {r : Bytes} (hr : ∀ s, r ≠ 0x0D :: s) :
    ∀ s, l ++ r ≠ 0x0D :: s := by
  intro s
  rcases h with rfl | ⟨b, c, rfl, hb, hc⟩
  · exact hr s
  · cases b with
    | nil => simp
    | cons x b =>
      intro h
      simp at h
      have := hb x (by simp)
      rw [h.1] at this
      revert this; decide

theorem gapLines_no_cr {ls : List Bytes} (hls : ∀ l ∈ ls, IdleLine l) {left : Bytes} (h : GapStop left) :
    ∀ s, gapLines [0x0A] ls ++ left ≠ 0x0D :: s := by
  cases ls with
  | nil => exact h.no_cr
  | cons l ls =>
    rw [gapLines, List.append_assoc]
    exact IdleLine.no_cr (hls l (by simp)) (by simp)

theorem nlLen_gapLines {nl : Bytes} (hnl : LineBreak nl) {ls : List Bytes} (hls : ∀ l ∈ ls, IdleLine l)
    {left : Bytes} (h : GapStop left) : nlLen (nl ++ (gapLines nl ls ++ left)) = nl.length := by
  rcases hnl with rfl | rfl
  · exact nlLen_lf (gapLines_no_cr hls h)
  · exact nlLen_crlf _

theorem GapStop.cmtSkip {left : Bytes} (h : GapStop left) : nlLen (cmtSkip left).2 = 0 := by
  have h0 : nlLen left = 0 := by
    rw [nlLen_zero_iff]
    rintro c s rfl
    rcases h with h | ⟨j, c', r, h, hc⟩
    · simp at h
    · cases j with
      | zero =>
        simp [spaces] at h; obtain ⟨rfl, rfl⟩ := h
        exact ⟨(tokHead_ne hc).2.1, (tokHead_ne hc).2.2.1⟩
      | succ j =>
        simp [spaces, List.replicate_succ] at h
        obtain ⟨rfl, _⟩ := h
        decide
  have e : YamlPeg.cmtSkip left = ([], left) := by
    rcases h with rfl | ⟨j, c, r, rfl, hc⟩
    · rfl
    · have t := takeWhile_all (f := isBlank) (d := spaces j) (by
        intro x hx; simp [spaces] at hx; rw [hx.2]; decide) (c :: r)
        (by rintro _ _ ⟨⟩; exact tokHead_blank hc)
      simp only [YamlPeg.cmtSkip]
      rw [t.2]
      split
      · rename_i heq; simp at heq; exact absurd heq.1 (tokHead_ne hc).1
      · rfl
  rw [e]; exact h0

theorem gapMore_lines {nl : Bytes} (hnl : LineBreak nl) {left : Bytes} (h : GapStop left) :
    ∀ (ls : List Bytes) (n : Nat), (∀ l ∈ ls, IdleLine l) → ls.length < n →
      gapMore true n (gapLines nl ls ++ left) = (ls.length, gapLines nl ls, left)
  | [], 0, _, hn => by simp at hn
  | [], n + 1, _, _ => by
    have := h.cmtSkip
    simp [gapMore, gapLine, gapLines, this]
  | l :: ls, 0, _, hn => by simp at hn
  | l :: ls, n + 1, hls, hn => by
    have hls' : ∀ l ∈ ls, IdleLine l := fun x hx => hls x (by simp [hx])
    have e : gapLines nl (l :: ls) ++ left = l ++ (nl ++ (gapLines nl ls ++ left)) := by
      simp [gapLines]
    have hc := cmtSkip_idle (hls l (by simp)) hnl (gapLines nl ls ++ left)
    have h1 := nlLen_gapLines hnl hls' h
    have h0 : nl.length ≠ 0 := by rcases hnl with rfl | rfl <;> simp
    rw [e, gapMore]
    simp only [gapLine, if_true, hc, h1, h0, if_false, List.drop_left, List.take_left]
    rw [gapMore_lines hnl h ls n hls' (by simp at hn; omega)]
    simp [gapLines]

theorem length_gapLines {nl : Bytes} (hnl : LineBreak nl) (ls : List Bytes) :
    ls.length ≤ (gapLines nl ls).length := by
  have h0 : 0 < nl.length := by rcases hnl with rfl | rfl <;> simp
  induction ls with
  | nil => simp
  | cons l ls ih => simp [gapLines]; omega

/-- The text of a gap: at least one line. -/
theorem gapSpec_lines {nl : Bytes} (hnl : LineBreak nl) {ls : List Bytes} (hne : ls ≠ [])
    (hls : ∀ l ∈ ls, IdleLine l) {left : Bytes} (h : GapStop left) :
    gapSpec true (gapLines nl ls ++ left) = some (ls.length, gapLines nl ls, left) := by
  obtain ⟨l, ls, rfl⟩ := List.exists_cons_of_ne_nil hne
  have hls' : ∀ l ∈ ls, IdleLine l := fun x hx => hls x (by simp [hx])
  have e : gapLines nl (l :: ls) ++ left = l ++ (nl ++ (gapLines nl ls ++ left)) := by
    simp [gapLines]
  have hc := cmtSkip_idle (hls l (by simp)) hnl (gapLines nl ls ++ left)
  have h1 := nlLen_gapLines hnl hls' h
  have h0 : nl.length ≠ 0 := by rcases hnl with rfl | rfl <;> simp
  have hl := length_gapLines hnl ls
  rw [e, gapSpec]
  simp only [gapLead, if_true, hc, h1, h0, if_false, List.drop_left, List.take_left]
  rw [gapMore_lines hnl h ls _ hls' (by simp; omega)]
  simp [gapLines]

/-- Empty lines and comment lines are a gap. -/
theorem gapText_lines {nl : Bytes} (hnl : LineBreak nl) {ls : List Bytes} (hne : ls ≠ [])
    (hls : ∀ l ∈ ls, IdleLine l) : GapText (gapLines nl ls) := by
  intro left hl
  exact ⟨_, gapSpec_lines hnl hne hls (.inr hl)⟩

/-- A gap at the end of the input. -/
def EndGap (G : Bytes) : Prop := ∃ t, gapSpec true G = some (t, G, [])

theorem endGap_lines {nl : Bytes} (hnl : LineBreak nl) {ls : List Bytes} (hne : ls ≠ [])
    (hls : ∀ l ∈ ls, IdleLine l) : EndGap (gapLines nl ls) := by
  have := gapSpec_lines hnl hne hls (.inl rfl)
  rw [List.append_nil] at this
  exact ⟨_, this⟩

theorem gapText_newline : GapText [0x0A] :=
  gapText_lines (ls := [[]]) (.inl rfl) (by simp) (by simp [IdleLine])

theorem endGap_newline : EndGap [0x0A] :=
  endGap_lines (ls := [[]]) (.inl rfl) (by simp) (by simp [IdleLine])

end YamlPeg
