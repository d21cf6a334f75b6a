import Verif.Proof.Sim
import Verif.Proof.RunsQ
import Verif.Proof.Gaps
import Verif.Spec.LineEnds
/-!
# The same text with other line endings

The runs over `D` and over `D` with `\r\n` (or `\r`) for each `\n` do the same.
-/

namespace YamlPeg
open M

/-- The line endings treated here. -/
def Ending (e : Bytes) : Prop := e = [0x0D] ∨ e = [0x0D, 0x0A]

section lists
variable {e : Bytes}

theorem wb_append (e : Bytes) : ∀ a b : Bytes, withBreaks e (a ++ b) = withBreaks e a ++ withBreaks e b
  | [], _ => rfl
  | c :: r, b => by simp only [List.cons_append, withBreaks, wb_append e r b, List.append_assoc]

theorem wb_cons {c : UInt8} (h : c ≠ 0x0A) (r : Bytes) : withBreaks e (c :: r) = c :: withBreaks e r := by
  simp [withBreaks, h]

theorem wb_nl (r : Bytes) : withBreaks e (0x0A :: r) = e ++ withBreaks e r := by simp [withBreaks]

theorem wb_same : ∀ {w : Bytes}, (∀ x ∈ w, x ≠ 0x0A) → withBreaks e w = w
  | [], _ => rfl
  | c :: r, h => by rw [wb_cons (h c (by simp)), wb_same fun x hx => h x (by simp [hx])]

/-- What is left in the two texts; in the middle of a `\r\n` when `m`. -/
def RR (e : Bytes) (m : Bool) (b b' : Bytes) : Prop :=
  b' = withBreaks e b ∨ (m = true ∧ e = [0x0D, 0x0A] ∧ ∃ c, b = 0x0A :: c ∧ b' = 0x0A :: withBreaks e c)

variable {m : Bool}

theorem RR.nil (he : Ending e) {b b' : Bytes} (h : RR e m b b') : b = [] ↔ b' = [] := by
  rcases h with rfl | ⟨_, _, c, rfl, rfl⟩
  · cases b with
    | nil => simp [withBreaks]
    | cons x r =>
      by_cases hx : x = 0x0A
      · subst hx; rw [wb_nl]; rcases he with rfl | rfl <;> simp
      · rw [wb_cons hx]; simp
  · simp

/-- The two heads: the same, or both a line break. -/
theorem RR.head (he : Ending e) {b b' : Bytes} (h : RR e m b b') :
    (b = [] ∧ b' = []) ∨ (∃ c r, c ≠ 0x0A ∧ b = c :: r ∧ b' = c :: withBreaks e r) ∨
      (∃ r x r', b = 0x0A :: r ∧ b' = x :: r' ∧ (x = 0x0A ∨ x = 0x0D)) := by
  rcases h with rfl | ⟨_, _, c, rfl, rfl⟩
  · cases b with
    | nil => exact .inl ⟨rfl, rfl⟩
    | cons x r =>
      by_cases hx : x = 0x0A
      · subst hx
        rw [wb_nl]
        rcases he with rfl | rfl
        · exact .inr (.inr ⟨r, _, _, rfl, rfl, .inr rfl⟩)
        · exact .inr (.inr ⟨r, _, _, rfl, rfl, .inr rfl⟩)
      · rw [wb_cons hx]
        exact .inr (.inl ⟨x, r, hx, rfl, rfl⟩)
  · exact .inr (.inr ⟨c, _, _, rfl, rfl, .inl rfl⟩)

theorem RR.reg {b : Bytes} : RR e m b (withBreaks e b) := .inl rfl

/-- Bytes other than line breaks are taken alike. -/
theorem RR.take (he : Ending e) {f : UInt8 → Bool} (h1 : f 0x0A = false) (h2 : f 0x0D = false) (opt : TakeOpt) :
    ∀ {b b' : Bytes} (_ : RR e m b b') (k : Nat), ∃ w c c', b = w ++ c ∧ b' = w ++ c' ∧ RR e m c c' ∧ (w = [] ∨ c' = withBreaks e c) ∧
      (∀ x ∈ w, f x = true) ∧ takeCount f opt b k = k + w.length ∧ takeCount f opt b' k = k + w.length := by
  intro b
  induction b with
  | nil =>
    intro b' h k
    obtain rfl := (h.nil he).1 rfl
    exact ⟨[], [], [], rfl, rfl, h, .inl rfl, by simp, rfl, rfl⟩
  | cons x r ih =>
    intro b' h k
    rcases h.head he with ⟨h3, -⟩ | ⟨c, q, hc, hb, rfl⟩ | ⟨q, y, q', hb, rfl, hy⟩
    · simp at h3
    · simp only [List.cons.injEq] at hb
      obtain ⟨rfl, rfl⟩ := hb
      by_cases hf : f x = true
      · obtain ⟨w, c, c', e1, e2, hr, hr2, hw, t1, t2⟩ := ih (b' := withBreaks e r) .reg (k + 1)
        have hr3 : c' = withBreaks e c := by
          rcases hr2 with rfl | hr2
          · simp only [List.nil_append] at e1 e2
            rw [← e1, ← e2]
          · exact hr2
        have big : ∃ w c c', x :: r = w ++ c ∧ x :: withBreaks e r = w ++ c' ∧ RR e m c c' ∧ (w = [] ∨ c' = withBreaks e c) ∧
            (∀ x ∈ w, f x = true) ∧ takeCount f opt r (k + 1) = k + w.length ∧ takeCount f opt (withBreaks e r) (k + 1) = k + w.length :=
          ⟨x :: w, c, c', by rw [e1]; rfl, by rw [e2]; rfl, hr, .inr hr3, by
            intro y hy
            rcases List.mem_cons.1 hy with rfl | hy
            · exact hf
            · exact hw y hy, by rw [t1, List.length_cons]; omega, by rw [t2, List.length_cons]; omega⟩
        have one : ∃ w c c', x :: r = w ++ c ∧ x :: withBreaks e r = w ++ c' ∧ RR e m c c' ∧ (w = [] ∨ c' = withBreaks e c) ∧
            (∀ x ∈ w, f x = true) ∧ k + 1 = k + w.length ∧ k + 1 = k + w.length :=
          ⟨[x], r, _, rfl, rfl, .reg, .inr rfl, by simp [hf], rfl, rfl⟩
        simp only [takeCount, hf, if_true]
        cases opt with
        | one => exact one
        | range lo hi =>
          simp only
          by_cases hk : k + 1 = hi
          · simp only [hk, if_true]; rw [← hk]; exact one
          · simp only [hk, if_false]; exact big
        | more lo => exact big
      · simp only [takeCount, hf, Bool.false_eq_true, if_false]
        exact ⟨[], _, _, rfl, rfl, h, .inl rfl, by simp, rfl, rfl⟩
    · simp only [List.cons.injEq] at hb
      obtain ⟨rfl, rfl⟩ := hb
      have hy' : f y = false := by rcases hy with rfl | rfl <;> assumption
      simp only [takeCount, h1, hy', Bool.false_eq_true, if_false]
      exact ⟨[], _, _, rfl, rfl, h, .inl rfl, by simp, rfl, rfl⟩

/-- All of them. -/
theorem RR.drop (he : Ending e) {f : UInt8 → Bool} (h1 : f 0x0A = false) (h2 : f 0x0D = false) {b b' : Bytes} (h : RR e m b b') :
    b.takeWhile f = b'.takeWhile f ∧ RR e m (b.dropWhile f) (b'.dropWhile f) ∧
      (b.takeWhile f = [] ∨ b'.dropWhile f = withBreaks e (b.dropWhile f)) := by
  obtain ⟨w, c, c', e1, e2, hr, hr2, hw, t1, t2⟩ := h.take he h1 h2 (.more 0) 0
  simp only [takeCount_more_eq, Nat.zero_add] at t1 t2
  have k1 : b.takeWhile f = w := by
    have := List.prefix_iff_eq_take.1 (List.takeWhile_prefix f (l := b))
    rw [this, t1, e1, List.take_left]
  have k2 : b'.takeWhile f = w := by
    have := List.prefix_iff_eq_take.1 (List.takeWhile_prefix f (l := b'))
    rw [this, t2, e2, List.take_left]
  have d1 : b.dropWhile f = c := by rw [← drop_takeWhile, k1, e1, List.drop_left]
  have d2 : b'.dropWhile f = c' := by rw [← drop_takeWhile, k2, e2, List.drop_left]
  rw [k1, k2, d1, d2]
  exact ⟨rfl, hr, hr2⟩

theorem wb_no_nl_head {e : Bytes} (he : Ending e) : ∀ {b s : Bytes}, withBreaks e b ≠ 0x0A :: s := by
  intro b s h
  rcases (RR.reg (e := e) (m := true) (b := b)).head he with ⟨-, h2⟩ | ⟨c, r, hc, rfl, h2⟩ | ⟨r, x, r', rfl, -, -⟩
  · rw [h2] at h; simp at h
  · rw [h2] at h; simp only [List.cons.injEq] at h; exact hc h.1
  · rw [wb_nl] at h
    rcases he with rfl | rfl <;> simp at h

/-- A line break. -/
theorem RR.nl (he : Ending e) {b b' : Bytes} (hb : (0x0D : UInt8) ∉ b) (h : RR e m b b') :
    (nlLen b = 0 ↔ nlLen b' = 0) ∧ (nlLen b ≠ 0 → RR e m (b.drop (nlLen b)) (b'.drop (nlLen b'))) := by
  rcases h with rfl | ⟨rfl, rfl, c, rfl, rfl⟩
  · cases b with
    | nil => simp [withBreaks, nlLen]
    | cons x r =>
      by_cases hx : x = 0x0A
      · subst hx
        have l1 : nlLen (0x0A :: r) = 1 := nlLen_lf (by rintro s rfl; simp at hb)
        rw [wb_nl]
        rcases he with rfl | rfl
        · have l2 : nlLen ([0x0D] ++ withBreaks [0x0D] r) = 1 := by
            cases hq : withBreaks [0x0D] r with
            | nil => rfl
            | cons y s =>
              have hy : y ≠ 0x0A := by
                rintro rfl
                exact wb_no_nl_head (.inl rfl) hq
              simp only [List.cons_append, List.nil_append]
              unfold nlLen
              split <;> simp_all
          rw [l1, l2]
          exact ⟨by simp, fun _ => .reg⟩
        · have l2 : nlLen ([0x0D, 0x0A] ++ withBreaks [0x0D, 0x0A] r) = 2 := nlLen_crlf _
          rw [l1, l2]
          exact ⟨by simp, fun _ => .reg⟩
      · have hx' : x ≠ 0x0D := by rintro rfl; simp at hb
        rw [wb_cons hx]
        have l1 : ∀ s, nlLen (x :: s) = 0 := fun s => (nlLen_zero_iff _).2 (by rintro c s' e; cases e; exact ⟨hx, hx'⟩)
        rw [l1, l1]
        simp
  · have l1 : nlLen (0x0A :: c) = 1 := nlLen_lf (by rintro s rfl; simp at hb)
    rw [l1]
    cases c with
    | nil =>
      have : nlLen (0x0A :: withBreaks [0x0D, 0x0A] []) = 1 := rfl
      rw [this]
      exact ⟨by simp, fun _ => .reg⟩
    | cons x r =>
      by_cases hx : x = 0x0A
      · subst hx
        have : nlLen (0x0A :: withBreaks [0x0D, 0x0A] (0x0A :: r)) = 2 := rfl
        rw [this]
        exact ⟨by simp, fun _ => .inr ⟨rfl, rfl, r, rfl, rfl⟩⟩
      · have hx' : x ≠ 0x0D := by rintro rfl; simp at hb
        rw [wb_cons hx]
        have : nlLen (0x0A :: x :: withBreaks [0x0D, 0x0A] r) = 1 := nlLen_lf (by rintro s h; cases h; exact hx' rfl)
        rw [this]
        refine ⟨by simp, fun _ => .inl ?_⟩
        simp only [List.drop_succ_cons, List.drop_zero]
        rw [wb_cons hx]

/-- All white space. -/
theorem RR.inv (he : Ending e) : ∀ {b b' : Bytes}, RR e m b b' → RR e m (b.dropWhile isAsciiWs) (b'.dropWhile isAsciiWs) := by
  have reg : ∀ b : Bytes, withBreaks e (b.dropWhile isAsciiWs) = (withBreaks e b).dropWhile isAsciiWs := by
    intro b
    induction b with
    | nil => rfl
    | cons x r ih =>
      by_cases hx : x = 0x0A
      · subst hx
        have : (0x0A :: r).dropWhile isAsciiWs = r.dropWhile isAsciiWs := by rw [List.dropWhile_cons_of_pos (by decide)]
        rw [wb_nl, this, ih]
        rcases he with rfl | rfl
        · simp only [List.cons_append, List.nil_append]
          rw [List.dropWhile_cons_of_pos (by decide)]
        · simp only [List.cons_append, List.nil_append]
          rw [List.dropWhile_cons_of_pos (by decide), List.dropWhile_cons_of_pos (by decide)]
      · rw [wb_cons hx]
        by_cases hf : isAsciiWs x = true
        · rw [List.dropWhile_cons_of_pos hf, List.dropWhile_cons_of_pos hf, ih]
        · rw [List.dropWhile_cons_of_neg hf, List.dropWhile_cons_of_neg hf, wb_cons hx]
  intro b b' h
  rcases h with rfl | ⟨rfl, rfl, c, rfl, rfl⟩
  · exact .inl (reg b).symm
  · rw [List.dropWhile_cons_of_pos (by decide), List.dropWhile_cons_of_pos (by decide)]
    exact .inl (reg c).symm

theorem notNl_blank : isBlank 0x0A = false ∧ isBlank 0x0D = false := by decide

theorem cmtSkip_no {b : Bytes} (h : ∀ r, b.dropWhile isBlank ≠ 0x23 :: r) : cmtSkip b = ([], b) := by
  unfold cmtSkip
  split
  · rename_i r hr; exact absurd hr (h r)
  · rfl

theorem cmtSkip_yes {b r : Bytes} (h : b.dropWhile isBlank = 0x23 :: r) :
    cmtSkip b = (b.takeWhile isBlank ++ 0x23 :: r.takeWhile (notIn b!"\n\r"), r.dropWhile (notIn b!"\n\r")) := by
  simp only [cmtSkip, h]

/-- A comment. -/
theorem RR.cmt (he : Ending e) {b b' : Bytes} (h : RR e m b b') :
    (cmtSkip b).1 = (cmtSkip b').1 ∧ RR e m (cmtSkip b).2 (cmtSkip b').2 := by
  obtain ⟨h1, h2, h3⟩ := h.drop he notNl_blank.1 notNl_blank.2
  rcases h2.head he with ⟨e1, e2⟩ | ⟨c, r, hc, e1, e2⟩ | ⟨r, x, r', e1, e2, hx⟩
  · rw [cmtSkip_no (by rw [e1]; simp), cmtSkip_no (by rw [e2]; simp)]; exact ⟨rfl, h⟩
  · by_cases h4 : c = 0x23
    · subst h4
      rw [cmtSkip_yes e1, cmtSkip_yes e2]
      obtain ⟨k1, k2, k3⟩ := (RR.reg (e := e) (m := m) (b := r)).drop he (f := notIn b!"\n\r") (by decide) (by decide)
      exact ⟨by simp only; rw [h1, k1], k2⟩
    · rw [cmtSkip_no (by rw [e1]; rintro s ⟨⟩; exact h4 rfl), cmtSkip_no (by rw [e2]; rintro s ⟨⟩; exact h4 rfl)]
      exact ⟨rfl, h⟩
  · rw [cmtSkip_no (by rw [e1]; rintro s ⟨⟩), cmtSkip_no (by rw [e2]; rintro s ⟨⟩; rcases hx with hx | hx <;> simp at hx)]
    exact ⟨rfl, h⟩

theorem RR.gapLine (he : Ending e) (c : Bool) {b b' : Bytes} (h : RR e m b b') : RR e m (gapLine c b).2 (gapLine c b').2 := by
  unfold YamlPeg.gapLine
  cases c
  · exact (h.drop he notNl_blank.1 notNl_blank.2).2.1
  · exact (h.cmt he).2

theorem RR.gapMore (he : Ending e) (c : Bool) : ∀ (n n' : Nat) {b b' : Bytes}, (0x0D : UInt8) ∉ b → RR e m b b' → b.length < n → b'.length < n' →
    (gapMore c n b).1 = (gapMore c n' b').1 ∧ RR e m (gapMore c n b).2.2 (gapMore c n' b').2.2
  | 0, _, _, _, _, _, h, _ => by omega
  | _ + 1, 0, _, _, _, _, _, h => by omega
  | n + 1, n' + 1, b, b', hb, h, h1, h2 => by
    have hg := h.gapLine he c
    have ha := gapLine_append b c
    have ha' := gapLine_append b' c
    have hb2 : (0x0D : UInt8) ∉ (YamlPeg.gapLine c b).2 := by
      intro hx; apply hb; rw [← ha]; simp [hx]
    obtain ⟨k1, k2⟩ := hg.nl he hb2
    simp only [YamlPeg.gapMore]
    by_cases h0 : nlLen (YamlPeg.gapLine c b).2 = 0
    · rw [if_pos h0, if_pos (k1.1 h0)]
      exact ⟨rfl, h⟩
    · have h0' : nlLen (YamlPeg.gapLine c b').2 ≠ 0 := fun hh => h0 (k1.2 hh)
      rw [if_neg h0, if_neg h0']
      have l1 := nlLen_le (YamlPeg.gapLine c b).2
      have l2 := nlLen_le (YamlPeg.gapLine c b').2
      have l3 := congrArg List.length ha
      have l4 := congrArg List.length ha'
      simp only [List.length_append] at l3 l4
      obtain ⟨i1, i2⟩ := RR.gapMore he c n n' (fun hx => hb2 (List.mem_of_mem_drop hx)) (k2 h0)
        (by simp only [List.length_drop]; omega) (by simp only [List.length_drop]; omega)
      exact ⟨by simp only; rw [i1], i2⟩

/-- A gap. -/
theorem RR.gap (he : Ending e) (c : Bool) {b b' : Bytes} (hb : (0x0D : UInt8) ∉ b) (h : RR e m b b') :
    (gapSpec c b = none ∧ gapSpec c b' = none ∧ (gapLead c b).1 = (gapLead c b').1 ∧ RR e m (gapLead c b).2 (gapLead c b').2) ∨
    ∃ t w l w' l', gapSpec c b = some (t, w, l) ∧ gapSpec c b' = some (t, w', l') ∧ RR e m l l' := by
  have hl : (gapLead c b).1 = (gapLead c b').1 ∧ RR e m (gapLead c b).2 (gapLead c b').2 := by
    unfold gapLead
    cases c
    · exact ⟨rfl, h⟩
    · exact ⟨(h.cmt he).1, (h.cmt he).2⟩
  have hb2 : (0x0D : UInt8) ∉ (gapLead c b).2 := by
    intro hx; apply hb; rw [← gapLead_append b c]; simp [hx]
  obtain ⟨k1, k2⟩ := hl.2.nl he hb2
  unfold gapSpec
  by_cases h0 : nlLen (gapLead c b).2 = 0
  · simp only [h0, k1.1 h0, if_true]
    exact .inl ⟨trivial, trivial, hl.1, hl.2⟩
  · have h0' : nlLen (gapLead c b').2 ≠ 0 := fun hh => h0 (k1.2 hh)
    simp only [h0, h0', if_false]
    obtain ⟨i1, i2⟩ := RR.gapMore he c _ _ (fun hx => hb2 (List.mem_of_mem_drop hx)) (k2 h0) (Nat.lt_succ_self _) (Nat.lt_succ_self _)
    exact .inr ⟨_, _, _, _, _, rfl, by rw [i1], i2⟩

end lists

/-! ## Pairs of states -/

/-- Two states, taken apart. -/
structure Pair (e D : Bytes) (m : Bool) (N N' : Nat) (k : Ctx) (a mid b a' mid' b' : Bytes) : Prop where
  zero : k.consumed = 0
  doc : a ++ (mid ++ b) = D
  doc' : a' ++ (mid' ++ b') = withBreaks e D
  rest : RR e m b b'
  mark : RR e m (mid ++ b) (mid' ++ b')
  len : (mid ++ b).length ≤ N
  len' : (mid' ++ b').length ≤ N'

/-- Related states; at most `N` and `N'` bytes behind the marks. -/
def Brk (e D : Bytes) (m : Bool) (N N' : Nat) (s s' : Parser) : Prop :=
  ∃ k a mid b a' mid' b', s = st k a mid b ∧ s' = st k a' mid' b' ∧ Pair e D m N N' k a mid b a' mid' b'

/-- The place in `D`. -/
def placeOf (e D : Bytes) (p : Nat) : Nat := if e = [0x0D] then p else p - ((withBreaks e D).take p).count 0x0D

/-- Messages for the same place. -/
def SameSpot (e D t t' : Bytes) : Prop :=
  ∃ p ≤ (withBreaks e D).length, indicatedMsg D (placeOf e D p) = some t ∧ indicatedMsg (withBreaks e D) p = some t'

def brk (e D : Bytes) (m : Bool) (N N' : Nat) : SimCfg Parser := ⟨Brk e D m N N', SameSpot e D⟩

section pairs
variable {e D : Bytes} {m : Bool} {N N' : Nat} {k : Ctx} {a mid b a' mid' b' : Bytes}

theorem Pair.move {w c w' c' : Bytes} (h : Pair e D m N N' k a mid (w ++ c) a' mid' (w' ++ c')) (hr : RR e m c c') :
    Pair e D m N N' k a (mid ++ w) c a' (mid' ++ w') c' := by
  have e1 : (mid ++ w) ++ c = mid ++ (w ++ c) := List.append_assoc ..
  have e2 : (mid' ++ w') ++ c' = mid' ++ (w' ++ c') := List.append_assoc ..
  exact ⟨h.zero, by rw [e1]; exact h.doc, by rw [e2]; exact h.doc', hr, by rw [e1, e2]; exact h.mark, by rw [e1]; exact h.len, by rw [e2]; exact h.len'⟩

theorem Pair.reset (h : Pair e D m N N' k a mid b a' mid' b') : Pair e D m N N' k a [] (mid ++ b) a' [] (mid' ++ b') :=
  ⟨h.zero, h.doc, h.doc', h.mark, h.mark, h.len, h.len'⟩

theorem Pair.fwd (h : Pair e D m N N' k a mid b a' mid' b') {M M' : Nat} (h1 : b.length ≤ M) (h2 : b'.length ≤ M') :
    Pair e D m M M' k (a ++ mid) [] b (a' ++ mid') [] b' :=
  ⟨h.zero, by simpa using h.doc, by simpa using h.doc', h.rest, h.rest, h1, h2⟩

theorem Pair.rest_le (h : Pair e D m N N' k a mid b a' mid' b') : b.length ≤ N ∧ b'.length ≤ N' := by
  have := h.len; have := h.len'
  simp only [List.length_append] at *
  omega

theorem Pair.with {k2 : Ctx} (h : Pair e D m N N' k a mid b a' mid' b') (hk : k2.consumed = 0) : Pair e D m N N' k2 a mid b a' mid' b' :=
  ⟨hk, h.doc, h.doc', h.rest, h.mark, h.len, h.len'⟩

theorem Pair.mono {m2 : Bool} {M M' : Nat} (h : Pair e D m N N' k a mid b a' mid' b') (hm : m = true → m2 = true) (h1 : N ≤ M) (h2 : N' ≤ M') :
    Pair e D m2 M M' k a mid b a' mid' b' := by
  have hr : ∀ {x y : Bytes}, RR e m x y → RR e m2 x y := by
    rintro x y (h | ⟨h1, h2⟩)
    · exact .inl h
    · exact .inr ⟨hm h1, h2⟩
  exact ⟨h.zero, h.doc, h.doc', hr h.rest, hr h.mark, Nat.le_trans h.len h1, Nat.le_trans h.len' h2⟩

theorem Brk.mono {m2 : Bool} {M M' : Nat} {s s' : Parser} (h : Brk e D m N N' s s') (hm : m = true → m2 = true) (h1 : N ≤ M) (h2 : N' ≤ M') :
    Brk e D m2 M M' s s' := by
  obtain ⟨k, a, mid, b, a', mid', b', e1, e2, hp⟩ := h
  exact ⟨k, a, mid, b, a', mid', b', e1, e2, hp.mono hm h1 h2⟩

/-- Back to an earlier mark. -/
theorem Pair.rejoin {m2 : Bool} {k2 : Ctx} {a2 mid2 b2 a2' mid2' b2' : Bytes} (h : Pair e D m N N' k a mid b a' mid' b')
    (h2 : Pair e D m2 b.length b'.length k2 a2 mid2 b2 a2' mid2' b2') (hm : m2 = true → m = true) :
    ∃ p p', a2 = a ++ mid ++ p ∧ a2' = a' ++ mid' ++ p' ∧ Pair e D m N N' k2 a (mid ++ (p ++ mid2)) b2 a' (mid' ++ (p' ++ mid2')) b2' := by
  have l1 := h2.len
  have l2 := h2.len'
  have q : ∀ {u v x y : Bytes}, u ++ v = x ++ y → y.length ≤ v.length → ∃ p, x = u ++ p ∧ v = p ++ y := by
    intro u v x y hq hl
    rcases List.append_eq_append_iff.1 hq with ⟨p, e1, e2⟩ | ⟨p, e1, e2⟩
    · exact ⟨p, e1, e2⟩
    · have := congrArg List.length e2
      simp only [List.length_append] at this
      have : p = [] := List.length_eq_zero_iff.1 (by omega)
      subst this
      exact ⟨[], by simpa using e1.symm, by simpa using e2.symm⟩
  have d1 : (a ++ mid) ++ b = a2 ++ (mid2 ++ b2) := by rw [h2.doc, List.append_assoc, h.doc]
  have d2 : (a' ++ mid') ++ b' = a2' ++ (mid2' ++ b2') := by rw [h2.doc', List.append_assoc, h.doc']
  obtain ⟨p, ep, eb⟩ := q d1 l1
  obtain ⟨p', ep', eb'⟩ := q d2 l2
  have f1 : (mid ++ (p ++ mid2)) ++ b2 = mid ++ b := by rw [eb]; simp
  have f2 : (mid' ++ (p' ++ mid2')) ++ b2' = mid' ++ b' := by rw [eb']; simp
  refine ⟨p, p', ep, ep', h2.zero, by rw [f1]; exact h.doc, by rw [f2]; exact h.doc', (h2.mono hm (Nat.le_refl _) (Nat.le_refl _)).rest,
    by rw [f1, f2]; exact h.mark, by rw [f1]; exact h.len, by rw [f2]; exact h.len'⟩

theorem Pair.noCR (hD : (0x0D : UInt8) ∉ D) (h : Pair e D m N N' k a mid b a' mid' b') : (0x0D : UInt8) ∉ b := by
  intro hx; apply hD; rw [← h.doc]; simp [hx]

/-! ### What the cursor functions do -/

/-- Is that many enough? -/
def takeOk (opt : TakeOpt) (n : Nat) : Bool :=
  if n = 0 then decide (opt.lo? = some 0) else match opt.lo? with
    | some lo => !decide (n < lo)
    | none => true

theorem take_st {f : UInt8 → Bool} {opt : TakeOpt} (k : Ctx) (a mid : Bytes) {w c : Bytes} (h : takeCount f opt (w ++ c) 0 = w.length) :
    takeWhile f opt (st k a mid (w ++ c)) = if takeOk opt w.length then (.ok (), st k a (mid ++ w) c)
      else (.err .mismatch, st k a [] (mid ++ (w ++ c))) := by
  have adv : { st k a mid (w ++ c) with pos := (st k a mid (w ++ c)).pos + w.length } = st k a (mid ++ w) c := by
    rw [st_adv _ _ _ _ _ (by simp), List.take_left, List.drop_left]
  have bk := st_back k a mid (w ++ c)
  unfold takeWhile takeOk
  rw [if_pos (st_le ..), st_rest, h]
  simp only
  by_cases h0 : w.length = 0
  · rw [if_pos h0, if_pos h0]
    have hw : w = [] := List.length_eq_zero_iff.1 h0
    by_cases hl : opt.lo? = some 0
    · simp [hl, hw]
    · simp only [hl, if_false, decide_false, Bool.false_eq_true]; rw [bk]
  · rw [if_neg h0, if_neg h0]
    cases opt.lo? with
    | none => simp only [if_true]; rw [adv]
    | some lo =>
      simp only
      by_cases hl : w.length < lo
      · simp only [hl, if_true, decide_true, Bool.not_true, Bool.false_eq_true, if_false]; rw [bk]
      · simp only [hl, if_false, decide_false, Bool.not_false, if_true]; rw [adv]

variable (he : Ending e)
include he

theorem le_take {f : UInt8 → Bool} (h1 : f 0x0A = false) (h2 : f 0x0D = false) (opt : TakeOpt) :
    Sim (brk e D m N N') (fun _ _ => True) (takeWhile f opt) (takeWhile f opt) := by
  rintro s s' ⟨k, a, mid, b, a', mid', b', rfl, rfl, hp⟩
  obtain ⟨w, c, c', rfl, rfl, hr, -, -, t1, t2⟩ := hp.rest.take he h1 h2 opt 0
  rw [take_st _ _ _ (by simpa using t1), take_st _ _ _ (by simpa using t2)]
  split
  · exact .inr ⟨trivial, _, _, _, _, _, _, _, rfl, rfl, hp.move hr⟩
  · exact .inr ⟨trivial, _, _, _, _, _, _, _, rfl, rfl, hp.reset⟩

omit he in
theorem le_fwd : Sim (brk e D m N N') (fun _ _ => True) forward forward := by
  rintro s s' ⟨k, a, mid, b, a', mid', b', rfl, rfl, hp⟩
  rw [forward_st, forward_st]
  exact .inr ⟨trivial, _, _, _, _, _, _, _, rfl, rfl, hp.fwd hp.rest_le.1 hp.rest_le.2⟩

omit he in
theorem le_bwd : Sim (brk e D m N N') (fun _ _ => True) backward backward := by
  rintro s s' ⟨k, a, mid, b, a', mid', b', rfl, rfl, hp⟩
  rw [backward_st, backward_st]
  exact .inr ⟨trivial, _, _, _, _, _, _, _, rfl, rfl, hp.reset⟩

theorem le_food : Sim (brk e D m N N') (fun a b => a.isEmpty = b.isEmpty) food food := by
  rintro s s' ⟨k, a, mid, b, a', mid', b', rfl, rfl, hp⟩
  rw [food_st, food_st]
  refine .inr ⟨?_, _, _, _, _, _, _, _, rfl, rfl, hp⟩
  show b.isEmpty = b'.isEmpty
  have := hp.rest.nil he
  cases b <;> cases b' <;> simp_all

omit he in
theorem le_ctx {α β : Type} {A : α → β → Prop} {x : PM α} {y : PM β} (h : ∀ N N', Sim (brk e D m N N') A x y) :
    Sim (brk e D m N N') A (context x) (context y) := by
  rintro s s' ⟨k, a, mid, b, a', mid', b', rfl, rfl, hp⟩
  have := h b.length b'.length (st k (a ++ mid) [] b) (st k (a' ++ mid') [] b')
    ⟨_, _, _, _, _, _, _, rfl, rfl, hp.fwd (Nat.le_refl _) (Nat.le_refl _)⟩
  have e1 : ({ st k a mid b with eaten := (st k a mid b).pos } : Parser) = st k (a ++ mid) [] b := by simp [st]
  have e2 : ({ st k a' mid' b' with eaten := (st k a' mid' b').pos } : Parser) = st k (a' ++ mid') [] b' := by simp [st]
  rcases hx : x (st k (a ++ mid) [] b) with ⟨r, t⟩
  rcases hy : y (st k (a' ++ mid') [] b') with ⟨r', t'⟩
  rw [hx, hy] at this
  rcases this with h1 | ⟨h1, k2, a2, mid2, b2, a2', mid2', b2', rfl, rfl, hp2⟩
  · refine .inl ?_
    unfold context
    rw [e1, hx]
    exact h1
  · obtain ⟨p, p', rfl, rfl, hp3⟩ := hp.rejoin hp2 id
    rw [context_st hx, context_st hy]
    exact .inr ⟨h1, _, _, _, _, _, _, _, rfl, rfl, hp3⟩

theorem le_nl (hD : (0x0D : UInt8) ∉ D) : Sim (brk e D m N N') (fun _ _ => True) nl nl := by
  rintro s s' ⟨k, a, mid, b, a', mid', b', rfl, rfl, hp⟩
  obtain ⟨h1, h2⟩ := hp.rest.nl he (hp.noCR hD)
  rw [nl_eq, nl_eq]
  by_cases h0 : nlLen b = 0
  · rw [if_pos h0, if_pos (h1.1 h0)]
    exact .inr ⟨trivial, _, _, _, _, _, _, _, rfl, rfl, hp⟩
  · rw [if_neg h0, if_neg fun h => h0 (h1.2 h)]
    refine .inr ⟨trivial, _, _, _, _, _, _, _, rfl, rfl, ?_⟩
    exact Pair.move (by rw [List.take_append_drop, List.take_append_drop]; exact hp) (h2 h0)

theorem le_inv : Sim (brk e D m N N') (fun _ _ => True) (inv (.more 0)) (inv (.more 0)) := by
  rintro s s' ⟨k, a, mid, b, a', mid', b', rfl, rfl, hp⟩
  rw [inv_st, inv_st]
  refine .inr ⟨trivial, _, _, _, _, _, _, _, rfl, rfl, ?_⟩
  exact Pair.move (by rw [List.takeWhile_append_dropWhile, List.takeWhile_append_dropWhile]; exact hp) (hp.rest.inv he)

theorem le_gap (hD : (0x0D : UInt8) ∉ D) (c : Bool) : Sim (brk e D m N N') Eq (gap c) (gap c) := by
  rintro s s' ⟨k, a, mid, b, a', mid', b', rfl, rfl, hp⟩
  rw [gap_eq, gap_eq]
  rcases hp.rest.gap he c (hp.noCR hD) with ⟨g1, g2, -, hr⟩ | ⟨t, w, l, w', l', g1, g2, hr⟩
  · rw [g1, g2]
    refine .inr ⟨trivial, _, _, _, _, _, _, _, rfl, rfl, ?_⟩
    exact Pair.move (by rw [gapLead_append, gapLead_append]; exact hp) hr
  · rw [g1, g2]
    refine .inr ⟨rfl, _, _, _, _, _, _, _, rfl, rfl, ?_⟩
    exact Pair.move (by rw [gapSpec_append' g1, gapSpec_append' g2]; exact hp) hr

/-! ### Places -/

omit he in
theorem wb_cr_length : ∀ w : Bytes, (withBreaks [0x0D] w).length = w.length
  | [] => rfl
  | c :: r => by
    simp only [withBreaks, List.length_append, wb_cr_length r, List.length_cons]
    split <;> simp <;> omega

omit he in
theorem wb_crlf_length : ∀ {w : Bytes}, (0x0D : UInt8) ∉ w →
    (withBreaks [0x0D, 0x0A] w).length = w.length + (withBreaks [0x0D, 0x0A] w).count 0x0D
  | [], _ => rfl
  | c :: r, h => by
    have hr : (0x0D : UInt8) ∉ r := fun hx => h (by simp [hx])
    have ih := wb_crlf_length hr
    simp only [withBreaks, List.length_append, List.length_cons, List.count_append, ih]
    split
    · simp; omega
    · have hc : c ≠ 0x0D := by rintro rfl; exact h (by simp)
      have : List.count 0x0D [c] = 0 := List.count_eq_zero.2 (by simpa using Ne.symm hc)
      rw [this]; simp; omega

theorem Pair.place (hD : (0x0D : UInt8) ∉ D) (h : Pair e D m N N' k a mid b a' mid' b') :
    (a ++ mid).length = placeOf e D (a' ++ mid').length := by
  have d1 : (a ++ mid) ++ b = D := by rw [List.append_assoc, h.doc]
  have d2 : (a' ++ mid') ++ b' = withBreaks e D := by rw [List.append_assoc, h.doc']
  generalize a ++ mid = A at *
  generalize a' ++ mid' = A' at *
  have hA : (0x0D : UInt8) ∉ A := fun hx => hD (by rw [← d1]; simp [hx])
  have ht : (withBreaks e D).take A'.length = A' := by rw [← d2, List.take_left]
  unfold placeOf
  rw [ht]
  rw [← d1, wb_append] at d2
  rcases h.rest with rfl | ⟨rfl, rfl, c, rfl, rfl⟩
  · have hA' := List.append_cancel_right d2
    subst hA'
    rcases he with rfl | rfl
    · rw [if_pos rfl, wb_cr_length]
    · rw [if_neg (by decide), wb_crlf_length hA]; omega
  · have d3 : A' ++ 0x0A :: withBreaks [0x0D, 0x0A] c = (withBreaks [0x0D, 0x0A] A ++ [0x0D]) ++ 0x0A :: withBreaks [0x0D, 0x0A] c := by
      rw [d2, wb_nl]; simp
    have hA' := List.append_cancel_right d3
    subst hA'
    rw [if_neg (by decide), List.length_append, List.count_append, wb_crlf_length hA]
    simp

theorem le_err (hD : (0x0D : UInt8) ∉ D) {α β : Type} (A : α → β → Prop) (nm : String) : Sim (brk e D m N N') A (errAt nm) (errAt nm) := by
  rintro s s' ⟨k, a, mid, b, a', mid', b', rfl, rfl, hp⟩
  have hpl := hp.place he hD
  have i1 : (st k a mid b).indicator = (a ++ mid).length := by rw [st_indicator, hp.zero]; simp
  have i2 : (st k a' mid' b').indicator = (a' ++ mid').length := by rw [st_indicator, hp.zero]; simp
  have l1 : (a ++ mid).length ≤ D.length := by rw [← hp.doc]; simp
  have l2 : (a' ++ mid').length ≤ (withBreaks e D).length := by rw [← hp.doc']; simp
  have q1 := (indicatedMsg_isSome D (a ++ mid).length).2 l1
  have q2 := (indicatedMsg_isSome (withBreaks e D) (a' ++ mid').length).2 l2
  obtain ⟨t, q1⟩ := Option.isSome_iff_exists.1 q1
  obtain ⟨t', q2⟩ := Option.isSome_iff_exists.1 q2
  have f1 : (errAt nm : PM α) (st k a mid b) = (.err (.terminate nm t), st k a mid b) := by
    unfold errAt; rw [i1, st_doc, hp.doc, q1]
  have f2 : (errAt nm : PM β) (st k a' mid' b') = (.err (.terminate nm t'), st k a' mid' b') := by
    unfold errAt; rw [i2, st_doc, hp.doc', q2]
  rw [f1, f2]
  exact .inr ⟨⟨rfl, _, l2, by rw [← hpl]; exact q1, q2⟩, _, _, _, _, _, _, _, rfl, rfl, hp⟩

/-! ### The same text behind the marks -/

/-- Related states with the same text between mark and cursor. -/
def Txt (e D : Bytes) (m : Bool) (N N' : Nat) (a a' : Bytes) (s s' : Parser) : Prop :=
  ∃ k mid b b', s = st k a mid b ∧ s' = st k a' mid b' ∧ Pair e D m N N' k a mid b a' mid b'

def txt (e D : Bytes) (m : Bool) (N N' : Nat) (a a' : Bytes) : SimCfg Parser := ⟨Txt e D m N N' a a', SameSpot e D⟩

def TxtP (e D : Bytes) (m : Bool) (N N' : Nat) (s s' : Parser) : Prop := ∃ a a', Txt e D m N N' a a' s s'

omit he in
theorem Txt.toX {α β : Type} {A : α → β → Prop} {x : PM α} {y : PM β} (h : ∀ a a', Sim (txt e D m N N' a a') A x y) :
    SimX (brk e D m N N') (TxtP e D m N N') (TxtP e D m N N') (TxtP e D m N N') A x y := by
  rintro s s' - ⟨a, a', hp⟩
  rcases h a a' s s' hp with h1 | ⟨h1, h2⟩
  · exact .inl h1
  · have h2 : Txt e D m N N' a a' _ _ := h2
    have h3 := h2
    obtain ⟨k, mid, b, b', e1, e2, hp⟩ := h3
    exact .inr ⟨h1, ⟨_, _, _, _, _, _, _, e1, e2, hp⟩, fun _ _ => ⟨a, a', h2⟩, fun _ => ⟨a, a', h2⟩⟩

omit he in
theorem le_fwdX {E : Parser → Parser → Prop} : SimX (brk e D m N N') Any (TxtP e D m N N') E (fun _ _ => True) forward forward := by
  rintro s s' ⟨k, a, mid, b, a', mid', b', rfl, rfl, hp⟩ -
  have hq := hp.fwd hp.rest_le.1 hp.rest_le.2
  rw [forward_st, forward_st]
  exact .inr ⟨trivial, ⟨_, _, _, _, _, _, _, rfl, rfl, hq⟩, fun _ _ => ⟨_, _, _, _, _, _, rfl, rfl, hq⟩, fun h => by cases h⟩

omit he in
theorem le_bwdX {E : Parser → Parser → Prop} : SimX (brk e D m N N') Any (TxtP e D m N N') E (fun _ _ => True) backward backward := by
  rintro s s' ⟨k, a, mid, b, a', mid', b', rfl, rfl, hp⟩ -
  have hq := hp.reset
  rw [backward_st, backward_st]
  exact .inr ⟨trivial, ⟨_, _, _, _, _, _, _, rfl, rfl, hq⟩, fun _ _ => ⟨_, _, _, _, _, _, rfl, rfl, hq⟩, fun h => by cases h⟩

theorem le_takeX {f : UInt8 → Bool} (h1 : f 0x0A = false) (h2 : f 0x0D = false) (opt : TakeOpt) :
    SimX (brk e D m N N') Any Any (TxtP e D m N N') (fun _ _ => True) (takeWhile f opt) (takeWhile f opt) := by
  rintro s s' ⟨k, a, mid, b, a', mid', b', rfl, rfl, hp⟩ -
  obtain ⟨w, c, c', rfl, rfl, hr, -, -, t1, t2⟩ := hp.rest.take he h1 h2 opt 0
  rw [take_st _ _ _ (by simpa using t1), take_st _ _ _ (by simpa using t2)]
  split
  · exact .inr ⟨trivial, ⟨_, _, _, _, _, _, _, rfl, rfl, hp.move hr⟩, fun _ _ => trivial, fun h => by cases h⟩
  · exact .inr ⟨trivial, ⟨_, _, _, _, _, _, _, rfl, rfl, hp.reset⟩, fun _ _ => trivial, fun _ => ⟨_, _, _, _, _, _, rfl, rfl, hp.reset⟩⟩

theorem tx_take {f : UInt8 → Bool} (h1 : f 0x0A = false) (h2 : f 0x0D = false) (opt : TakeOpt) (a a' : Bytes) :
    Sim (txt e D m N N' a a') (fun _ _ => True) (takeWhile f opt) (takeWhile f opt) := by
  rintro s s' ⟨k, mid, b, b', rfl, rfl, hp⟩
  obtain ⟨w, c, c', rfl, rfl, hr, -, -, t1, t2⟩ := hp.rest.take he h1 h2 opt 0
  rw [take_st _ _ _ (by simpa using t1), take_st _ _ _ (by simpa using t2)]
  split
  · exact .inr ⟨trivial, _, _, _, _, rfl, rfl, hp.move hr⟩
  · exact .inr ⟨trivial, _, _, _, _, rfl, rfl, hp.reset⟩

omit he in
theorem tx_text (a a' : Bytes) : Sim (txt e D m N N' a a') Eq text text := by
  rintro s s' ⟨k, mid, b, b', rfl, rfl, hp⟩
  rw [text_st, text_st]
  exact .inr ⟨rfl, _, _, _, _, rfl, rfl, hp⟩

omit he in
/-- From the cursor on. -/
theorem tx_ctx {α β : Type} {A : α → β → Prop} {x : PM α} {y : PM β} (h : ∀ N N' a a', Sim (txt e D m N N' a a') A x y) (a a' : Bytes) :
    Sim (txt e D m N N' a a') A (context x) (context y) := by
  rintro s s' ⟨k, mid, b, b', rfl, rfl, hp⟩
  have := h b.length b'.length (a ++ mid) (a' ++ mid) (st k (a ++ mid) [] b) (st k (a' ++ mid) [] b')
    ⟨_, _, _, _, rfl, rfl, hp.fwd (Nat.le_refl _) (Nat.le_refl _)⟩
  have e1 : ({ st k a mid b with eaten := (st k a mid b).pos } : Parser) = st k (a ++ mid) [] b := by simp [st]
  rcases hx : x (st k (a ++ mid) [] b) with ⟨r, t⟩
  rcases hy : y (st k (a' ++ mid) [] b') with ⟨r', t'⟩
  rw [hx, hy] at this
  rcases this with h1 | ⟨h1, k2, mid2, b2, b2', rfl, rfl, hp2⟩
  · refine .inl ?_
    unfold context
    rw [e1, hx]
    exact h1
  · obtain ⟨p, p', ep, ep', hp3⟩ := hp.rejoin hp2 id
    have z1 : p = [] := by simpa using ep.symm
    have z2 : p' = [] := by simpa using ep'.symm
    subst z1; subst z2
    have hx' : x (st k (a ++ mid) [] b) = (r, st k2 (a ++ mid ++ []) mid2 b2) := by rw [List.append_nil]; exact hx
    have hy' : y (st k (a' ++ mid) [] b') = (r', st k2 (a' ++ mid ++ []) mid2 b2') := by rw [List.append_nil]; exact hy
    rw [context_st hx', context_st hy']
    exact .inr ⟨h1, _, _, _, _, rfl, rfl, hp3⟩

omit he in
theorem le_ctxT {α β : Type} {A : α → β → Prop} {x : PM α} {y : PM β} (h : ∀ N N' a a', Sim (txt e D m N N' a a') A x y) :
    Sim (brk e D m N N') A (context x) (context y) := by
  rintro s s' ⟨k, a, mid, b, a', mid', b', rfl, rfl, hp⟩
  have := h b.length b'.length (a ++ mid) (a' ++ mid') (st k (a ++ mid) [] b) (st k (a' ++ mid') [] b')
    ⟨_, _, _, _, rfl, rfl, hp.fwd (Nat.le_refl _) (Nat.le_refl _)⟩
  have e1 : ({ st k a mid b with eaten := (st k a mid b).pos } : Parser) = st k (a ++ mid) [] b := by simp [st]
  rcases hx : x (st k (a ++ mid) [] b) with ⟨r, t⟩
  rcases hy : y (st k (a' ++ mid') [] b') with ⟨r', t'⟩
  rw [hx, hy] at this
  rcases this with h1 | ⟨h1, k2, mid2, b2, b2', rfl, rfl, hp2⟩
  · refine .inl ?_
    unfold context
    rw [e1, hx]
    exact h1
  · obtain ⟨p, p', ep, ep', hp3⟩ := hp.rejoin hp2 id
    have z1 : p = [] := by simpa using ep.symm
    have z2 : p' = [] := by simpa using ep'.symm
    subst z1; subst z2
    have hx' : x (st k (a ++ mid) [] b) = (r, st k2 (a ++ mid ++ []) mid2 b2) := by rw [List.append_nil]; exact hx
    have hy' : y (st k (a' ++ mid') [] b') = (r', st k2 (a' ++ mid' ++ []) mid2 b2') := by rw [List.append_nil]; exact hy
    rw [context_st hx', context_st hy']
    exact .inr ⟨h1, _, _, _, _, _, _, _, rfl, rfl, hp3⟩

/-! ### Boundaries -/

omit he in
/-- A boundary: a byte of the set is next. -/
theorem bound_st (k : Ctx) (a mid b : Bytes) : bound (st k a mid b) =
    if (b.head?.any (b!":{}[] ,\n\r".contains ·)) then (.ok (), st k a (mid ++ b.takeWhile isBlank) (b.dropWhile isBlank))
    else (.err .mismatch, st k a [] (mid ++ b)) := by
  unfold bound
  cases b with
  | nil => rw [bind_err (symSet_nil ..)]; simp
  | cons x r =>
    by_cases hx : (b!":{}[] ,\n\r".contains x) = true
    · have hb : back 1 (st k a (mid ++ [x]) r) = (.ok (), st k a mid (x :: r)) := by
        unfold back
        rw [if_pos (by simp; omega)]
        simp [st]
      rw [bind_ok (by rw [symSet_cons, if_pos hx]), bind_ok hb, ws_st]
      simp only [List.head?_cons, Option.any_some, hx, if_true]
    · rw [bind_err (by rw [symSet_cons, if_neg hx])]
      simp only [List.head?_cons, Option.any_some, hx, Bool.false_eq_true, if_false]

theorem RR.boundHead {b b' : Bytes} (h : RR e m b b') :
    b.head?.any (b!":{}[] ,\n\r".contains ·) = b'.head?.any (b!":{}[] ,\n\r".contains ·) := by
  rcases h.head he with ⟨rfl, rfl⟩ | ⟨c, r, -, rfl, rfl⟩ | ⟨r, x, r', rfl, rfl, rfl | rfl⟩ <;> rfl

theorem le_boundX : SimX (brk e D m N N') Any Any (TxtP e D m N N') (fun _ _ => True) bound bound := by
  rintro s s' ⟨k, a, mid, b, a', mid', b', rfl, rfl, hp⟩ -
  rw [bound_st, bound_st, ← hp.rest.boundHead he]
  split
  · obtain ⟨-, h2, -⟩ := hp.rest.drop he notNl_blank.1 notNl_blank.2
    refine .inr ⟨trivial, ⟨_, _, _, _, _, _, _, rfl, rfl, ?_⟩, fun _ _ => trivial, fun h => by cases h⟩
    exact Pair.move (by rw [List.takeWhile_append_dropWhile, List.takeWhile_append_dropWhile]; exact hp) h2
  · exact .inr ⟨trivial, ⟨_, _, _, _, _, _, _, rfl, rfl, hp.reset⟩, fun _ _ => trivial, fun _ => ⟨_, _, _, _, _, _, rfl, rfl, hp.reset⟩⟩

theorem le_bound : Sim (brk e D m N N') (fun _ _ => True) bound bound := (le_boundX he).toSim

theorem tx_bound (a a' : Bytes) : Sim (txt e D m N N' a a') (fun _ _ => True) bound bound := by
  rintro s s' ⟨k, mid, b, b', rfl, rfl, hp⟩
  rw [bound_st, bound_st, ← hp.rest.boundHead he]
  split
  · obtain ⟨h1, h2, -⟩ := hp.rest.drop he notNl_blank.1 notNl_blank.2
    refine .inr ⟨trivial, k, mid ++ b.takeWhile isBlank, _, _, rfl, by rw [h1], ?_⟩
    exact Pair.move (by rw [List.takeWhile_append_dropWhile, h1, List.takeWhile_append_dropWhile]; exact hp) h2
  · exact .inr ⟨trivial, _, _, _, _, rfl, rfl, hp.reset⟩

/-! ### Numbers -/

theorem tx_sym {c : UInt8} (h : c ≠ 0x0A) (h' : c ≠ 0x0D) (a a' : Bytes) : Sim (txt e D m N N' a a') (fun _ _ => True) (sym c) (sym c) :=
  tx_take he (by simp [isIn, notIn, Ne.symm h]) (by simp [isIn, notIn, Ne.symm h']) _ _ _

theorem tx_ws (opt : TakeOpt) (a a' : Bytes) : Sim (txt e D m N N' a a') (fun _ _ => True) (ws opt) (ws opt) :=
  tx_take he (by decide) (by decide) _ _ _

theorem tx_numPrefix (a a' : Bytes) : Sim (txt e D m N N' a a') (fun _ _ => True) numPrefix numPrefix :=
  .bindU (.orDefault trivial (tx_sym he (by decide) (by decide) _ _)) (tx_take he (by decide) (by decide) _ _ _)

theorem tx_octalOrHex (a a' : Bytes) : Sim (txt e D m N N' a a') Eq octalOrHex octalOrHex :=
  .bindEq (Sim.bindU (tx_sym he (by decide) (by decide) _ _) (tx_take he (by decide) (by decide) _ _ _)).isOk fun _ => .ite (.pure rfl)
    (Sim.bindU (tx_sym he (by decide) (by decide) _ _) (tx_take he (by decide) (by decide) _ _ _)).isOk

theorem tx_int (a a' : Bytes) : Sim (txt e D m N N' a a') Eq int int :=
  .bindU (tx_numPrefix he _ _) (.bindEq (tx_text _ _) fun _ => .bindEq (.ite (.bindEq (tx_ctx (fun _ _ => tx_octalOrHex he) _ _) fun _ =>
    .ite (tx_text _ _) (.pure rfl)) (.pure rfl)) fun _ => .bindU (tx_ws he _ _ _) (.bindU (tx_bound he _ _) (.pure rfl)))

omit he in
/-- Blanks, and one of them given back. -/
theorem floatTail_st (k : Ctx) (a mid b : Bytes) : floatTail (st k a mid b) =
    bound (st k a (mid ++ (b.takeWhile isBlank).dropLast) (b.drop (b.takeWhile isBlank).dropLast.length)) := by
  have hc : count (ws (.more 0)) (st k a mid b) = (.ok (b.takeWhile isBlank).length, st k a (mid ++ b.takeWhile isBlank) (b.dropWhile isBlank)) := by
    unfold count
    rw [bind_ok (get_run _), bind_ok (ws_st ..), bind_ok (get_run _)]
    rw [if_pos (by simp)]
    simp
    omega
  unfold floatTail
  rw [bind_ok hc]
  have hb : b.takeWhile isBlank ++ b.dropWhile isBlank = b := List.takeWhile_append_dropWhile
  generalize b.takeWhile isBlank = w at *
  generalize b.dropWhile isBlank = c at *
  rcases List.eq_nil_or_concat w with rfl | ⟨w, x, rfl⟩
  · simp only [List.nil_append] at hb
    subst hb
    simp only [List.length_nil, gt_iff_lt, Nat.lt_irrefl, decide_false, runIf_false]
    rw [bind_ok (pure_run ..)]
    simp
  · have hbk : back 1 (st k a (mid ++ w.concat x) c) = (.ok (), st k a (mid ++ w) (x :: c)) := by
      unfold back
      rw [if_pos (by simp; omega)]
      simp [st]
      omega
    have hpos : decide ((w.concat x).length > 0) = true := by simp
    rw [hpos, runIf_true, bind_ok hbk]
    rw [List.concat_eq_append, List.dropLast_concat, ← hb]
    simp

theorem tx_floatTail (a a' : Bytes) : Sim (txt e D m N N' a a') (fun _ _ => True) floatTail floatTail := by
  rintro s s' ⟨k, mid, b, b', rfl, rfl, hp⟩
  rw [floatTail_st, floatTail_st]
  obtain ⟨h1, h2, h3⟩ := hp.rest.drop he notNl_blank.1 notNl_blank.2
  refine tx_bound he a a' _ _ ⟨k, mid ++ (b.takeWhile isBlank).dropLast, b.drop (b.takeWhile isBlank).dropLast.length,
    b'.drop (b'.takeWhile isBlank).dropLast.length, rfl, by rw [h1], ?_⟩
  have hb : b.takeWhile isBlank ++ b.dropWhile isBlank = b := List.takeWhile_append_dropWhile
  have hb' : b'.takeWhile isBlank ++ b'.dropWhile isBlank = b' := List.takeWhile_append_dropWhile
  have hbl : ∀ x ∈ b.takeWhile isBlank, x ≠ 0x0A := by
    rintro x hx rfl
    have := mem_takeWhile hx
    revert this; decide
  rw [← h1] at hb' ⊢
  generalize b.takeWhile isBlank = w at *
  generalize b.dropWhile isBlank = c at *
  generalize b'.dropWhile isBlank = c' at *
  rcases List.eq_nil_or_concat w with rfl | ⟨w, x, rfl⟩
  · simpa using hp
  · rw [List.concat_eq_append] at *
    have h4 : c' = withBreaks e c := by
      rcases h3 with h3 | h3
      · simp at h3
      · exact h3
    subst h4
    have r1 : b.drop w.length = x :: c := by rw [← hb]; simp
    have r2 : b'.drop w.length = x :: withBreaks e c := by rw [← hb']; simp
    rw [List.dropLast_concat, r1, r2]
    refine Pair.move (w := w) (w' := w) ?_ (.inl (wb_cons (hbl x (by simp)) c).symm)
    have : w ++ x :: c = b := by rw [← hb]; simp
    have g : w ++ x :: withBreaks e c = b' := by rw [← hb']; simp
    rw [this, g]
    exact hp

theorem tx_float (a a' : Bytes) : Sim (txt e D m N N' a a') Eq float float :=
  .bindU (tx_numPrefix he _ _) (.bindU (tx_sym he (by decide) (by decide) _ _) (.bindU (tx_take he (by decide) (by decide) _ _ _)
    (.bindEq (tx_text _ _) fun _ => .bindU (tx_floatTail he _ _) (.pure rfl))))

theorem tx_sci (a a' : Bytes) : Sim (txt e D m N N' a a') Eq sciFloat sciFloat :=
  .bindU (tx_numPrefix he _ _) (.bindU (tx_take he (by decide) (by decide) _ _ _) (.bindU (tx_take he (by decide) (by decide) _ _ _)
    (.bindU (tx_take he (by decide) (by decide) _ _ _) (.bindEq (tx_text _ _) fun _ => .bindU (tx_floatTail he _ _) (.pure rfl)))))

theorem tx_nums (a a' : Bytes) : Sim (txt e D m N N' a a') Eq numTry numTry := by
  unfold numTry
  refine .bind (.try? (tx_float he _ _)) (optEq fun o => ?_)
  cases o with
  | some s => exact .pure rfl
  | none =>
  refine .bind (.try? (tx_sci he _ _)) (optEq fun o => ?_)
  cases o with
  | some s => exact .pure rfl
  | none =>
  refine .bind (.try? (tx_int he _ _)) (optEq fun o => ?_)
  cases o with
  | some s => exact .pure rfl
  | none => exact .pure rfl

/-! ### Symbols and indentation -/

/-- No line break in it. -/
def Flat (l : Bytes) : Prop := ∀ c ∈ l, c ≠ 0x0A ∧ c ≠ 0x0D

omit he in
theorem flat_of {l : Bytes} (h : l.all (fun c => c != 0x0A && c != 0x0D) = true) : Flat l := by
  intro c hc
  have := List.all_eq_true.1 h c hc
  simpa using this

omit he in
theorem flat_in {l : Bytes} (h : Flat l) : isIn l 0x0A = false ∧ isIn l 0x0D = false := by
  simp only [isIn, notIn, Bool.not_not]
  constructor
  · simpa using fun hx => (h _ hx).1 rfl
  · simpa using fun hx => (h _ hx).2 rfl

theorem le_symSetX {l : Bytes} (h : Flat l) : SimX (brk e D m N N') Any Any (TxtP e D m N N') (fun _ _ => True) (symSet l) (symSet l) :=
  le_takeX he (flat_in h).1 (flat_in h).2 _

theorem le_symSet {l : Bytes} (h : Flat l) : Sim (brk e D m N N') (fun _ _ => True) (symSet l) (symSet l) := (le_symSetX he h).toSim

theorem le_symX {c : UInt8} (h : c ≠ 0x0A) (h' : c ≠ 0x0D) :
    SimX (brk e D m N N') Any Any (TxtP e D m N N') (fun _ _ => True) (sym c) (sym c) :=
  le_symSetX he (by intro x hx; simp at hx; subst hx; exact ⟨h, h'⟩)

theorem le_sym {c : UInt8} (h : c ≠ 0x0A) (h' : c ≠ 0x0D) : Sim (brk e D m N N') (fun _ _ => True) (sym c) (sym c) := (le_symX he h h').toSim

theorem le_symSeqX : ∀ {l : Bytes}, Flat l → SimX (brk e D m N N') Any Any (TxtP e D m N N') (fun _ _ => True) (symSeq l) (symSeq l)
  | [], _ => .pure trivial
  | c :: r, h => .bindU (le_symX he (h c (by simp)).1 (h c (by simp)).2) (le_symSeqX fun x hx => h x (by simp [hx]))

theorem le_symSeq {l : Bytes} (h : Flat l) : Sim (brk e D m N N') (fun _ _ => True) (symSeq l) (symSeq l) := (le_symSeqX he h).toSim

theorem le_ws (opt : TakeOpt) : Sim (brk e D m N N') (fun _ _ => True) (ws opt) (ws opt) := le_take he (by decide) (by decide) _

omit he in
theorem ind_seq (level : Nat) (k : Ctx) (a mid b : Bytes) :
    ind level (st k a mid b) = symSeq (spaces (k.want level)) (st (k.at level) a mid b) := by
  rw [ind_eq, symSeq_eq]
  simp [spaces]

omit he in
theorem spaces_flat (n : Nat) : Flat (spaces n) := by
  intro c hc
  simp only [spaces, List.mem_replicate] at hc
  rw [hc.2]; decide

omit he in
theorem at_zero {k : Ctx} (h : k.consumed = 0) (level : Nat) : (k.at level).consumed = 0 := h

theorem le_indX (level : Nat) : SimX (brk e D m N N') Any Any (TxtP e D m N N') (fun _ _ => True) (ind level) (ind level) := by
  rintro s s' ⟨k, a, mid, b, a', mid', b', rfl, rfl, hp⟩ -
  rw [ind_seq, ind_seq]
  exact le_symSeqX he (spaces_flat _) _ _ ⟨_, _, _, _, _, _, _, rfl, rfl, hp.with (at_zero hp.zero level)⟩ trivial

theorem le_ind (level : Nat) : Sim (brk e D m N N') (fun _ _ => True) (ind level) (ind level) := (le_indX he level).toSim

theorem le_complex : Sim (brk e D m N N') (fun _ _ => True) complexMapping complexMapping :=
  .bindU (le_sym he (by decide) (by decide)) (le_bound he)

theorem tx_symSet {l : Bytes} (h : Flat l) (a a' : Bytes) : Sim (txt e D m N N' a a') (fun _ _ => True) (symSet l) (symSet l) :=
  tx_take he (flat_in h).1 (flat_in h).2 _ _ _

/-! ### Names, tags -/

theorem tx_identifier (a a' : Bytes) : Sim (txt e D m N N' a a') (fun _ _ => True) identifier identifier :=
  .bindU (tx_take he (by decide) (by decide) _ _ _) (tx_take he (by decide) (by decide) _ _ _)

theorem le_anchor : Sim (brk e D m N N') Eq anchor anchor :=
  .bindU (le_sym he (by decide) (by decide)) (le_ctxT fun _ _ _ _ => .bindU (tx_identifier he _ _) (tx_text _ _))

theorem le_anchorUse : Sim (brk e D m N N') Eq anchorUse anchorUse :=
  .bindU (le_sym he (by decide) (by decide)) (le_ctxT fun _ _ _ _ => .bindU (tx_identifier he _ _) (tx_text _ _))

omit he in
theorem tx_tagLookup (key : Bytes) (a a' : Bytes) : Sim (txt e D m N N' a a') Eq (tagLookup key) (tagLookup key) := by
  rintro s s' ⟨k, mid, b, b', rfl, rfl, hp⟩
  unfold tagLookup
  rw [st_tag, st_tag]
  split
  · exact .inr ⟨rfl, _, _, _, _, rfl, rfl, hp⟩
  · exact .inr ⟨rfl, _, _, _, _, rfl, rfl, hp⟩

theorem tx_tagPrefixPart (h : Bytes) (a a' : Bytes) : Sim (txt e D m N N' a a') Eq (tagPrefixPart h) (tagPrefixPart h) :=
  .ite (.bindEq (tx_sym he (by decide) (by decide) _ _).isOk fun _ => .ite (tx_tagLookup _ _ _) (.pure rfl))
    (.bindEq (tx_sym he (by decide) (by decide) _ _).isOk fun _ => .ite (.bindEq (tx_ctx (fun _ _ _ _ =>
        .bindU (tx_take he (by decide) (by decide) _ _ _) (tx_text _ _)) _ _) fun _ => .bindU (tx_sym he (by decide) (by decide) _ _) (.pure rfl))
      (.bindEq (tx_sym he (by decide) (by decide) _ _).isOk fun _ => .ite (tx_tagLookup _ _ _) (tx_tagLookup _ _ _)))

theorem le_tag : Sim (brk e D m N N') Eq tag tag :=
  .bindU (le_sym he (by decide) (by decide)) (le_ctxT fun _ _ _ _ => .bindU (.orDefault trivial (tx_identifier he _ _)) (.bindEq (tx_text _ _) fun _ =>
    .bindEq (tx_tagPrefixPart he _ _ _) fun _ => .bindEq (tx_ctx (fun _ _ _ _ => .bindEq (tx_identifier he _ _).isOk fun _ =>
      .ite (tx_text _ _) (.pure rfl)) _ _) fun _ => .pure rfl))

/-! ### Directives -/

theorem tx_directiveHandle (a a' : Bytes) : Sim (txt e D m N N' a a') Eq directiveHandle directiveHandle :=
  .bindEq (tx_identifier he _ _).isOk fun _ => .ite (.bindEq (tx_text _ _) fun _ => .bindU (tx_sym he (by decide) (by decide) _ _) (.pure rfl))
    (.bindEq (tx_sym he (by decide) (by decide) _ _).isOk fun _ => .ite (.pure rfl) (.pure rfl))

theorem le_directiveTag : Sim (brk e D m N N') (fun _ _ => True) directiveTag directiveTag := by
  refine .bindU (le_ws he _) (.bindU (le_sym he (by decide) (by decide)) (le_ctxT fun _ _ _ _ => .bindEq (tx_directiveHandle he _ _) fun hd =>
    .bindU (tx_ws he _ _ _) (.bindEq (tx_ctx (fun _ _ _ _ => .bindU (tx_take he (by decide) (by decide) _ _ _) (tx_text _ _)) _ _) fun t => .modify ?_)))
  rintro s s' ⟨k, mid, b, b', rfl, rfl, hp⟩
  exact ⟨{ k with tag := mapInsert hd t k.tag }, mid, b, b', rfl, rfl, hp.with hp.zero⟩

theorem le_directiveYaml (hD : (0x0D : UInt8) ∉ D) : Sim (brk e D m N N') (fun _ _ => True) directiveYaml directiveYaml := by
  refine .bindU (le_ws he _) (.bind .get ?_)
  rintro s s' ⟨k, a, mid, b, a', mid', b', rfl, rfl, hp⟩
  rw [st_versionChecked, st_versionChecked]
  refine .ite (le_err he hD _ _) (.bindEq (le_ctx fun _ _ => .bindEq (le_symSeq he (flat_of (by decide))).isOk fun _ => .ite (.pure rfl)
    (le_symSeq he (flat_of (by decide))).isOk) fun _ => .ite (.modify ?_) (le_err he hD _ _))
  rintro s s' ⟨k, a, mid, b, a', mid', b', rfl, rfl, hp⟩
  exact ⟨{ k with versionChecked := true }, a, mid, b, a', mid', b', rfl, rfl, hp.with hp.zero⟩

theorem le_directive (hD : (0x0D : UInt8) ∉ D) : Sim (brk e D m N N') (fun _ _ => True) directive directive :=
  .bindU (le_sym he (by decide) (by decide)) (.bindU (le_ctx fun _ _ => .bindEq (le_symSeq he (flat_of (by decide))).isOk fun _ =>
    .ite (le_directiveYaml he hD) (.bindEq (le_symSeq he (flat_of (by decide))).isOk fun _ => .ite (le_directiveTag he)
      (le_take he (by decide) (by decide) _))) (.bindEq (le_gap he hD _) fun _ => .pure trivial))

/-! ### Strings in quotes -/

/-- A text grabbed from the cursor on. -/
theorem le_grab {f : UInt8 → Bool} (h1 : f 0x0A = false) (h2 : f 0x0D = false) (opt : TakeOpt) {α β : Type} {A : α → β → Prop}
    {x : Bytes → PM α} {y : Bytes → PM β} (h : ∀ t, Sim (brk e D m N N') A (x t) (y t)) :
    Sim (brk e D m N N') A (do forward; takeWhile f opt; let t ← text; x t) (do forward; takeWhile f opt; let t ← text; y t) := by
  have k1 : SimX (brk e D m N N') (TxtP e D m N N') (TxtP e D m N N') Any (fun _ _ => True) (takeWhile f opt) (takeWhile f opt) := by
    intro s s' hR hp
    rcases Txt.toX (tx_take he h1 h2 opt) s s' hR hp with h | ⟨q1, q2, q3, -⟩
    · exact .inl h
    · exact .inr ⟨q1, q2, q3, fun _ => trivial⟩
  have k2 : SimX (brk e D m N N') (TxtP e D m N N') Any Any Eq text text := by
    intro s s' hR hp
    rcases Txt.toX tx_text s s' hR hp with h | ⟨q1, q2, -, -⟩
    · exact .inl h
    · exact .inr ⟨q1, q2, fun _ _ => trivial, fun _ => trivial⟩
  exact (SimX.bindU le_fwdX (SimX.bindU k1 (SimX.bindEq k2 fun t => SimX.of (h t)))).toSim

theorem le_quotedLoop (hD : (0x0D : UInt8) ∉ D) {q : UInt8} (hq : q ≠ 0x0A) (hq' : q ≠ 0x0D) {ig : Bytes} (hig : Flat ig) : ∀ n v,
    Sim (brk e D m N N') Eq (quotedLoop q ig n v) (quotedLoop q ig n v)
  | 0, _ => .diverge
  | n + 1, v => by
    have ih := le_quotedLoop hD hq hq' hig n
    simp only [quotedLoop]
    refine le_grab he (by simp [notIn]) (by simp [notIn]) _ fun t => ?_
    refine .bindU le_fwd (.bindEq (le_symSeq he hig).isOk fun _ => .ite (ih _) (.bind (le_gap he hD _).try? (optEq fun o => ?_)))
    cases o with
    | some t => exact .bindU (le_ws he _) (ih _)
    | none => exact .bindEq (le_sym he (by decide) (by decide)).isOk fun _ => .ite (ih _) (.bindEq (le_sym he hq hq').isOk fun _ =>
        .ite (.pure rfl) (ih _))

theorem le_quoted (hD : (0x0D : UInt8) ∉ D) {q : UInt8} (hq : q ≠ 0x0A) (hq' : q ≠ 0x0D) {ig : Bytes} (hig : Flat ig) (n : Nat) :
    Sim (brk e D m N N') Eq (stringQuoted n q ig) (stringQuoted n q ig) :=
  le_ctx fun _ _ => .bindU (le_sym he hq hq') (le_grab he (by decide) (by decide) _ fun _ => le_quotedLoop he hD hq hq' hig _ _)

/-! ### Plain strings -/

theorem le_plainStop (hD : (0x0D : UInt8) ∉ D) : Sim (brk e D m N N') Eq plainStop plainStop := by
  unfold plainStop
  refine .bind (le_food he) fun a b hab => ?_
  rw [hab]
  exact .ite (.pure rfl) (.bindEq (le_symSeq he (flat_of (by decide))).isOk fun _ => .ite (.pure rfl)
    (.bindEq (.bindEq (le_sym he (by decide) (by decide)).isOk fun _ => .ite (le_nl he hD).isOk (.pure rfl)) fun _ => .ite (.pure rfl)
      (le_symSeq he (flat_of (by decide))).isOk))

omit he in
theorem txX {α β : Type} {A : α → β → Prop} {x : PM α} {y : PM β} (h : ∀ a a', Sim (txt e D m N N' a a') A x y) :
    SimX (brk e D m N N') (TxtP e D m N N') (TxtP e D m N N') Any A x y := by
  intro s s' hR hp
  rcases Txt.toX h s s' hR hp with h | ⟨q1, q2, q3, -⟩
  · exact .inl h
  · exact .inr ⟨q1, q2, q3, fun _ => trivial⟩

theorem le_plainLoop (hD : (0x0D : UInt8) ∉ D) (level : Nat) (inner : Bool) {patt : Bytes} (hp : notIn patt 0x0A = false) (hp' : notIn patt 0x0D = false) : ∀ n v lead,
    Sim (brk e D m N N') Eq (plainLoop level inner patt n v lead) (plainLoop level inner patt n v lead)
  | 0, _, _ => .diverge
  | n + 1, v, lead => by
    have ih := le_plainLoop hD level inner hp hp' n
    simp only [plainLoop]
    refine le_grab he hp hp' _ fun t => ?_
    refine .bindU le_fwd (.bindEq (le_plainStop he hD) fun _ => .ite (.bindU le_bwd (.pure rfl)) ?_)
    refine SimX.toSim (S := Any) (E := Any) (.bindU le_fwdX (.bindEq (txX fun _ _ => (tx_symSet he (flat_of (by decide)) _ _).isOk) fun _ =>
      .ite (.bindEq (txX tx_text) fun _ => .of (ih _ _)) ?_))
    refine .bindEq (txX fun _ _ => .ite (tx_symSet he (flat_of (by decide)) _ _).isOk (.pure rfl)) fun _ =>
      .ite (.bindEq (txX tx_text) fun _ => .of (ih _ _)) (.of ?_)
    refine .bindEq (le_ind he _).isOk fun _ => .ite (ih _ _) (.bind (le_gap he hD _).try? (optEq fun o => ?_))
    cases o with
    | some t => exact .bindEq (le_ind he _).isOk fun _ => .ite (ih _ _) (.pure rfl)
    | none => exact .pure rfl

theorem le_plain (hD : (0x0D : UInt8) ∉ D) (n level : Nat) (inner : Bool) :
    Sim (brk e D m N N') Eq (stringPlain n level inner) (stringPlain n level inner) :=
  le_ctx fun _ _ => .bindEq (le_plainLoop he hD _ _ (by cases inner <;> decide) (by cases inner <;> decide) _ _ _) fun _ => .ite .mismatch (.pure rfl)

/-! ### Block scalars -/

omit he in
theorem nlLen_last {b : Bytes} (h : nlLen b ≠ 0) : ∃ u x, (x = 0x0A ∨ x = 0x0D) ∧ b.take (nlLen b) = u ++ [x] := by
  obtain ⟨c, r, rfl, hc⟩ := nl_head h
  cases r with
  | nil =>
    refine ⟨[], c, hc, ?_⟩
    rcases hc with rfl | rfl <;> rfl
  | cons y r =>
    rcases hc with rfl | rfl
    · by_cases hy : y = 0x0D
      · subst hy; exact ⟨[0x0A], 0x0D, .inr rfl, rfl⟩
      · rw [nlLen_lf (by rintro s ⟨⟩; exact hy rfl)]
        exact ⟨[], 0x0A, .inl rfl, rfl⟩
    · by_cases hy : y = 0x0A
      · subst hy; exact ⟨[0x0D], 0x0A, .inl rfl, rfl⟩
      · have : nlLen (0x0D :: y :: r) = 1 := by unfold nlLen; split <;> simp_all
        rw [this]
        exact ⟨[], 0x0D, .inr rfl, rfl⟩

omit he in
/-- The loop ends right behind a line break. -/
theorem wrappedLoop_end {L : Nat} {sep : UInt8} {leading : Bool} : ∀ (n : Nat) (v : Bytes) (k : Ctx) (a mid b : Bytes) (r : Bytes) (t : Parser),
    wrappedLoop L sep leading n v (st k a mid b) = (.ok r, t) →
    ∃ k' u x c, (x = 0x0A ∨ x = 0x0D) ∧ b = u ++ x :: c ∧ t = st k' (a ++ (mid ++ (u ++ [x]))) [] c := by
  intro n
  induction n with
  | zero => intro v k a mid b r t h; simp [wrappedLoop, diverge] at h
  | succ n ih =>
    intro v k a mid b r t h
    have line : ∀ (v : Bytes) (k : Ctx) (a mid b : Bytes), wrapLine L sep leading n v (st k a mid b) = (.ok r, t) →
        ∃ k' u x c, (x = 0x0A ∨ x = 0x0D) ∧ b = u ++ x :: c ∧ t = st k' (a ++ (mid ++ (u ++ [x]))) [] c := by
      intro v k a mid b h
      rw [wrapLine, bind_ok (forward_st ..), bind_ok (takeWhile_more0 ..), bind_ok (text_st ..)] at h
      obtain ⟨k', u, x, c, hx, hb, ht⟩ := ih _ _ _ _ _ _ _ h
      refine ⟨k', b.takeWhile (notIn b!"\n\r") ++ u, x, c, hx, ?_, ?_⟩
      · rw [List.append_assoc, ← hb, List.takeWhile_append_dropWhile]
      · rw [ht]; simp
    rw [wrappedLoop_unfold] at h
    by_cases h0 : nlLen b = 0
    · rw [bind_err (by rw [nl_eq, if_pos h0])] at h
      simp at h
    · rw [bind_ok (by rw [nl_eq, if_neg h0]), bind_ok (forward_st ..)] at h
      obtain ⟨u0, x0, hx0, ht0⟩ := nlLen_last h0
      have hb := List.take_append_drop (nlLen b) b
      rw [ht0] at h hb
      generalize b.drop (nlLen b) = q at h hb
      have stop : ∀ k' w, w = q → t = st k' (a ++ (mid ++ (u0 ++ [x0]))) [] w →
          ∃ k' u x c, (x = 0x0A ∨ x = 0x0D) ∧ b = u ++ x :: c ∧ t = st k' (a ++ (mid ++ (u ++ [x]))) [] c := by
        rintro k' w rfl ht
        exact ⟨k', u0, x0, w, hx0, by rw [← hb]; simp, ht⟩
      have go : ∀ v k' w1 w2, w1 ++ w2 = q → wrapLine L sep leading n v (st k' (a ++ (mid ++ (u0 ++ [x0]))) w1 w2) = (.ok r, t) →
          ∃ k' u x c, (x = 0x0A ∨ x = 0x0D) ∧ b = u ++ x :: c ∧ t = st k' (a ++ (mid ++ (u ++ [x]))) [] c := by
        rintro v k' w1 w2 rfl h
        obtain ⟨k', u, x, c, hx, e1, ht⟩ := line _ _ _ _ _ h
        refine ⟨k', u0 ++ (x0 :: (w1 ++ u)), x, c, hx, ?_, ?_⟩
        · rw [← hb, e1]; simp
        · rw [ht]; simp
      by_cases h1 : (spaces (k.want L)).isPrefixOf q = true
      · rw [bind_ok (isOk_ok (by rw [ind_eq, if_pos h1]))] at h
        simp only [if_true] at h
        refine go _ _ _ _ ?_ h
        obtain ⟨z, hz⟩ := List.isPrefixOf_iff_prefix.1 h1
        rw [← hz]; simp [spaces]
      · rw [bind_ok (isOk_err (by rw [ind_eq, if_neg h1]))] at h
        simp only [Bool.false_eq_true, if_false] at h
        cases hg : gapSpec false ([] ++ q) with
        | none =>
          rw [bind_ok (try_err (by rw [gap_eq, hg]))] at h
          simp only [gapLead, Bool.false_eq_true, if_false, pure_run, Prod.mk.injEq, List.nil_append] at h
          exact stop _ _ rfl h.2.symm
        | some y =>
          obtain ⟨t', taken, left⟩ := y
          rw [bind_ok (try_ok (by rw [gap_eq, hg]))] at h
          have hq := gapSpec_append' hg
          simp only [List.nil_append] at h hq
          by_cases h2 : (spaces ((k.at L).want L)).isPrefixOf left = true
          · rw [bind_ok (isOk_ok (by rw [ind_eq, if_pos h2]))] at h
            simp only [if_true] at h
            refine go _ _ _ _ ?_ h
            obtain ⟨z, hz⟩ := List.isPrefixOf_iff_prefix.1 h2
            rw [← hq, ← hz]; simp [spaces]
          · rw [bind_ok (isOk_err (by rw [ind_eq, if_neg h2]))] at h
            simp only [Bool.false_eq_true, if_false, pure_run, Prod.mk.injEq] at h
            exact stop _ _ hq h.2.symm

theorem le_wrappedLoop (hD : (0x0D : UInt8) ∉ D) (level : Nat) (sep : UInt8) (leading : Bool) : ∀ (n n' N N' : Nat) (v : Bytes), N < n → N' < n' →
    Sim (brk e D false N N') Eq (wrappedLoop level sep leading n v) (wrappedLoop level sep leading n' v)
  | 0, _, _, _, _, h, _ => by omega
  | _ + 1, 0, _, _, _, _, h => by omega
  | n + 1, n' + 1, N, N', v, h1, h2 => by
    rintro s s' ⟨k, a, mid, b, a', mid', b', rfl, rfl, hp⟩
    rw [wrappedLoop_unfold, wrappedLoop_unfold]
    obtain ⟨k1, k2⟩ := hp.rest.nl he (hp.noCR hD)
    by_cases h0 : nlLen b = 0
    · rw [bind_err (by rw [nl_eq, if_pos h0]), bind_err (by rw [nl_eq, if_pos (k1.1 h0)])]
      exact .inr ⟨trivial, _, _, _, _, _, _, _, rfl, rfl, hp⟩
    · have h0' : nlLen b' ≠ 0 := fun h => h0 (k1.2 h)
      have g1 : nl (st k a mid b) = _ := nl_eq k a mid b
      have g2 : nl (st k a' mid' b') = _ := nl_eq k a' mid' b'
      rw [if_neg h0] at g1
      rw [if_neg h0'] at g2
      rw [bind_ok g1, bind_ok g2, bind_ok (forward_st k a (mid ++ b.take (nlLen b)) _), bind_ok (forward_st k a' (mid' ++ b'.take (nlLen b')) _)]
      have hp1 : Pair e D false N N' k a (mid ++ b.take (nlLen b)) (b.drop (nlLen b)) a' (mid' ++ b'.take (nlLen b')) (b'.drop (nlLen b')) :=
        Pair.move (by rw [List.take_append_drop, List.take_append_drop]; exact hp) (k2 h0)
      have l1 := nlLen_le b
      have l2 := nlLen_le b'
      have l3 := hp.rest_le
      have ih := fun v => le_wrappedLoop hD level sep leading n n' (b.drop (nlLen b)).length (b'.drop (nlLen b')).length v
        (by simp only [List.length_drop]; omega) (by simp only [List.length_drop]; omega)
      have line : ∀ v : Bytes, Sim (brk e D false (b.drop (nlLen b)).length (b'.drop (nlLen b')).length) Eq
          (wrapLine level sep leading n v) (wrapLine level sep leading n' v) :=
        fun v => le_grab he (by decide) (by decide) _ fun _ => ih _
      have body : Sim (brk e D false (b.drop (nlLen b)).length (b'.drop (nlLen b')).length) Eq (do
          if ← isOk (ind level) then wrapLine level sep leading n v
          else match ← try? (gap false) with
            | some t =>
              if ← isOk (ind level) then wrapLine level sep leading n (v ++ List.replicate t 0x0A)
              else pure (v ++ List.replicate t 0x0A)
            | none => pure v) (do
          if ← isOk (ind level) then wrapLine level sep leading n' v
          else match ← try? (gap false) with
            | some t =>
              if ← isOk (ind level) then wrapLine level sep leading n' (v ++ List.replicate t 0x0A)
              else pure (v ++ List.replicate t 0x0A)
            | none => pure v) := by
        refine .bindEq (le_ind he _).isOk fun _ => .ite (line _) (.bind (le_gap he hD _).try? (optEq fun o => ?_))
        cases o with
        | some t => exact .bindEq (le_ind he _).isOk fun _ => .ite (line _) (.pure rfl)
        | none => exact .pure rfl
      rcases body _ _ ⟨_, _, _, _, _, _, _, rfl, rfl, hp1.fwd (Nat.le_refl _) (Nat.le_refl _)⟩ with h | ⟨q1, q2⟩
      · exact .inl h
      · refine .inr ⟨q1, Brk.mono q2 id ?_ ?_⟩ <;> simp only [List.length_drop] <;> omega

/-- Not in the middle of a break. -/
def Low (e D : Bytes) (N N' : Nat) (s s' : Parser) : Prop :=
  ∃ k a mid b a' mid', s = st k a mid b ∧ s' = st k a' mid' (withBreaks e b) ∧ Pair e D true N N' k a mid b a' mid' (withBreaks e b)

omit he in
theorem Pair.low (h : Pair e D true N N' k a mid b a' mid' (withBreaks e b)) {M M' : Nat} (h1 : b.length ≤ M) (h2 : (withBreaks e b).length ≤ M') :
    Pair e D false M M' k (a ++ mid) [] b (a' ++ mid') [] (withBreaks e b) :=
  ⟨h.zero, by simpa using h.doc, by simpa using h.doc', .reg, .reg, h1, h2⟩

omit he in
theorem low_ctx {α β : Type} {A : α → β → Prop} {x : PM α} {y : PM β} (h : ∀ N N', Sim (brk e D false N N') A x y) :
    SimX (brk e D true N N') (Low e D N N') (Low e D N N') Any A (context x) (context y) := by
  rintro s s' - ⟨k, a, mid, b, a', mid', rfl, rfl, hp⟩
  have := h b.length (withBreaks e b).length (st k (a ++ mid) [] b) (st k (a' ++ mid') [] (withBreaks e b))
    ⟨_, _, _, _, _, _, _, rfl, rfl, hp.low (Nat.le_refl _) (Nat.le_refl _)⟩
  have e1 : ({ st k a mid b with eaten := (st k a mid b).pos } : Parser) = st k (a ++ mid) [] b := by simp [st]
  rcases hx : x (st k (a ++ mid) [] b) with ⟨r, t⟩
  rcases hy : y (st k (a' ++ mid') [] (withBreaks e b)) with ⟨r', t'⟩
  rw [hx, hy] at this
  rcases this with h1 | ⟨h1, k2, a2, mid2, b2, a2', mid2', b2', rfl, rfl, hp2⟩
  · refine .inl ?_
    unfold context
    rw [e1, hx]
    exact h1
  · obtain ⟨p, p', rfl, rfl, hp3⟩ := hp.rejoin hp2 (fun h => by cases h)
    rw [context_st hx, context_st hy]
    have hb : b2' = withBreaks e b2 := by
      rcases hp2.rest with h | ⟨h, -⟩
      · exact h
      · cases h
    subst hb
    exact .inr ⟨h1, ⟨_, _, _, _, _, _, _, rfl, rfl, hp3⟩, fun _ _ => ⟨_, _, _, _, _, _, rfl, rfl, hp3⟩, fun _ => trivial⟩

theorem low_ws : SimX (brk e D true N N') (Low e D N N') (Low e D N N') Any (fun _ _ => True) (ws (.more 0)) (ws (.more 0)) := by
  rintro s s' - ⟨k, a, mid, b, a', mid', rfl, rfl, hp⟩
  rw [ws_st, ws_st]
  obtain ⟨h1, -, h3⟩ := (RR.reg (e := e) (m := true) (b := b)).drop he notNl_blank.1 notNl_blank.2
  have h4 : (withBreaks e b).dropWhile isBlank = withBreaks e (b.dropWhile isBlank) := by
    rcases h3 with h3 | h3
    · rw [← drop_takeWhile, ← h1, h3, ← drop_takeWhile, h3]; rfl
    · exact h3
  have hq : Pair e D true N N' k a (mid ++ b.takeWhile isBlank) (b.dropWhile isBlank) a' (mid' ++ (withBreaks e b).takeWhile isBlank)
      (withBreaks e (b.dropWhile isBlank)) := by
    refine Pair.move ?_ .reg
    rw [← h4, List.takeWhile_append_dropWhile, List.takeWhile_append_dropWhile]
    exact hp
  rw [h4]
  exact .inr ⟨trivial, ⟨_, _, _, _, _, _, _, rfl, rfl, hq⟩, fun _ _ => ⟨_, _, _, _, _, _, rfl, rfl, hq⟩, fun _ => trivial⟩

theorem le_wrapped (hD : (0x0D : UInt8) ∉ D) (level : Nat) (sep : UInt8) (leading : Bool) :
    SimX (brk e D true N N') (Low e D N N') Any Any Eq (stringWrapped level sep leading) (stringWrapped level sep leading) := by
  rintro s s' - ⟨k, a, mid, b, a', mid', rfl, rfl, hp⟩
  have hlow := hp.low (Nat.le_refl _) (Nat.le_refl _)
  generalize withBreaks e b = b' at *
  have := le_wrappedLoop he hD level sep leading (b.length + 1) (b'.length + 1) b.length b'.length [] (Nat.lt_succ_self _) (Nat.lt_succ_self _)
    (st k (a ++ mid) [] b) (st k (a' ++ mid') [] b') ⟨_, _, _, _, _, _, _, rfl, rfl, hlow⟩
  have e1 : ∀ a mid b : Bytes, ({ st k a mid b with eaten := (st k a mid b).pos } : Parser) = st k (a ++ mid) [] b := by intro a mid b; simp [st]
  have run : ∀ a mid b : Bytes, stringWrapped level sep leading (st k a mid b) =
      (((wrappedLoop level sep leading (b.length + 1) [] >>= fun v => do back 1; pure (v ++ [0x0A])) (st k (a ++ mid) [] b)).1,
        { ((wrappedLoop level sep leading (b.length + 1) [] >>= fun v => do back 1; pure (v ++ [0x0A])) (st k (a ++ mid) [] b)).2 with
          eaten := a.length }) := by
    intro a mid b
    unfold stringWrapped context
    rw [e1, bind_ok (get_run _), st_rest]
    rfl
  rw [run, run]
  rcases hx : wrappedLoop level sep leading (b.length + 1) [] (st k (a ++ mid) [] b) with ⟨r, t⟩
  rcases hy : wrappedLoop level sep leading (b'.length + 1) [] (st k (a' ++ mid') [] b') with ⟨r', t'⟩
  rw [hx, hy] at this
  rcases this with h1 | ⟨h1, h2⟩
  · simp only at h1
    subst h1
    rw [bind_panic hx]
    exact .inl rfl
  · have same : ∀ {ρ ρ' : Out Bytes}, OutRel (SameSpot e D) Eq ρ ρ' → (∀ v, ρ ≠ .ok v) →
        OutRel (SameSpot e D) Eq ρ ρ' ∧ Brk e D true N N' { t with eaten := a.length } { t' with eaten := a'.length } := by
      intro ρ ρ' hρ _
      obtain ⟨k2, a2, mid2, b2, a2', mid2', b2', rfl, rfl, hp2⟩ := h2
      obtain ⟨p, p', rfl, rfl, hp3⟩ := hp.rejoin hp2 (fun h => by cases h)
      refine ⟨hρ, k2, a, mid ++ (p ++ mid2), b2, a', mid' ++ (p' ++ mid2'), b2', ?_, ?_, hp3⟩
      · simp [st, Nat.add_assoc]
      · simp [st, Nat.add_assoc]
    simp only at h1 h2
    cases r <;> cases r' <;> first | exact h1.elim | skip
    · rename_i v v'
      have h1 : v = v' := h1
      subst h1
      obtain ⟨k1, u, x, c, hxx, hb, rfl⟩ := wrappedLoop_end _ _ _ _ _ _ _ _ hx
      obtain ⟨k1', u', x', c', hxx', hb', rfl⟩ := wrappedLoop_end _ _ _ _ _ _ _ _ hy
      obtain ⟨k2, a2, mid2, b2, a2', mid2', b2', q1, q2, hp2⟩ := h2
      have kk : k1 = k1' := by
        have g1 := congrArg Parser.ctx q1
        have g2 := congrArg Parser.ctx q2
        exact g1.trans g2.symm
      have zz : k1.consumed = 0 := by
        have g1 := congrArg Parser.consumed q1
        exact g1.trans hp2.zero
      subst kk
      have cc : c' = withBreaks e c := by
        have g1 := congrArg Parser.rest q1
        have g2 := congrArg Parser.rest q2
        rw [st_rest, st_rest] at g1 g2
        rw [g1, g2]
        rcases hp2.rest with h | ⟨h, -⟩
        · exact h
        · cases h
      subst cc
      have hb1 : ∀ (a mid u : Bytes) (x : UInt8) (c : Bytes), back 1 (st k1 (a ++ mid ++ ([] ++ (u ++ [x]))) [] c) =
          (.ok (), { st k1 (a ++ mid ++ ([] ++ (u ++ [x]))) [] c with pos := a.length + mid.length + u.length }) := by
        intro a mid u x c
        unfold back
        rw [if_pos (by simp; omega)]
        simp only [Prod.mk.injEq, true_and]
        congr 1
        simp
        omega
      have fin : ∀ (a mid u : Bytes) (x : UInt8) (c : Bytes), ({ ({ st k1 (a ++ mid ++ ([] ++ (u ++ [x]))) [] c with pos := a.length + mid.length + u.length } : Parser) with eaten := a.length } : Parser)
          = st k1 a (mid ++ u) (x :: c) := by
        intro a mid u x c
        simp [st, Nat.add_assoc]
      rw [bind_ok hx, bind_ok hy, bind_ok (hb1 ..), bind_ok (hb1 ..)]
      simp only [pure_run, fin]
      have hxn : x = 0x0A := by
        rcases hxx with h | h
        · exact h
        · exfalso; apply hD; rw [← hp.doc, hb, h]; simp
      subst hxn
      have rr : RR e true (0x0A :: c) (x' :: withBreaks e c) := by
        have d := hp.doc'
        rw [← hp.doc, hb, hb'] at d
        have d : (a' ++ (mid' ++ u')) ++ [x'] ++ withBreaks e c = withBreaks e (a ++ (mid ++ u)) ++ e ++ withBreaks e c := by
          have w : withBreaks e (a ++ (mid ++ (u ++ 0x0A :: c))) = withBreaks e (a ++ (mid ++ u)) ++ e ++ withBreaks e c := by
            have : a ++ (mid ++ (u ++ 0x0A :: c)) = (a ++ (mid ++ u)) ++ 0x0A :: c := by simp
            rw [this, wb_append, wb_nl]; simp
          rw [← w, ← d]; simp
        have d := List.append_cancel_right d
        rcases he with rfl | rfl
        · have := (List.append_inj' d rfl).2
          simp only [List.cons.injEq, and_true] at this
          subst this
          exact .inl (by rw [wb_nl]; rfl)
        · have d' : (a' ++ (mid' ++ u')) ++ [x'] = (withBreaks [0x0D, 0x0A] (a ++ (mid ++ u)) ++ [0x0D]) ++ [0x0A] := by rw [d]; simp
          have := (List.append_inj' d' rfl).2
          simp only [List.cons.injEq, and_true] at this
          subst this
          exact .inr ⟨rfl, rfl, c, rfl, rfl⟩
      refine .inr ⟨rfl, ⟨k1, _, _, _, _, _, _, rfl, rfl, ?_⟩, fun _ _ => trivial, fun _ => trivial⟩
      refine Pair.move ?_ rr
      rw [← hb, ← hb']
      exact hp.with zz
    · rw [bind_err hx, bind_err hy]
      obtain ⟨g1, g2⟩ := same h1 (fun v h => by cases h)
      exact .inr ⟨g1, g2, fun _ _ => trivial, fun _ => trivial⟩
    · rw [bind_panic hx, bind_panic hy]
      obtain ⟨g1, g2⟩ := same h1 (fun v h => by cases h)
      exact .inr ⟨g1, g2, fun _ _ => trivial, fun _ => trivial⟩
    · rw [bind_diverge hx, bind_diverge hy]
      obtain ⟨g1, g2⟩ := same h1 (fun v h => by cases h)
      exact .inr ⟨g1, g2, fun _ _ => trivial, fun _ => trivial⟩

/-- Behind a symbol there is no middle. -/
theorem le_symLow {c : UInt8} (h : c ≠ 0x0A) (h' : c ≠ 0x0D) :
    SimX (brk e D true N N') Any (Low e D N N') Any (fun _ _ => True) (sym c) (sym c) := by
  rintro s s' ⟨k, a, mid, b, a', mid', b', rfl, rfl, hp⟩ -
  rcases hp.rest.head he with ⟨rfl, rfl⟩ | ⟨x, r, hx, rfl, rfl⟩ | ⟨r, x, r', rfl, rfl, hx⟩
  · rw [sym_nil, sym_nil]
    refine .inr ⟨trivial, ⟨_, _, _, _, _, _, _, rfl, rfl, ?_⟩, fun _ h => by (cases h), fun _ => trivial⟩
    simpa using hp.reset
  · rw [sym_cons, sym_cons]
    by_cases hc : x = c
    · rw [if_pos hc, if_pos hc]
      have hq := Pair.move (w := [x]) (w' := [x]) hp .reg
      exact .inr ⟨trivial, ⟨_, _, _, _, _, _, _, rfl, rfl, hq⟩, fun _ _ => ⟨_, _, _, _, _, _, rfl, rfl, hq⟩, fun _ => trivial⟩
    · rw [if_neg hc, if_neg hc]
      exact .inr ⟨trivial, ⟨_, _, _, _, _, _, _, rfl, rfl, hp.reset⟩, fun _ h => by (cases h), fun _ => trivial⟩
  · rw [sym_miss _ _ _ _ _ _ (Ne.symm h), sym_miss _ _ _ _ _ _ (by rcases hx with rfl | rfl <;> exact Ne.symm (by assumption))]
    exact .inr ⟨trivial, ⟨_, _, _, _, _, _, _, rfl, rfl, hp.reset⟩, fun _ h => by (cases h), fun _ => trivial⟩

theorem le_chomp : SimX (brk e D true N N') (Low e D N N') (Low e D N N') Any Eq chomp chomp :=
  low_ctx fun _ _ => .bindEq (le_sym he (by decide) (by decide)).isOk fun _ => .ite (.pure rfl)
    (.bindEq (le_sym he (by decide) (by decide)).isOk fun _ => .ite (.pure rfl) (.pure rfl))

theorem le_literal (hD : (0x0D : UInt8) ∉ D) (level : Nat) : Sim (brk e D true N N') Eq (stringLiteral level) (stringLiteral level) :=
  SimX.toSim (S := Any) (E := Any) (.bindU (le_symLow he (by decide) (by decide)) (.bindEq (le_chomp he) fun _ => .bindU (low_ws he)
    (.bindEq (le_wrapped he hD _ _ _) fun _ => .pure rfl)))

theorem le_folded (hD : (0x0D : UInt8) ∉ D) (level : Nat) : Sim (brk e D true N N') Eq (stringFolded level) (stringFolded level) :=
  SimX.toSim (S := Any) (E := Any) (.bindU (le_symLow he (by decide) (by decide)) (.bindEq (le_chomp he) fun _ => .bindU (low_ws he)
    (.bindEq (le_wrapped he hD _ _ _) fun _ => .pure rfl)))

/-! ### A new indentation -/

omit he in
theorem nlLen_lf_of {b u : Bytes} {x : UInt8} (hb : (0x0D : UInt8) ∉ b) (hx : x = 0x0A ∨ x = 0x0D) (h : b.take (nlLen b) = u ++ [x]) :
    b.take (nlLen b) = u ++ [0x0A] := by
  rcases hx with rfl | rfl
  · exact h
  · refine absurd (List.mem_of_mem_take (i := nlLen b) (l := b) ?_) hb
    rw [h]; simp

omit he in
/-- What `gapMore` takes is nothing or ends with a line. -/
theorem gapMore_line (c : Bool) : ∀ (n : Nat) (b : Bytes), (0x0D : UInt8) ∉ b → b.length < n →
    ((gapMore c n b).2.1 = [] ∨ ∃ u, (gapMore c n b).2.1 = u ++ [0x0A]) ∧ nlLen (gapLine c (gapMore c n b).2.2).2 = 0
  | 0, _, _, h => by omega
  | n + 1, b, hb, h => by
    have ha := gapLine_append b c
    have hb2 : (0x0D : UInt8) ∉ (gapLine c b).2 := by
      intro hx; apply hb; rw [← ha]; simp [hx]
    simp only [gapMore]
    by_cases h0 : nlLen (gapLine c b).2 = 0
    · rw [if_pos h0]
      exact ⟨.inl rfl, h0⟩
    · rw [if_neg h0]
      have l1 := nlLen_le (gapLine c b).2
      have l3 := congrArg List.length ha
      simp only [List.length_append] at l3
      obtain ⟨i1, i2⟩ := gapMore_line c n ((gapLine c b).2.drop (nlLen (gapLine c b).2)) (fun hx => hb2 (List.mem_of_mem_drop hx))
        (by simp only [List.length_drop]; omega)
      obtain ⟨u, x, hx, hu⟩ := nlLen_last h0
      have hu := nlLen_lf_of hb2 hx hu
      refine ⟨.inr ?_, i2⟩
      simp only
      rcases i1 with i1 | ⟨v, i1⟩
      · exact ⟨(gapLine c b).1 ++ u, by rw [i1, hu]; simp⟩
      · exact ⟨(gapLine c b).1 ++ ((gapLine c b).2.take (nlLen (gapLine c b).2) ++ v), by rw [i1]; simp⟩

omit he in
/-- A gap ends behind a line break, with no further one to skip. -/
theorem gapSpec_line {c : Bool} {b : Bytes} (hb : (0x0D : UInt8) ∉ b) {t : Nat} {w l : Bytes} (h : gapSpec c b = some (t, w, l)) :
    (∃ u, w = u ++ [0x0A]) ∧ nlLen (gapLine c l).2 = 0 := by
  have hb2 : (0x0D : UInt8) ∉ (gapLead c b).2 := by
    intro hx; apply hb; rw [← gapLead_append b c]; simp [hx]
  unfold gapSpec at h
  by_cases h0 : nlLen (gapLead c b).2 = 0
  · simp [h0] at h
  · simp only [h0, if_false, Option.some.injEq, Prod.mk.injEq] at h
    obtain ⟨-, rfl, rfl⟩ := h
    obtain ⟨i1, i2⟩ := gapMore_line c (((gapLead c b).2.drop (nlLen (gapLead c b).2)).length + 1) ((gapLead c b).2.drop (nlLen (gapLead c b).2))
      (fun hx => hb2 (List.mem_of_mem_drop hx)) (Nat.lt_succ_self _)
    obtain ⟨u, x, hx, hu⟩ := nlLen_last h0
    have hu := nlLen_lf_of hb2 hx hu
    refine ⟨?_, i2⟩
    rcases i1 with i1 | ⟨v, i1⟩
    · exact ⟨(gapLead c b).1 ++ u, by rw [i1, hu]; simp⟩
    · exact ⟨(gapLead c b).1 ++ ((gapLead c b).2.take (nlLen (gapLead c b).2) ++ v), by rw [i1]; simp⟩

/-- The two texts begin with as much white space. -/
def Even (b b' : Bytes) : Prop := (b.takeWhile isAsciiWs).length = (b'.takeWhile isAsciiWs).length

omit he in
theorem even_cr : ∀ b : Bytes, Even b (withBreaks [0x0D] b)
  | [] => rfl
  | c :: r => by
    have ih := even_cr r
    by_cases hc : c = 0x0A
    · subst hc
      rw [wb_nl]
      simp only [Even, List.cons_append, List.nil_append, List.takeWhile_cons_of_pos (show isAsciiWs 0x0A = true by decide),
        List.takeWhile_cons_of_pos (show isAsciiWs 0x0D = true by decide), List.length_cons]
      exact congrArg (· + 1) ih
    · rw [wb_cons hc]
      by_cases hw : isAsciiWs c = true
      · simp only [Even, List.takeWhile_cons_of_pos hw, List.length_cons]
        exact congrArg (· + 1) ih
      · simp only [Even, List.takeWhile_cons_of_neg hw]

omit he in
/-- White space without line feeds in front of something else. -/
theorem even_flat {w c : Bytes} (h : ∀ x ∈ w, isAsciiWs x = true ∧ x ≠ 0x0A) (hc : ∀ x r, c = x :: r → isAsciiWs x = false) :
    Even (w ++ c) (withBreaks e (w ++ c)) := by
  have t1 := takeWhile_all (f := isAsciiWs) (d := w) (fun x hx => (h x hx).1) c hc
  have t2 := takeWhile_all (f := isAsciiWs) (d := w) (fun x hx => (h x hx).1) (withBreaks e c) (by
    intro x r hr
    cases c with
    | nil => simp [withBreaks] at hr
    | cons y s =>
      have hy := hc y s rfl
      have hy2 : y ≠ 0x0A := by rintro rfl; exact absurd hy (by decide)
      rw [wb_cons hy2] at hr
      cases hr; exact hy)
  rw [Even, wb_append, wb_same fun x hx => (h x hx).2, t1.1, t2.1]

omit he in
theorem even_gap (hT : NoBlankLines D) (hD : (0x0D : UInt8) ∉ D) {a l l' : Bytes} (hd : D = a ++ l) (ha : ∃ u, a = u ++ [0x0A])
    (hg : nlLen (gapLine true l).2 = 0) (hr : RR [0x0D, 0x0A] m l l') : Even l l' := by
  have hl : ∀ c, l ≠ 0x0A :: c := by
    rintro c rfl
    have : cmtSkip (0x0A :: c) = ([], 0x0A :: c) := cmtSkip_no (by
      rw [List.dropWhile_cons_of_neg (by decide)]; rintro r ⟨⟩)
    simp only [gapLine, if_true, this] at hg
    exact ((nlLen_zero_iff _).1 hg _ _ rfl).1 rfl
  rcases hr with rfl | ⟨-, -, c, rfl, -⟩
  · have hs := List.takeWhile_append_dropWhile (p := isAsciiWs) (l := l)
    have hw : ∀ x ∈ l.takeWhile isAsciiWs, isAsciiWs x = true := fun x hx => by simpa using List.all_takeWhile (p := isAsciiWs) (l := l) |> fun h => List.all_eq_true.1 h x hx
    have hc : ∀ x r, l.dropWhile isAsciiWs = x :: r → isAsciiWs x = false := by
      intro x r h
      have := List.head?_dropWhile_not isAsciiWs l
      rw [h] at this
      simpa using this
    have hn : (0x0A : UInt8) ∉ l.takeWhile isAsciiWs := by
      intro hm
      obtain ⟨w1, w2, h1, h2⟩ := List.append_of_mem hm |> fun ⟨s, t, h⟩ => (⟨s, t, h, trivial⟩ : ∃ s t, l.takeWhile isAsciiWs = s ++ 0x0A :: t ∧ True)
      -- the first one
      have split : ∀ z : Bytes, (0x0A : UInt8) ∈ z → ∃ s t, z = s ++ 0x0A :: t ∧ (0x0A : UInt8) ∉ s := by
        intro z
        induction z with
        | nil => simp
        | cons x r ih =>
          intro hx
          by_cases h : x = 0x0A
          · exact ⟨[], r, by rw [h]; rfl, by simp⟩
          · obtain ⟨s, t, e1, e2⟩ := ih (by simpa [Ne.symm h] using hx)
            exact ⟨x :: s, t, by rw [e1]; rfl, by simp [Ne.symm h, e2]⟩
      obtain ⟨s, t, e1, e2⟩ := split _ hm
      have : s = [] := by
        refine hT a s (t ++ l.dropWhile isAsciiWs) ?_ (.inr ha) ?_
        · rw [hd]; conv => lhs; rw [← hs, e1]
          simp
        · intro x hx
          have h1 := hw x (by rw [e1]; simp [hx])
          have h2 : x ≠ 0x0A := by rintro rfl; exact e2 hx
          have h3 : x ≠ 0x0D := by
            rintro rfl
            apply hD; rw [hd, ← hs, e1]; simp [hx]
          simp only [isAsciiWs, Bool.or_eq_true, beq_iff_eq] at h1
          rcases h1 with (((h1 | h1) | h1) | h1) | h1 <;> simp_all
      subst this
      rw [e1] at hs
      exact hl _ hs.symm
    rw [← hs]
    exact even_flat (fun x hx => ⟨hw x hx, by rintro rfl; exact hn hx⟩) hc
  · exact absurd rfl (hl c)

/-- `ind_define` where the white space is as long. -/
theorem le_defineAt (level : Nat) {k : Ctx} {a mid b a' mid' b' : Bytes} (hp : Pair e D m N N' k a mid b a' mid' b') (hv : Even b b') :
    SimX (brk e D m N N') (fun s s' => s = st k a mid b ∧ s' = st k a' mid' b') Any (TxtP e D m N N') (fun _ _ => True) (indDefine level) (indDefine level) := by
  have tail : ∀ (k : Ctx) (a mid b a' mid' b' : Bytes), Pair e D m N N' k a mid b a' mid' b' → Even b b' →
      SimX (brk e D m N N') (fun s s' => s = st k a mid b ∧ s' = st k a' mid' b') Any (TxtP e D m N N') (fun _ _ => True)
        (do
          let n ← count (takeWhile isAsciiWs (.more 0))
          let s ← get
          if level = s.indent.length then modify fun s => { s with indent := s.indent ++ [n] }
          else if level < s.indent.length then modify fun s => { s with indent := s.indent.set level n }
          else M.panic .index)
        (do
          let n ← count (takeWhile isAsciiWs (.more 0))
          let s ← get
          if level = s.indent.length then modify fun s => { s with indent := s.indent ++ [n] }
          else if level < s.indent.length then modify fun s => { s with indent := s.indent.set level n }
          else M.panic .index) := by
    rintro k a mid b a' mid' b' hp hv s s' - ⟨rfl, rfl⟩
    have hq : Pair e D m N N' k a (mid ++ b.takeWhile isAsciiWs) (b.dropWhile isAsciiWs) a' (mid' ++ b'.takeWhile isAsciiWs) (b'.dropWhile isAsciiWs) :=
      Pair.move (by rw [List.takeWhile_append_dropWhile, List.takeWhile_append_dropWhile]; exact hp) (hp.rest.inv he)
    rw [bind_ok (count_more0 ..), bind_ok (get_run _), bind_ok (count_more0 ..), bind_ok (get_run _), ← hv]
    have i1 : (st k a (mid ++ b.takeWhile isAsciiWs) (b.dropWhile isAsciiWs)).indent = k.indent := rfl
    have i2 : (st k a' (mid' ++ b'.takeWhile isAsciiWs) (b'.dropWhile isAsciiWs)).indent = k.indent := rfl
    simp only [i1, i2]
    split
    · simp only [modify_run]
      refine .inr ⟨trivial, ⟨{ k with indent := k.indent ++ [(b.takeWhile isAsciiWs).length] }, _, _, _, _, _, _, rfl, rfl, hq.with hq.zero⟩, fun _ _ => trivial, fun h => by cases h⟩
    · split
      · simp only [modify_run]
        refine .inr ⟨trivial, ⟨{ k with indent := k.indent.set level (b.takeWhile isAsciiWs).length }, _, _, _, _, _, _, rfl, rfl, hq.with hq.zero⟩, fun _ _ => trivial, fun h => by cases h⟩
      · exact .inr ⟨rfl, ⟨k, _, _, _, _, _, _, rfl, rfl, hq⟩, fun _ _ => trivial, fun h => by cases h⟩
  unfold indDefine
  by_cases hl : level > 0
  · simp only [hl, decide_true, runIf_true]
    rintro s s' hR ⟨rfl, rfl⟩
    have hpre : (spaces (k.want (level - 1))).isPrefixOf b = (spaces (k.want (level - 1))).isPrefixOf b' := by
      have h1 := le_indX he (level - 1) (D := D) (m := m) (N := N) (N' := N') _ _ hR trivial
      rw [ind_eq, ind_eq] at h1
      split at h1 <;> split at h1
      · rename_i x y; rw [x, y]
      · rcases h1 with h1 | ⟨h1, -⟩
        · cases h1
        · cases h1
      · rcases h1 with h1 | ⟨h1, -⟩
        · cases h1
        · cases h1
      · rename_i x y; rw [Bool.eq_false_iff.2 x, Bool.eq_false_iff.2 y]
    by_cases h : (spaces (k.want (level - 1))).isPrefixOf b = true
    · have h' := hpre ▸ h
      have g := ind_eq k a mid b (level - 1)
      have g' := ind_eq k a' mid' b' (level - 1)
      rw [if_pos h] at g
      rw [if_pos h'] at g'
      rw [bind_ok g, bind_ok g']
      obtain ⟨z, rfl⟩ := List.isPrefixOf_iff_prefix.1 h
      obtain ⟨z', rfl⟩ := List.isPrefixOf_iff_prefix.1 h'
      have len : (spaces (k.want (level - 1))).length = k.want (level - 1) := by simp [spaces]
      have d : ∀ z : Bytes, (spaces (k.want (level - 1)) ++ z).drop (k.want (level - 1)) = z := fun z => by
        conv => lhs; arg 1; rw [← len]
        exact List.drop_left
      rw [d, d]
      have tw : ∀ z : Bytes, ((spaces (k.want (level - 1)) ++ z).takeWhile isAsciiWs).length = k.want (level - 1) + (z.takeWhile isAsciiWs).length := by
        intro z
        rw [List.takeWhile_append_of_pos (by intro x hx; simp only [spaces, List.mem_replicate] at hx; rw [hx.2]; decide), List.length_append, len]
      have hz : Even z z' := by
        rw [Even, tw, tw] at hv
        exact Nat.add_left_cancel hv
      have hrr : RR e m z z' := by
        have := (le_ind he (level - 1) (D := D) (m := m) (N := N) (N' := N') _ _ hR)
        rw [g, g'] at this
        obtain ⟨k2, a2, mid2, b2, a2', mid2', b2', q1, q2, hq⟩ := this.resolve_left (by rintro ⟨⟩) |>.2
        have w1 := congrArg Parser.rest q1
        have w2 := congrArg Parser.rest q2
        simp only [st_rest, d] at w1 w2
        rw [w1, w2]; exact hq.rest
      exact tail _ _ _ _ _ _ _ ((Pair.move hp hrr).with (at_zero hp.zero (level - 1))) hz _ _ ⟨_, _, _, _, _, _, _, rfl, rfl, (Pair.move hp hrr).with (at_zero hp.zero (level - 1))⟩ ⟨rfl, rfl⟩
    · have h' := hpre ▸ h
      have g := ind_eq k a mid b (level - 1)
      have g' := ind_eq k a' mid' b' (level - 1)
      rw [if_neg h] at g
      rw [if_neg h'] at g'
      rw [bind_err g, bind_err g']
      have hq := (hp.reset).with (at_zero hp.zero (level - 1))
      exact .inr ⟨trivial, ⟨_, _, _, _, _, _, _, rfl, rfl, hq⟩, fun _ _ => trivial, fun _ => ⟨_, _, _, _, _, _, rfl, rfl, hq⟩⟩
  · simp only [hl, decide_false, runIf_false]
    exact tail _ _ _ _ _ _ _ hp hv

theorem le_define (hD : (0x0D : UInt8) ∉ D) (hT : e = [0x0D] ∨ NoBlankLines D) (level : Nat) :
    SimX (brk e D m N N') (TxtP e D m N N') Any (TxtP e D m N N') (fun _ _ => True)
      (do let _ ← gap true; indDefine level) (do let _ ← gap true; indDefine level) := by
  rintro s s' - ⟨a, a', k, mid, b, b', rfl, rfl, hp⟩
  have g := gap_eq k a mid b true
  have g' := gap_eq k a' mid b' true
  rcases hp.rest.gap he true (hp.noCR hD) with ⟨g1, g2, g3, hr⟩ | ⟨t, w, l, w', l', g1, g2, hr⟩
  · rw [g1] at g
    rw [g2] at g'
    rw [bind_err g, bind_err g']
    have hq : Pair e D m N N' k a (mid ++ (gapLead true b).1) (gapLead true b).2 a' (mid ++ (gapLead true b').1) (gapLead true b').2 :=
      Pair.move (by rw [gapLead_append, gapLead_append]; exact hp) hr
    rw [← g3] at hq ⊢
    exact .inr ⟨trivial, ⟨_, _, _, _, _, _, _, rfl, rfl, hq⟩, fun _ _ => trivial, fun _ => ⟨_, _, _, _, _, _, rfl, rfl, hq⟩⟩
  · rw [g1] at g
    rw [g2] at g'
    rw [bind_ok g, bind_ok g']
    have hq : Pair e D m N N' k a (mid ++ w) l a' (mid ++ w') l' :=
      Pair.move (by rw [gapSpec_append' g1, gapSpec_append' g2]; exact hp) hr
    have hv : Even l l' := by
      rcases he with rfl | rfl
      · rcases hr with rfl | ⟨-, h, -⟩
        · exact even_cr l
        · simp at h
      · obtain ⟨⟨u, rfl⟩, h2⟩ := gapSpec_line (hp.noCR hD) g1
        refine even_gap (a := a ++ (mid ++ (u ++ [0x0A]))) (hT.resolve_left (by simp)) hD ?_ ⟨a ++ (mid ++ u), by simp⟩ h2 hr
        rw [← hq.doc]; simp
    exact le_defineAt he level hq hv _ _ ⟨_, _, _, _, _, _, _, rfl, rfl, hq⟩ ⟨rfl, rfl⟩

/-- All of it. -/
theorem le_base (hD : (0x0D : UInt8) ∉ D) (hT : e = [0x0D] ∨ NoBlankLines D) :
    Base (brk e D true N N') (TxtP e D true N N') id (placeOf e D) where
  pos := by
    rintro s s' ⟨k, a, mid, b, a', mid', b', rfl, rfl, hp⟩
    have h := hp.place he hD
    simp only [st_indicator, hp.zero, id]
    simpa using h
  err := le_err he hD
  boundCtx := le_ctx fun _ _ => .orDefault trivial (le_bound he)
  endCtx := le_ctx fun _ _ => .bindEq (.bindEq (le_symSeq he (flat_of (by decide))).isOk fun _ => .ite (.pure rfl)
    (le_symSeq he (flat_of (by decide))).isOk) fun _ => .bindU (.runIf le_bwd) (.pure rfl)
  fwdX := le_fwdX
  bwdX := le_bwdX
  food := le_food he
  symX := fun _ h h' => le_symX he h h'
  dashes := le_symSeq he (flat_of (by decide))
  dots := le_symSeq he (flat_of (by decide))
  boundX := le_boundX he
  complex := le_complex he
  inv := le_inv he
  gap := (le_gap he hD _).void
  indX := le_indX he
  defineX := le_define he hD hT
  anchor := le_anchor he
  tag := le_tag he
  anchorUse := le_anchorUse he
  nums := by
    intro s s' hR hP
    rcases Txt.toX (tx_nums he) s s' hR hP with h | ⟨h1, h2, -, -⟩
    · exact .inl h
    · exact .inr ⟨h1, h2, fun _ _ => trivial, fun _ => trivial⟩
  single := fun n => le_quoted he hD (by decide) (by decide) (flat_of (by decide)) n
  double := fun n => le_quoted he hD (by decide) (by decide) (flat_of (by decide)) n
  plain := le_plain he hD
  literal := le_literal he hD
  folded := le_folded he hD
  directive := le_ctx fun _ _ => le_directive he hD

end pairs

end YamlPeg
