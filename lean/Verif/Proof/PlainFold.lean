import Verif.Proof.Words
import Verif.Proof.Gaps
import Verif.Proof.LastChar
import Verif.Props.Scalars
/-! # Plain scalars over several lines -/

namespace YamlPeg
open M

variable (k : Ctx) (L : Loader) (pre mid post : Bytes)

section step
variable (level : Nat) (inner : Bool) (patt v : Bytes) (lead : Bool) (n : Nat)

/-- A colon or space inside a line. -/
theorem plainRest_colon' (c : UInt8) (r : Bytes) (hs : stopB (c :: r) = false)
    (hc : c = 0x3A ∨ c = 0x20) (hv : lead = true → c = 0x20 → endsWithWs v = false) :
    plainRest level inner patt n v lead (st k pre [] (c :: r)) =
      plainLoop level inner patt n (v ++ [c]) lead (st k pre [c] r) := by
  have hlt : c < 0x80 := by rcases hc with rfl | rfl <;> decide
  rw [plainRest_go _ _ _ _ _ _ _ _ _ hs, bind_ok (isOk_ok (symSet_hit _ _ _ _ _ _ ?_))]
  · simp only [if_true]
    rw [bind_ok (text_st ..)]
    have : (if lead && lossy ([] ++ [c]) == b!" " then trimEnd v else v) = v := by
      split
      · rename_i h
        simp only [Bool.and_eq_true, List.nil_append, lossy_one hlt, beq_iff_eq, List.cons.injEq] at h
        exact trimEnd_of_endsWithWs (hv h.1 h.2.1)
      · rfl
    simp only [this]
    simp [lossy_one hlt]
  · rcases hc with rfl | rfl <;> decide

/-- A blank in front of the text of a further line. -/
theorem plainRest_extra (r : Bytes) (hs : stopB (0x20 :: r) = false) :
    plainRest level inner patt n v true (st k pre [] (0x20 :: r)) =
      plainLoop level inner patt n (trimEnd v ++ b!" ") true (st k pre [0x20] r) := by
  rw [plainRest_go _ _ _ _ _ _ _ _ _ hs, bind_ok (isOk_ok (symSet_hit _ _ _ _ _ _ (by decide)))]
  simp only [if_true]
  rw [bind_ok (text_st ..)]
  simp [lossy_one (show (0x20 : UInt8) < 0x80 by decide)]

/-- A bracket inside a line. -/
theorem plainRest_bracket' (c : UInt8) (r : Bytes) (hc : c ∈ b!"{}[]") (hi : inner = false)
    (hv : v ≠ []) :
    plainRest level inner patt n v lead (st k pre [] (c :: r)) =
      plainLoop level inner patt n (v ++ [c]) false (st k pre [c] r) := by
  have hlt : c < 0x80 := by simp at hc; rcases hc with rfl | rfl | rfl | rfl <;> decide
  have hn : c ∉ b!": " := by simp at hc; rcases hc with rfl | rfl | rfl | rfl <;> decide
  have hs : stopB (c :: r) = false := by
    simp at hc; rcases hc with rfl | rfl | rfl | rfl <;> rfl
  rw [plainRest_go _ _ _ _ _ _ _ _ _ hs, bind_ok (isOk_err (symSet_miss _ _ _ _ _ _ hn))]
  have : (!inner && !v.isEmpty) = true := by simp [hi, hv]
  simp only [Bool.false_eq_true, if_false, this, if_true, List.nil_append]
  rw [bind_ok (isOk_ok (symSet_hit _ _ _ _ _ _ hc))]
  simp only [if_true]
  rw [bind_ok (text_st ..)]
  simp [lossy_one hlt]

/-- The end of a line, when the next line goes on. -/
theorem plainRest_more (t : Nat) (taken left : Bytes) (hnl : nlLen post ≠ 0)
    (hg : gapSpec true post = some (t, taken, spaces (k.want level) ++ left)) (hw : 0 < k.want level) :
    plainRest level inner patt n v lead (st k pre [] post) =
      plainLoop level inner patt n (plainBreak v t) true
        (st (k.at level) pre (taken ++ spaces (k.want level)) left) := by
  obtain ⟨c, r, rfl, hc⟩ : ∃ c r, post = c :: r ∧ (c = 0x0A ∨ c = 0x0D) := by
    have : ¬ nlLen post = 0 := hnl
    rw [nlLen_zero_iff] at this
    simp only [Classical.not_forall] at this
    obtain ⟨c, r, h1, h2⟩ := this
    refine ⟨c, r, h1, ?_⟩
    by_cases h : c = 0x0A
    · exact .inl h
    · by_cases h' : c = 0x0D
      · exact .inr h'
      · exact absurd ⟨h, h'⟩ h2
  have hs : stopB (c :: r) = false := by rcases hc with rfl | rfl <;> rfl
  have h1 : c ∉ b!": " := by rcases hc with rfl | rfl <;> decide
  have h2 : c ∉ b!"{}[]" := by rcases hc with rfl | rfl <;> decide
  have h3 : c ≠ 0x20 := by rcases hc with rfl | rfl <;> decide
  rw [plainRest_go _ _ _ _ _ _ _ _ _ hs, bind_ok (isOk_err (symSet_miss _ _ _ _ _ _ h1))]
  simp only [Bool.false_eq_true, if_false, List.nil_append]
  have hb : (if !inner && !v.isEmpty then isOk (symSet b!"{}[]") else pure false : PM Bool)
      (st k pre [] (c :: r)) = (.ok false, st k pre [] (c :: r)) := by
    split
    · rw [isOk_err (symSet_miss _ _ _ _ _ _ h2)]; simp
    · rfl
  rw [bind_ok hb]
  simp only [Bool.false_eq_true, if_false]
  rw [bind_ok (isOk_err (ind_miss _ _ _ _ _ (spaces_not_prefix_cons hw h3 r)))]
  simp only [Bool.false_eq_true, if_false, List.nil_append]
  rw [bind_ok (try_ok (by rw [gap_eq, hg]))]
  simp only [List.nil_append]
  have := ind_hit (k.at level) pre taken left level
  rw [Ctx.want_at] at this
  rw [bind_ok (isOk_ok this)]
  simp

end step

/-- A line of a plain scalar, up to its end. -/
theorem plainLoop_line {level : Nat} {inner : Bool} {E : Bytes} (hE : ∀ c r, E = c :: r → notIn (plainPatt inner) c = false) :
    ∀ (n : Nat) (U S : Bytes) (lead : Bool) (pre mid : Bytes), Utf8 S → S.length < n →
    plainBody inner E (!U.isEmpty) S = true →
    (lead = true → ∀ a b, S = a ++ 0x20 :: b → endsWithWs (U ++ a) = false) →
    ∃ n' lead', n ≤ n' + S.length + 1 ∧
      plainLoop level inner (plainPatt inner) n U lead (st k pre mid (S ++ E)) =
        plainRest level inner (plainPatt inner) n' (U ++ S) lead' (st k (pre ++ mid ++ S) [] E) := by
  intro n
  induction n with
  | zero => intro U S lead pre mid _ hn; omega
  | succ n ih =>
    intro U S lead pre mid hu hn hB hsp1
    obtain ⟨e1, e2⟩ := takeWhile_append_stop (S := S) hE
    have hsp := Utf8.span (f := notIn (plainPatt inner)) patt_ascii hu
    have hcat := List.takeWhile_append_dropWhile (p := notIn (plainPatt inner)) (l := S)
    rw [plainLoop_chunk, e1, e2, lossy_utf8 hsp.1]
    generalize hA : S.takeWhile (notIn (plainPatt inner)) = A at *
    rcases hR : S.dropWhile (notIn (plainPatt inner)) with _ | ⟨c, s⟩
    · rw [hR] at hcat
      simp only [List.append_nil] at hcat
      subst hcat
      exact ⟨n, lead, by omega, by simp⟩
    · rw [hR] at hcat hsp
      have hc : notIn (plainPatt inner) c = false := by
        have := List.head?_dropWhile_not (p := notIn (plainPatt inner)) S
        rw [hR] at this; simpa using this
      have hB' := hB
      rw [← hcat] at hB'
      have hb := plainBody_split hB'
      have hne : (!(U ++ A ++ [c]).isEmpty) = true := by simp
      have hb' := hb
      simp only [plainBody, Bool.and_eq_true, Bool.not_eq_true', Bool.and_eq_false_iff] at hb
      obtain ⟨⟨⟨⟨⟨⟨b1, b2⟩, b3⟩, b4⟩, b5⟩, b6⟩, b7⟩ := hb
      have hus : Utf8 s := (Utf8.cons_ascii (patt_ascii c hc)).1 hsp.2
      have hlen : A.length + 1 + s.length = S.length := by
        have := congrArg List.length hcat
        simp at this; omega
      have hgo : ∀ l' : Bool, (l' = true → lead = true) → ∃ n' lead', n + 1 ≤ n' + S.length + 1 ∧
          plainLoop level inner (plainPatt inner) n (U ++ A ++ [c]) l' (st k (pre ++ mid ++ A) [c] (s ++ E)) =
            plainRest level inner (plainPatt inner) n' (U ++ S) lead' (st k (pre ++ mid ++ S) [] E) := by
        intro l' hl'
        obtain ⟨n', lead', h1, h2⟩ := ih (U ++ A ++ [c]) s l' (pre ++ mid ++ A) [c] hus (by omega)
          (by rw [hne]; exact b7) (by
            intro hl a b hab
            have := hsp1 (hl' hl) (A ++ c :: a) b (by rw [← hcat, hab]; simp)
            simpa using this)
        refine ⟨n', lead', by omega, ?_⟩
        rw [h2, ← hcat]; simp
      simp only [List.cons_append]
      by_cases h1 : c = 0x3A ∨ c = 0x20
      · rw [plainRest_colon' _ _ _ _ _ _ _ _ _ _ ?_ h1 ?_]
        · exact hgo lead id
        · rcases h1 with rfl | rfl
          · simpa [stopB] using b3
          · rcases hsE : s ++ E with _ | ⟨d, q⟩
            · rfl
            · rw [hsE] at b4
              simp at b4
              unfold stopB
              split <;> simp_all
        · rintro hl rfl
          exact hsp1 hl A s hcat.symm
      · have h2 : c ∈ b!"{}[]" ∨ c = 0x2C ∨ c = 0x0A ∨ c = 0x0D := by
          cases inner
          · rw [notIn_false] at hc; simp [plainPatt] at hc
            simp only [not_or] at h1
            simp
            rcases hc with rfl | rfl | rfl | rfl | rfl | rfl | rfl | rfl <;> simp_all
          · rw [notIn_false] at hc; simp [plainPatt] at hc
            simp only [not_or] at h1
            simp
            rcases hc with rfl | rfl | rfl | rfl | rfl | rfl | rfl | rfl | rfl <;> simp_all
        rcases h2 with h2 | rfl | rfl | rfl
        · have hq : (b!"[]{}").contains c = true := by
            simp at h2 ⊢; rcases h2 with rfl | rfl | rfl | rfl <;> simp
          rw [hq] at b5
          simp only [Bool.true_eq_false, false_or, Bool.or_eq_false_iff] at b5
          rw [plainRest_bracket' _ _ _ _ _ _ _ _ _ _ h2 b5.1 ?_]
          · exact hgo false (by simp)
          · simpa using b5.2
        · exfalso
          cases inner
          · revert hc; decide
          · simp at b6
        · exact absurd b1 (by decide)
        · exact absurd b2 (by decide)

/-! ## Line breaks -/

/-- A line break inside a plain scalar: empty lines and comment lines, and how
far the next line is indented beyond what it must be. -/
structure PBreak where
  lines : List Bytes
  extra : Nat

def PBreak.OK (b : PBreak) : Prop := ∀ l ∈ b.lines, IdleLine l

/-- How the break is written; the next line must be indented by `w`. -/
def PBreak.text (nl : Bytes) (w : Nat) (b : PBreak) : Bytes :=
  nl ++ (gapLines nl b.lines ++ (spaces w ++ spaces b.extra))

/-- What it stands for: a newline for each empty line and each comment line, or
a space if there is none; a space, too, when the next line is indented further. -/
def PBreak.val (b : PBreak) : Bytes :=
  if b.lines = [] ∨ 0 < b.extra then [0x20] else List.replicate b.lines.length 0x0A

/-- A further line of a plain scalar: it begins with no blank and no `#`, does
not end in white space or a colon, and holds neither `: ` nor ` #` nor a line
break nor white space in front of a space. -/
structure ContLine (s : Bytes) : Prop where
  utf8 : Utf8 s
  first : ∃ c r, s = c :: r ∧ tokHead c = true
  last : endsWithWs s = false ∧ s.getLast? ≠ some 0x3A
  noBreak : ∀ c ∈ s, c ≠ 0x0A ∧ c ≠ 0x0D
  noColon : ¬ b!": " <:+: s
  noComment : ¬ b!" #" <:+: s
  single : ∀ a b, s = a ++ 0x20 :: b → endsWithWs a = false

theorem ContLine.body {s : Bytes} (h : ContLine s) (E : Bytes) : plainBody false E true s = true := by
  refine plainBody_append (plainBody_line h.noBreak h.noColon h.noComment h.last.2) h.last.2 ?_
  exact trimEnd_last (trimEnd_of_endsWithWs h.last.1)

theorem ContLine.lead {s : Bytes} (h : ContLine s) (U : Bytes) (a b : Bytes) (e : s = a ++ 0x20 :: b) :
    endsWithWs (U ++ a) = false := by
  have hne : a ≠ [] := by
    rintro rfl
    obtain ⟨c, r, h1, h2⟩ := h.first
    rw [h1] at e; simp at e; rw [e.1] at h2; exact absurd h2 (by decide)
  have hu : Utf8 a := ((Utf8.cut (c := 0x20) (by decide) (a := a) (b := b)).1 (by rw [← e]; exact h.utf8)).1
  rw [endsWithWs_append hu hne]
  exact h.single a b e

theorem plainBreak_ws {w : Bytes} {t : Nat} : trimEnd (plainBreak w t) = trimEnd w := by
  rw [plainBreak_eq, trimEnd_ws]
  intro x hx
  unfold plainBreak at hx
  split at hx
  · simp at hx
    rcases hx with rfl | ⟨_, rfl⟩ <;> decide
  · simp at hx; rw [hx.2]; decide

/-- The blanks beyond the indentation. -/
theorem plainLoop_extra {level : Nat} {X : Bytes} (hX : ∃ c r, X = c :: r ∧ c ≠ 0x23) {w : Bytes} (hw : endsWithWs w = false) :
    ∀ (e n : Nat) (v pre mid : Bytes), trimEnd v = w → e < n →
    ∃ n' p' m', n = n' + e ∧ p' ++ m' = pre ++ mid ++ spaces e ∧
      plainLoop level false (plainPatt false) n v true (st k pre mid (spaces e ++ X)) =
        plainLoop level false (plainPatt false) n' (if e = 0 then v else w ++ b!" ") true (st k p' m' X)
  | 0, n, v, pre, mid, _, _ => ⟨n, pre, mid, rfl, by simp [spaces], by simp [spaces]⟩
  | e + 1, 0, _, _, _, _, hn => by omega
  | e + 1, n + 1, v, pre, mid, hv, hn => by
    have hstop : notIn (plainPatt false) 0x20 = false := by decide
    have es : spaces (e + 1) ++ X = 0x20 :: (spaces e ++ X) := by simp [spaces, List.replicate_succ]
    have hs : stopB (0x20 :: (spaces e ++ X)) = false := by
      obtain ⟨c, r, rfl, hc⟩ := hX
      cases e with
      | zero =>
        simp only [spaces, List.replicate_zero, List.nil_append]
        unfold stopB
        split <;> simp_all
      | succ e => simp [spaces, List.replicate_succ, stopB]
    obtain ⟨n', p', m', h1, h2, h3⟩ := plainLoop_extra (level := level) hX hw e n (w ++ b!" ") (pre ++ mid) [0x20]
      (by rw [trimEnd_ws (by simp; decide), trimEnd_of_endsWithWs hw]) (by omega)
    refine ⟨n', p', m', by omega, by rw [h2]; simp [spaces, List.replicate_succ], ?_⟩
    rw [es, plainLoop_chunk]
    have hl0 : lossy [] = [] := by simp [lossy, lossyAux]
    simp only [List.takeWhile, List.dropWhile, hstop, hl0, List.append_nil]
    rw [plainRest_extra _ _ _ _ _ _ _ _ hs, hv, h3]
    simp

/-! ## The whole scalar -/

/-- The lines behind the first. -/
def plainMore (nl : Bytes) (w : Nat) (r : List (PBreak × Bytes)) : Bytes := r.flatMap fun x => x.1.text nl w ++ x.2

def plainMoreVal (r : List (PBreak × Bytes)) : Bytes := r.flatMap fun x => x.1.val ++ x.2

def PlainMore (r : List (PBreak × Bytes)) : Prop := ∀ x ∈ r, x.1.OK ∧ ContLine x.2

theorem LeafEnd.at {κ : EndKind} {k : Ctx} {level : Nat} {E : Bytes} (h : LeafEnd κ k level E) :
    LeafEnd κ (k.at level) level E := by
  simpa only [LeafEnd, Ctx.want_at] using h

theorem LeafEnd.patt {κ : EndKind} {k : Ctx} {level : Nat} {E : Bytes} (h : LeafEnd κ k level E) :
    ∀ c r, E = c :: r → notIn (plainPatt false) c = false := by
  obtain ⟨k', tail, _, hp⟩ := h.plain []
  cases hp with
  | stop hs => exact plainEnd_head (k := k) (level := level) (T := []) (.stop hs)
  | line h1 h2 h3 h4 => exact plainEnd_head (k := k) (level := level) (T := []) (.line h1 h2 h3 h4)
  | flow h1 h2 h3 h4 => exact plainEnd_head (k := k) (level := level) (T := []) (.flow h1 h2 h3 h4)

/-- The end of the scalar. -/
theorem plainRest_end {κ : EndKind} {level : Nat} {E : Bytes} (h : LeafEnd κ k level E) :
    ∃ k' tail, (k' = k ∨ k' = k.at level) ∧ (∀ x ∈ tail, isWs1 x = true) ∧ ∀ (n : Nat) (v : Bytes) (lead : Bool) (pre : Bytes),
      plainRest level false (plainPatt false) n v lead (st k pre [] E) = (.ok (v ++ tail), st k' pre [] E) := by
  have stop : stopB E = true → _ := fun hs =>
    (⟨k, [], .inl rfl, by simp, fun n v lead pre => by rw [plainRest_stop _ _ _ _ _ _ _ _ _ hs]; simp⟩ : ∃ k' tail, (k' = k ∨ k' = k.at level) ∧
      (∀ x ∈ tail, isWs1 x = true) ∧ ∀ (n : Nat) (v : Bytes) (lead : Bool) (pre : Bytes),
      plainRest level false (plainPatt false) n v lead (st k pre [] E) = (.ok (v ++ tail), st k' pre [] E))
  rcases h with ⟨_, r, rfl, hr⟩ | ⟨_, hn, t, taken, left, hg, hw, hp⟩ | ⟨_, hs⟩ | ⟨P, _, _, hs⟩
  · exact stop hr
  · refine ⟨k.at level, plainBreak [] t, .inr rfl,
      plainEnd_tail (k := k) (level := level) (inner := false) (T := []) (.line hn hg hw hp), fun n v lead pre => ?_⟩
    rw [plainRest_line _ _ _ _ _ _ _ _ _ _ _ _ hn hg hw hp, plainBreak_eq]
  · exact stop hs
  · exact stop hs

theorem PBreak.gap {nl : Bytes} (hnl : LineBreak nl) {b : PBreak} (hb : b.OK) (w : Nat) {X : Bytes}
    (hX : ∃ c r, X = c :: r ∧ tokHead c = true) :
    gapSpec true (b.text nl w ++ X) = some (b.lines.length + 1, nl ++ gapLines nl b.lines, spaces w ++ (spaces b.extra ++ X)) ∧
      nlLen (b.text nl w ++ X) ≠ 0 := by
  obtain ⟨c, r, rfl, hc⟩ := hX
  have hst : GapStop (spaces w ++ (spaces b.extra ++ c :: r)) :=
    .inr ⟨w + b.extra, c, r, by simp [spaces, List.replicate_append_replicate, ← List.append_assoc], hc⟩
  have hls : ∀ l ∈ [] :: b.lines, IdleLine l := by
    intro l hl
    simp only [List.mem_cons] at hl
    rcases hl with rfl | hl
    · exact .inl rfl
    · exact hb l hl
  have := gapSpec_lines hnl (ls := [] :: b.lines) (by simp) hls hst
  refine ⟨by simpa [PBreak.text, gapLines] using this, ?_⟩
  have h2 := nlLen_gapLines hnl (ls := b.lines) hb hst
  rw [show b.text nl w ++ c :: r = nl ++ (gapLines nl b.lines ++ (spaces w ++ (spaces b.extra ++ c :: r))) by
    simp [PBreak.text], h2]
  rcases hnl with rfl | rfl <;> simp

theorem PBreak.value {b : PBreak} {v : Bytes} (hv : endsWithWs v = false) :
    (if b.extra = 0 then plainBreak v (b.lines.length + 1) else v ++ b!" ") = v ++ b.val := by
  simp only [PBreak.val]
  by_cases he : b.extra = 0
  · simp only [he, if_true, Nat.lt_irrefl, or_false, plainBreak]
    cases hl : b.lines with
    | nil => simp
    | cons x l => simp
  · have : 0 < b.extra := by omega
    simp [he, this]

def plainFuel : List (PBreak × Bytes) → Nat
  | [] => 0
  | (b, s) :: r => b.extra + s.length + 1 + plainFuel r

/-- The lines of a plain scalar. -/
theorem plainLoop_fold {κ : EndKind} {level w : Nat} {E nl : Bytes} (hnl : LineBreak nl) (hw0 : 0 < w) :
    ∀ (r : List (PBreak × Bytes)) (k : Ctx), PlainMore r → k.want level = w → LeafEnd κ k level E →
    ∃ k' tail, k'.at level = k.at level ∧ (∀ x ∈ tail, isWs1 x = true) ∧
    ∀ (U S : Bytes) (lead : Bool) (n : Nat) (pre mid : Bytes), Utf8 S → S.length + plainFuel r < n →
    plainBody false [] (!U.isEmpty) S = true → endsWithWs S = false → S ≠ [] → S.getLast? ≠ some 0x3A →
    (lead = true → ∀ a b, S = a ++ 0x20 :: b → endsWithWs (U ++ a) = false) →
      plainLoop level false (plainPatt false) n U lead (st k pre mid (S ++ (plainMore nl w r ++ E))) =
        (.ok (U ++ S ++ plainMoreVal r ++ tail), st k' (pre ++ mid ++ S ++ plainMore nl w r) [] E)
  | [], k, _, hw, hE => by
    obtain ⟨k', tail, h3, h4, h5⟩ := plainRest_end k hE
    refine ⟨k', tail, at_of_or h3, h4, fun U S lead n pre mid hu hn hB hl hne hcol hsp => ?_⟩
    obtain ⟨n', lead', _, h2⟩ := plainLoop_line k (level := level) hE.patt n U S lead pre mid hu
      (by simp [plainFuel] at hn; exact hn)
      (plainBody_append hB hcol (trimEnd_last (trimEnd_of_endsWithWs hl))) hsp
    simp only [plainMore, plainMoreVal, List.flatMap_nil, List.nil_append, List.append_nil]
    rw [h2, h5]
  | (b, s) :: r, k, hr, hw, hE => by
    have hb : b.OK := (hr (b, s) (by simp)).1
    have hs : ContLine s := (hr (b, s) (by simp)).2
    obtain ⟨k', tail, h4, h5, h6⟩ := plainLoop_fold hnl hw0 r (k.at level)
      (fun x hx => hr x (by simp [hx])) (by rw [Ctx.want_at, hw]) hE.at
    refine ⟨k', tail, by rw [h4, Ctx.at_idem], h5, fun U S lead n pre mid hu hn hB hl hne hcol hsp => ?_⟩
    simp only [plainFuel] at hn
    obtain ⟨c, q, hc, htok⟩ := hs.first
    have eX : plainMore nl w ((b, s) :: r) ++ E = b.text nl w ++ (s ++ (plainMore nl w r ++ E)) := by
      simp [plainMore]
    obtain ⟨hg, hn0⟩ := PBreak.gap hnl hb w (X := s ++ (plainMore nl w r ++ E)) ⟨c, _, by rw [hc]; rfl, htok⟩
    have hpatt : ∀ c r', plainMore nl w ((b, s) :: r) ++ E = c :: r' → notIn (plainPatt false) c = false := by
      intro c r' he
      rw [eX] at he
      rw [PBreak.text] at he
      rcases hnl with rfl | rfl
      · simp at he; rw [← he.1]; decide
      · simp at he; rw [← he.1]; decide
    obtain ⟨n', lead', hn', h2⟩ := plainLoop_line k (level := level) hpatt n U S lead pre mid hu (by omega)
      (plainBody_append hB hcol (trimEnd_last (trimEnd_of_endsWithWs hl))) hsp
    have hwU : endsWithWs (U ++ S) = false := by rw [endsWithWs_append hu hne]; exact hl
    obtain ⟨n2, p2, m2, hn2, hpm2, h3⟩ := plainLoop_extra (level := level) (k.at level)
      (X := s ++ (plainMore nl w r ++ E)) ⟨c, _, by rw [hc]; rfl, by rintro rfl; exact absurd htok (by decide)⟩ hwU
      b.extra n' (plainBreak (U ++ S) (b.lines.length + 1)) (pre ++ mid ++ S) (nl ++ gapLines nl b.lines ++ spaces w)
      (by rw [plainBreak_ws, trimEnd_of_endsWithWs hwU]) (by omega)
    rw [PBreak.value hwU] at h3
    have h6 := h6 (U ++ S ++ b.val) s true n2 p2 m2 hs.utf8 (by omega)
      (by have : (!(U ++ S ++ b.val).isEmpty) = true := by simp [hne]
          rw [this]; exact hs.body [])
      hs.last.1 (by rw [hc]; simp) hs.last.2 (fun _ a d e => hs.lead _ a d e)
    rw [h2, eX]
    rw [plainRest_more _ _ _ _ _ _ _ _ _ _ (nl ++ gapLines nl b.lines) (spaces b.extra ++ (s ++ (plainMore nl w r ++ E))) hn0
      (by rw [hw]; exact hg) (by omega), hw, h3, h6, hpm2]
    simp [plainMore, plainMoreVal, PBreak.text]

/-- A plain scalar over several lines; the further lines must be indented by `w`. -/
def plainFolded (nl : Bytes) (w : Nat) (s : Bytes) (r : List (PBreak × Bytes)) : Bytes := s ++ plainMore nl w r

/-- What it stands for. -/
def plainFoldVal (s : Bytes) (r : List (PBreak × Bytes)) : Bytes := s ++ plainMoreVal r

theorem plainMoreVal_last : ∀ {r : List (PBreak × Bytes)} {v : Bytes}, PlainMore r → endsWithWs v = false →
    endsWithWs (v ++ plainMoreVal r) = false
  | [], v, _, hv => by simpa [plainMoreVal] using hv
  | (b, s) :: r, v, h, hv => by
    have hs : ContLine s := (h (b, s) (by simp)).2
    obtain ⟨c, q, hc, _⟩ := hs.first
    have := plainMoreVal_last (r := r) (v := v ++ b.val ++ s) (fun x hx => h x (by simp [hx]))
      (by rw [endsWithWs_append hs.utf8 (by rw [hc]; simp)]; exact hs.last.1)
    simpa [plainMoreVal] using this

/-- `string_plain` reads the whole scalar. -/
theorem stringPlain_fold {κ : EndKind} {level w : Nat} {s E nl : Bytes} {r : List (PBreak × Bytes)}
    (hnl : LineBreak nl) (hs : PlainLine s) (hr : PlainMore r) (hw : k.want level = w) (hw0 : 0 < w)
    (hE : LeafEnd κ k level E) :
    ∃ k', k'.at level = k.at level ∧ ∀ (n : Nat) (pre mid : Bytes), s.length + plainFuel r < n →
      stringPlain n level false (st k pre mid (plainFolded nl w s r ++ E)) =
        (.ok (plainFoldVal s r), st k' pre (mid ++ plainFolded nl w s r) E) := by
  have hp := hs.plain
  obtain ⟨k', tail, h1, h2, h3⟩ := plainLoop_fold hnl hw0 r k hr hw hE
  refine ⟨k', h1, fun n pre mid hn => ?_⟩
  have h3 := h3 [] s false n (pre ++ mid) [] hs.utf8 hn hp.body hs.last.1 hp.ne hs.last.2 (by simp)
  have hclean := plainMoreVal_last hr hs.last.1
  have hne : (plainFoldVal s r).isEmpty = false := by simp [plainFoldVal, hp.ne]
  have := context_st (k := k) (k' := k') (pre := pre) (mid := mid) (post := plainFolded nl w s r ++ E)
    (p' := plainFolded nl w s r) (m' := []) (post' := E) (o := .ok (plainFoldVal s r)) (f := do
      let v ← plainLoop level false (plainPatt false) n [] false
      let v := trimEnd v
      if v.isEmpty then mismatch else pure v) (by
        have e : plainFolded nl w s r ++ E = s ++ (plainMore nl w r ++ E) := by simp [plainFolded]
        rw [e, bind_ok h3]
        simp only [List.nil_append]
        rw [trimEnd_ws h2, trimEnd_of_endsWithWs hclean]
        have hne' : (s ++ plainMoreVal r).isEmpty = false := hne
        simp only [hne', Bool.false_eq_true, if_false]
        simp [plainFolded, plainFoldVal])
  rw [stringPlain, this]; simp

/-- A scalar over several lines is no keyword. -/
theorem plainFold_other {s : Bytes} {r : List (PBreak × Bytes)} (hr : r ≠ []) :
    ∀ kv ∈ Props.keywords, kv.1 ≠ plainFoldVal s r := by
  have hk : ∀ kv ∈ Props.keywords, ∀ c ∈ kv.1, c ≠ 0x20 ∧ c ≠ 0x0A := by decide +kernel
  intro kv hkv he
  obtain ⟨⟨b, t⟩, q, rfl⟩ := List.exists_cons_of_ne_nil hr
  have hm : ∀ c ∈ b.val, c ∈ kv.1 := by
    intro c hc
    rw [he]; simp only [plainFoldVal, plainMoreVal, List.flatMap_cons, List.mem_append]; exact .inr (.inl (.inl hc))
  by_cases hb : b.lines = [] ∨ 0 < b.extra
  · exact (hk kv hkv 0x20 (hm _ (by simp [PBreak.val, hb]))).1 rfl
  · refine (hk kv hkv 0x0A (hm _ ?_)).2 rfl
    simp only [PBreak.val, hb, if_false, List.mem_replicate]
    simp only [not_or] at hb
    exact ⟨by simpa using hb.1, trivial⟩

theorem plain_folded_leaf {w : Nat} {s nl : Bytes} {r : List (PBreak × Bytes)} (hnl : LineBreak nl) (hs : PlainLine s)
    (hr : PlainMore r) (hne : r ≠ []) :
    LeafOKE (.fold w) (plainFolded nl w s r) (fun _ _ => .str (plainFoldVal s r)) .none := by
  have hp := hs.plain
  refine ⟨fun k level E hw0 hw hE => ?_, ?_⟩
  · have hw := hw w rfl
    obtain ⟨k', hk', hq⟩ := stringPlain_fold k hnl hs hr hw (by omega) hE
    refine ⟨k', hk', s.length + plainFuel r + 1, fun a n d ha hn hd L pre hL _ => ?_⟩
    obtain ⟨d, rfl⟩ : ∃ i, d = i + 1 := ⟨d - 1, by omega⟩
    rw [show ∀ p e, Known.none.eff p e = e.anchors from fun _ _ => rfl, show (envOf L k).anchors = L.cur from rfl,
      Loader.put_cur hL]
    refine ⟨pre, _, rfl, scalarTerm_atom _ ?_⟩
    have h1 : NotNum (plainFolded nl w s r ++ E) := by
      rw [plainFolded, List.append_assoc]; exact hp.notNum_append _
    have h2 : atomHead (plainFolded nl w s r ++ E) = true := by
      rw [plainFolded, List.append_assoc]; exact hp.atomHead _
    rw [scalarAtom_plain _ _ _ _ _ _ _ h1 h2, bind_ok (try_ok (lift_of (hq n pre [] (by omega))))]
    simp [Props.C16_other_text _ (plainFold_other hne)]
  · obtain ⟨c, q, h1, h2, h3, h4⟩ := hp.first
    refine ⟨c, q ++ plainMore nl w r, by rw [plainFolded, h1]; rfl, h2, h3, fun h => ?_⟩
    obtain ⟨x, u, h5, h6⟩ := h4 h
    exact ⟨x, u ++ plainMore nl w r, by rw [h5]; rfl, h6⟩

end YamlPeg
