import Verif.Proof.RunsP
import Verif.Proof.Hang
import Verif.Proof.PropText
/-! # Termination of values: quoted strings that are closed, the places where a value may begin -/

namespace YamlPeg
open M Frame

theorem unclosed_cons {a q x : UInt8} {r : Bytes} (h1 : [a, q].isPrefixOf (x :: r) = false) :
    unclosed a q (x :: r) = (x != q && unclosed a q r) := by
  cases r with
  | nil => simp [unclosed]
  | cons d r =>
    rw [unclosed, if_neg]
    intro h
    simp only [Bool.and_eq_true, beq_iff_eq] at h
    simp [List.isPrefixOf, h.1, h.2] at h1

/-- A quoted string with a closing quote is read to its end. -/
theorem quotedLoop_closed {a q : UInt8} (haq : (a = 0x27 ∧ q = 0x27) ∨ (a = 0x5C ∧ q = 0x22)) :
    ∀ (n : Nat) (v : Bytes) (k : Ctx) (pre mid post : Bytes), unclosed a q post = false → post.length < n →
    ∃ v' pre' mid' post', quotedLoop q [a, q] n v (st k pre mid post) = (.ok v', st k pre' mid' post') ∧
      pre' ++ (mid' ++ post') = pre ++ (mid ++ post) ∧ pre.length + mid.length ≤ pre'.length := by
  intro n
  induction n with
  | zero => intros; omega
  | succ n ih =>
    intro v k pre mid post hq hn
    rw [quotedLoop, bind_ok (forward_st ..), bind_ok (takeWhile_more0 ..)]
    have hr : unclosed a q (post.dropWhile (notIn [0x0A, 0x0D, 0x5C, q])) = false := by
      rw [← hq]
      conv => rhs; rw [← List.takeWhile_append_dropWhile (p := notIn [0x0A, 0x0D, 0x5C, q]) (l := post)]
      rw [unclosed_drop]
      intro x hx
      have := mem_takeWhile hx
      simp [notIn] at this
      obtain ⟨-, -, h1, h2⟩ := this
      rcases haq with ⟨rfl, rfl⟩ | ⟨rfl, rfl⟩
      · exact ⟨h2, h2⟩
      · exact ⟨h1, h2⟩
    have hstop : ∀ x r, post.dropWhile (notIn [0x0A, 0x0D, 0x5C, q]) = x :: r → x = 0x0A ∨ x = 0x0D ∨ x = 0x5C ∨ x = q := by
      intro x r h
      have hn := List.head_dropWhile_not (p := notIn [0x0A, 0x0D, 0x5C, q]) (l := post) (by rw [h]; simp)
      simp only [h, List.head_cons] at hn
      simp [notIn] at hn
      by_cases h1 : x = 0x0A
      · exact .inl h1
      by_cases h2 : x = 0x0D
      · exact .inr (.inl h2)
      by_cases h3 : x = 0x5C
      · exact .inr (.inr (.inl h3))
      exact .inr (.inr (.inr (hn h1 h2 h3)))
    have hcat := List.takeWhile_append_dropWhile (p := notIn [0x0A, 0x0D, 0x5C, q]) (l := post)
    generalize post.dropWhile (notIn [0x0A, 0x0D, 0x5C, q]) = r at hr hstop hcat
    generalize post.takeWhile (notIn [0x0A, 0x0D, 0x5C, q]) = w at hcat
    have hlen : w.length + r.length < n + 1 := by rw [← hcat] at hn; simpa using hn
    rw [bind_ok (text_st ..)]
    simp only
    rw [bind_ok (forward_st ..)]
    -- the next round
    have next : ∀ (v : Bytes) (mid2 post2 : Bytes), mid2 ++ post2 = r → unclosed a q post2 = false → mid2 ≠ [] →
        ∃ v' pre' mid' post', quotedLoop q [a, q] n v (st k (pre ++ mid ++ ([] ++ w)) mid2 post2) = (.ok v', st k pre' mid' post') ∧
      pre' ++ (mid' ++ post') = pre ++ (mid ++ post) ∧ pre.length + mid.length ≤ pre'.length := by
      intro v mid2 post2 h1 h2 h3
      have : 0 < mid2.length := List.length_pos_iff.2 h3
      have hl2 : mid2.length + post2.length = r.length := by rw [← h1]; simp
      obtain ⟨v', p', m', q', h4, h5, h6⟩ := ih v k (pre ++ mid ++ ([] ++ w)) mid2 post2 h2 (by omega)
      refine ⟨v', p', m', q', h4, ?_, ?_⟩
      · rw [h5, h1, ← hcat]; simp
      · simp only [List.length_append] at h6; omega
    by_cases h1 : [a, q].isPrefixOf r = true
    · rw [bind_ok (isOk_ok (by rw [symSeq_eq, if_pos h1]))]
      simp only [if_true]
      obtain ⟨s, rfl⟩ := List.isPrefixOf_iff_prefix.mp h1
      refine next _ _ _ (by simp) ?_ (by simp)
      simpa [unclosed] using hr
    · rw [bind_ok (isOk_err (by rw [symSeq_eq, if_neg h1]))]
      simp only [Bool.false_eq_true, if_false]
      have hws : ∀ x : UInt8, x = 0x0A ∨ x = 0x0D ∨ isBlank x = true → x ≠ a ∧ x ≠ q := by
        intro x hx
        rcases haq with ⟨rfl, rfl⟩ | ⟨rfl, rfl⟩ <;> rcases hx with rfl | rfl | hx <;>
          first
          | decide
          | (constructor <;> (rintro rfl; revert hx; decide))
      cases hg : gapSpec false ([] ++ r) with
      | some x =>
        obtain ⟨t, taken, left⟩ := x
        have hl : taken ++ left = r := gapSpec_append' hg
        rw [bind_ok (try_ok (by rw [gap_eq, hg]))]
        simp only
        rw [ws, bind_ok (takeWhile_more0 ..)]
        have htk : (∀ x ∈ taken, x = 0x0A ∨ x = 0x0D ∨ isBlank x = true) ∧ taken ≠ [] := by
          simp only [gapSpec, gapLead, Bool.false_eq_true, if_false] at hg
          split at hg
          · simp at hg
          · rename_i h0
            simp only [Option.some.injEq, Prod.mk.injEq] at hg
            obtain ⟨-, rfl, -⟩ := hg
            refine ⟨?_, ?_⟩
            · intro x hx
              simp only [List.nil_append, List.mem_append] at hx
              rcases hx with hx | hx
              · rcases nlTaken _ x hx with h | h
                · exact .inl h
                · exact .inr (.inl h)
              · exact gapMore_taken _ _ x hx
            · intro he
              simp only [List.nil_append, List.append_eq_nil_iff, List.take_eq_nil_iff] at he
              rcases he.1 with h | h
              · exact h0 h
              · simp [h, nlLen] at h0
        refine next _ _ _ ?_ ?_ ?_
        · simp only [List.nil_append, List.append_assoc]
          rw [show (fun c => isAsciiWs c && c != 0x0A && c != 0x0D) = isBlank from rfl, List.takeWhile_append_dropWhile, hl]
        · rw [← hl, unclosed_drop fun x hx => hws x (htk.1 x hx)] at hr
          rw [← hr]
          conv => rhs; rw [← List.takeWhile_append_dropWhile (p := isBlank) (l := left)]
          rw [unclosed_drop fun x hx => hws x (.inr (.inr (mem_takeWhile hx)))]
          rfl
        · simp [htk.2]
      | none =>
        rw [bind_ok (try_err (by rw [gap_eq, hg]))]
        simp only [gapLead, Bool.false_eq_true, if_false, List.nil_append, List.append_nil]
        cases r with
        | nil => simp [unclosed] at hr
        | cons x r =>
          rw [unclosed_cons (Bool.eq_false_iff.2 h1)] at hr
          by_cases hx : x = 0x5C
          · subst hx
            rw [bind_ok (isOk_ok (sym_hit ..))]
            have hq' : q ≠ 0x5C := by rcases haq with ⟨-, rfl⟩ | ⟨-, rfl⟩ <;> decide
            have hr' : unclosed a q r = false := by simpa [Ne.symm hq'] using hr
            have := next (v ++ lossy w ++ [0x5C]) [0x5C] r rfl hr' (by simp)
            simpa using this
          · rw [bind_ok (isOk_err (sym_miss _ _ _ _ _ _ hx))]
            simp only [Bool.false_eq_true, if_false, List.nil_append]
            have hz : ∀ c l, x :: r = c :: l → c ≠ 0x0A ∧ c ≠ 0x0D := by
              rw [← nlLen_zero_iff]
              simp only [gapSpec, gapLead, Bool.false_eq_true, if_false, List.nil_append] at hg
              split at hg
              · assumption
              · simp at hg
            have hxq : x = q := by
              rcases hstop x r rfl with h | h | h | h
              · exact absurd h (hz x r rfl).1
              · exact absurd h (hz x r rfl).2
              · exact absurd h hx
              · exact h
            subst hxq
            rw [bind_ok (isOk_ok (sym_hit ..))]
            refine ⟨_, _, _, _, rfl, ?_, ?_⟩
            · rw [← hcat]; simp
            · simp

/-! ## Places where a value may begin -/

/-- The bytes of `bound` (grammar.rs:11-15). -/
abbrev bnd : Bytes := b!":{}[] ,\n\r"

/-- Behind a word, if there is one. -/
def skipIdent (r : Bytes) : Bytes := if headAlnum r then r.dropWhile idByte else r

/-- What is left behind a tag whose `!` is followed by `b`; `none` if it is not a tag. -/
def tagLeft (b : Bytes) : Option Bytes :=
  if headAlnum b then
    match b.dropWhile idByte with
    | [] => some []
    | c :: r => if c = 0x21 then some (skipIdent r) else some (c :: r)
  else
    match b with
    | [] => some []
    | c :: r =>
      if c = 0x3C then
        if (r.takeWhile (notIn b!" <>\n\r")).isEmpty then none
        else match r.dropWhile (notIn b!" <>\n\r") with
          | [] => none
          | d :: q => if d = 0x3E then some (skipIdent q) else none
      else if c = 0x21 then some (skipIdent r)
      else some (c :: r)

/-- If a quoted string begins here, it has a closing quote; if an anchor or a tag
begins here, it ends in front of one of the bytes `:{}[] ,` or a line break. -/
structure QOk (r : Bytes) : Prop where
  single : ∀ b, r = 0x27 :: b → unclosed 0x27 0x27 b = false
  double : ∀ b, r = 0x22 :: b → unclosed 0x5C 0x22 b = false
  anchor : ∀ b, r = 0x26 :: b → headAlnum b = true → headIn bnd (b.dropWhile idByte) = true
  tag : ∀ b, r = 0x21 :: b → ∀ q, tagLeft b = some q → headIn bnd q = true

/-- The bytes behind which a value may begin. -/
def opener (c : UInt8) : Bool := isAsciiWs c || (b!"-+>[,{:?*&").contains c

/-- Every quoted string, anchor or tag at the beginning of the document, behind
one of the `opener` bytes, behind the version of a `%YAML` directive or behind
the first `!` of a `%TAG` directive is closed. -/
structure QuotesClosed (doc : Bytes) : Prop where
  start : QOk doc
  after : ∀ pre c post, doc = pre ++ c :: post → opener c = true → QOk post
  yaml : ∀ pre w v post, doc = pre ++ (b!"%YAML" ++ w ++ v ++ post) → (∀ c ∈ w, isBlank c = true) →
    v = b!"1.1" ∨ v = b!"1.2" → QOk post
  tagDir : ∀ pre w post, doc = pre ++ (b!"%TAG" ++ w ++ b!"!" ++ post) → (∀ c ∈ w, isBlank c = true) → QOk post

/-- No quoted string, anchor or tag begins with this byte. -/
def bareHead (c : UInt8) : Prop := c ≠ 0x27 ∧ c ≠ 0x22 ∧ c ≠ 0x26 ∧ c ≠ 0x21

theorem QOk.head {r : Bytes} (h : ∀ c, r.head? = some c → bareHead c) : QOk r :=
  ⟨fun b e => absurd rfl (h _ (by rw [e]; rfl)).1, fun b e => absurd rfl (h _ (by rw [e]; rfl)).2.1,
    fun b e => absurd rfl (h _ (by rw [e]; rfl)).2.2.1, fun b e => absurd rfl (h _ (by rw [e]; rfl)).2.2.2⟩

theorem QOk.nil : QOk [] := .head (by simp)

theorem QOk.bnd {r : Bytes} (h : headIn bnd r = true) : QOk r := by
  refine QOk.head fun c hc => ?_
  cases r with
  | nil => simp at hc
  | cons x r =>
    simp only [List.head?_cons, Option.some.injEq] at hc
    subst hc
    refine ⟨?_, ?_, ?_, ?_⟩ <;> (rintro rfl; revert h; simp [headIn])

section
variable {doc : Bytes} {α β : Type} {s : Parser}

/-- The cursor is at such a place. -/
def QAt (doc : Bytes) (p : Nat) : Prop := QOk (doc.drop p)

theorem qat_st {k : Ctx} {pre mid post : Bytes} (hs : PWF (tc doc) (st k pre mid post)) :
    QAt doc (st k pre mid post).pos ↔ QOk post := by
  have hd : (st k pre mid post).doc = doc := hs.doc
  unfold QAt
  rw [← hd]
  have := st_rest k pre mid post
  unfold Parser.rest at this
  rw [this]

theorem qat_rest (hs : PWF (tc doc) s) : QAt doc s.pos ↔ QOk s.rest := by
  have hd : s.doc = doc := hs.doc
  unfold QAt Parser.rest
  rw [hd]

/-- Behind an opener. -/
theorem QuotesClosed.at (h : QuotesClosed doc) {k : Ctx} {pre mid post : Bytes} (hs : PWF (tc doc) (st k pre mid post))
    {x : Bytes} {c : UInt8} (hx : pre ++ mid = x ++ [c]) (hc : opener c = true) : QAt doc (st k pre mid post).pos := by
  rw [qat_st hs]
  refine h.after x c post ?_ hc
  have hd : pre ++ (mid ++ post) = doc := hs.doc
  rw [← hd, ← List.append_assoc, hx]; simp

theorem QuotesClosed.run (h : QuotesClosed doc) {k : Ctx} {pre mid post w : Bytes}
    (hs : PWF (tc doc) (st k pre (mid ++ w) post)) (hw : ∀ c ∈ w, opener c = true)
    (h0 : w = [] → QOk post) : QAt doc (st k pre (mid ++ w) post).pos := by
  rcases List.eq_nil_or_concat w with rfl | ⟨w', c, rfl⟩
  · rw [qat_st hs]; exact h0 rfl
  · refine h.at hs (x := pre ++ (mid ++ w')) (c := c) (by simp) (hw c (by simp))

theorem blank_opener {c : UInt8} (h : isBlank c = true) : opener c = true := by
  simp only [isBlank, Bool.and_eq_true] at h
  simp [opener, h.1.1]

/-- White space is skipped. -/
theorem more0_qat {f : UInt8 → Bool} (hf : ∀ c, f c = true → opener c = true) (hq : QuotesClosed doc)
    (hs : PWF (tc doc) s) {E : PErr → Parser → Prop} (h : QAt doc s.pos) :
    Runs (takeWhile f (.more 0)) s (fun _ s' => QAt doc s'.pos) E := by
  have hr := more0_runs (f := f) hs (E := fun _ _ => False)
  obtain ⟨k, pre, mid, post, rfl⟩ := PWF.exists_st hs
  unfold Runs at *
  rw [takeWhile_more0] at hr ⊢
  refine hq.run hr.1.wf (fun c hc => hf c (mem_takeWhile hc)) fun h0 => ?_
  rw [qat_st hs] at h
  rw [← List.takeWhile_append_dropWhile (p := f) (l := post), h0] at h
  exact h

theorem sym_qat {c : UInt8} (hc : opener c = true) (hq : QuotesClosed doc) (hs : PWF (tc doc) s) :
    Runs (sym c) s (fun _ s' => QAt doc s'.pos) (fun _ _ => True) := by
  have hr := sym_runs (c := c) hs
  obtain ⟨k, pre, mid, post, rfl⟩ := PWF.exists_st hs
  unfold Runs at *
  cases post with
  | nil => simp
  | cons x r =>
    by_cases hx : x = c
    · subst hx
      rw [sym_hit] at hr ⊢
      exact hq.at hr.1.wf (x := pre ++ mid) (c := x) (by simp) hc
    · rw [sym_miss _ _ _ _ _ _ hx]; trivial

theorem bound_qat (hq : QuotesClosed doc) (hs : PWF (tc doc) s) :
    Runs bound s (fun _ s' => QAt doc s'.pos) (fun _ _ => True) := by
  have hr := bound_runs hs
  obtain ⟨k, pre, mid, post, rfl⟩ := PWF.exists_st hs
  unfold Runs at *
  rw [bound_eq] at hr ⊢
  by_cases hb : headIn b!":{}[] ,\n\r" post = true
  · rw [if_pos hb] at hr ⊢
    refine hq.run hr.1.wf (fun c hc => blank_opener (mem_takeWhile hc)) fun h0 => ?_
    have : post.dropWhile isBlank = post := by
      conv => rhs; rw [← List.takeWhile_append_dropWhile (p := isBlank) (l := post), h0]
      rfl
    rw [this]
    exact QOk.bnd hb
  · rw [if_neg hb] at hr ⊢; trivial

theorem nl_opener {c : UInt8} (h : c = 0x0A ∨ c = 0x0D) : opener c = true := by
  rcases h with rfl | rfl <;> decide

theorem nlTaken_ne {r : Bytes} (h : nlLen r ≠ 0) : r.take (nlLen r) ≠ [] := by
  intro he
  rw [List.take_eq_nil_iff] at he
  rcases he with he | he
  · exact h he
  · subst he; simp [nlLen] at h

/-- The last byte a gap swallows is a line break. -/
theorem gapMore_last (c : Bool) (n : Nat) (r : Bytes) :
    (gapMore c n r).2.1 = [] ∨ ∃ x y, (gapMore c n r).2.1 = x ++ [y] ∧ (y = 0x0A ∨ y = 0x0D) := by
  induction n generalizing r with
  | zero => left; simp [gapMore]
  | succ n ih =>
    simp only [gapMore]
    split
    · left; rfl
    · right
      rename_i h0
      simp only
      rcases ih ((gapLine c r).2.drop (nlLen (gapLine c r).2)) with h | ⟨x, y, h, hy⟩
      · rw [h, List.append_nil]
        rcases List.eq_nil_or_concat ((gapLine c r).2.take (nlLen (gapLine c r).2)) with h1 | ⟨w, d, h1⟩
        · exact absurd h1 (nlTaken_ne h0)
        · refine ⟨(gapLine c r).1 ++ w, d, by rw [h1]; simp, ?_⟩
          exact nlTaken (gapLine c r).2 d (by rw [h1]; simp)
      · exact ⟨(gapLine c r).1 ++ ((gapLine c r).2.take (nlLen (gapLine c r).2) ++ x), y, by rw [h]; simp, hy⟩

theorem gapSpec_last {c : Bool} {E taken left : Bytes} {t : Nat} (hg : gapSpec c E = some (t, taken, left)) :
    ∃ x y, taken = x ++ [y] ∧ (y = 0x0A ∨ y = 0x0D) := by
  simp only [gapSpec] at hg
  split at hg
  · simp at hg
  · rename_i h0
    simp only [Option.some.injEq, Prod.mk.injEq] at hg
    obtain ⟨-, rfl, -⟩ := hg
    rcases gapMore_last c (((gapLead c E).2.drop (nlLen (gapLead c E).2)).length + 1) ((gapLead c E).2.drop (nlLen (gapLead c E).2)) with h | ⟨x, y, h, hy⟩
    · rcases List.eq_nil_or_concat ((gapLead c E).2.take (nlLen (gapLead c E).2)) with h1 | ⟨w, d, h1⟩
      · exact absurd h1 (nlTaken_ne h0)
      · refine ⟨(gapLead c E).1 ++ w, d, ?_, ?_⟩
        · rw [h, h1]; simp
        · exact nlTaken _ d (by rw [h1]; simp)
    · exact ⟨(gapLead c E).1 ++ ((gapLead c E).2.take (nlLen (gapLead c E).2) ++ x), y, by rw [h]; simp, hy⟩

theorem gap_qat (hq : QuotesClosed doc) (hs : PWF (tc doc) s) :
    Runs (gap true) s (fun _ s' => QAt doc s'.pos) (fun _ s' => QAt doc s.pos → QAt doc s'.pos) := by
  have hr := gap_runs hs
  obtain ⟨k, pre, mid, post, rfl⟩ := PWF.exists_st hs
  unfold Runs at *
  rw [gap_eq] at hr ⊢
  cases hg : gapSpec true post with
  | some x =>
    obtain ⟨t, taken, left⟩ := x
    rw [hg] at hr
    simp only at hr ⊢
    obtain ⟨x, y, h, hy⟩ := gapSpec_last hg
    exact hq.at hr.1.wf (x := pre ++ (mid ++ x)) (c := y) (by rw [h]; simp) (nl_opener hy)
  | none =>
    rw [hg] at hr
    simp only at hr ⊢
    intro h0
    rw [qat_st hr.2.1.wf]
    rw [qat_st hs] at h0
    simp only [gapSpec] at hg
    split at hg
    · rename_i hz
      simp only [gapLead, if_true, cmtSkip] at hz ⊢
      split
      · rename_i r hr
        rw [hr] at hz
        simp only at hz
        rw [nlLen_zero_iff] at hz
        cases hdw : r.dropWhile (notIn b!"\n\r") with
        | nil => exact .nil
        | cons c q =>
          have := hz c q hdw
          have hn := List.head_dropWhile_not (p := notIn b!"\n\r") (l := r) (by rw [hdw]; simp)
          simp only [hdw, List.head_cons] at hn
          simp [notIn, this.1, this.2] at hn
      · exact h0
    · simp at hg

theorem ind_qat {L : Nat} (hq : QuotesClosed doc) (hs : PWF (tc doc) s) (h : QAt doc s.pos) :
    Runs (ind L) s (fun _ s' => QAt doc s'.pos) (fun _ _ => True) := by
  have hr := ind_runs (L := L) hs
  obtain ⟨k, pre, mid, post, rfl⟩ := PWF.exists_st hs
  unfold Runs at *
  rw [ind_eq] at hr ⊢
  by_cases hp : (spaces (k.want L)).isPrefixOf post = true
  · rw [if_pos hp] at hr ⊢
    refine hq.run hr.1 (fun c hc => ?_) fun h0 => ?_
    · have : c = 0x20 := by simpa [spaces] using (List.mem_replicate.1 hc).2
      rw [this]; decide
    · have : k.want L = 0 := by
        have := congrArg List.length h0
        simpa [spaces] using this
      rw [this]
      rw [qat_st hs] at h
      exact h
  · rw [if_neg hp]; trivial

theorem isAsciiWs_opener {c : UInt8} (h : isAsciiWs c = true) : opener c = true := by simp [opener, h]

theorem indDefine_qat {m : Nat} (hq : QuotesClosed doc) (hs : PWF (tc doc) s) (h : QAt doc s.pos) :
    Runs (indDefine (m + 1)) s (fun _ s' => QAt doc s'.pos) (fun _ s' => s'.pos = s.eaten) := by
  have h1 : Runs (ind m) s (fun _ s' => PWF (tc doc) s' ∧ QAt doc s'.pos) (fun _ s' => s'.pos = s.eaten) :=
    ((ind_runs hs).and (ind_qat hq hs h)).mono (fun _ _ h => ⟨h.1.1, h.2⟩) fun _ _ h => h.1.2.2.2.2.2
  refine Runs.bind (Runs.mono (x := ind m) h1 (fun _ s1 h1 => ?_) fun _ _ h => h)
  obtain ⟨w1, q1⟩ := h1
  have h2 : Runs (count (takeWhile isAsciiWs (.more 0))) s1 (fun _ s' => QAt doc s'.pos) (fun _ _ => False) := by
    refine Runs.bind (Runs.get ?_)
    refine Runs.bind ((more0_qat (fun c h => isAsciiWs_opener h) hq w1 q1).mono (fun _ s2 h2 => ?_) fun _ _ h => h)
    refine Runs.bind (Runs.get (Runs.ite (fun _ => Runs.pure h2) fun _ => trivial))
  refine Runs.bind (h2.mono (fun c s2 h2 => ?_) fun _ _ h => h.elim)
  refine Runs.bind (Runs.get (Runs.ite (fun _ => Runs.modify h2) fun _ => Runs.ite (fun _ => Runs.modify h2) fun _ => trivial))

theorem complexMapping_qat (hq : QuotesClosed doc) (hs : PWF (tc doc) s) :
    Runs complexMapping s (fun _ s' => QAt doc s'.pos) (fun _ _ => True) := by
  refine Runs.bind ((sym_runs hs).mono (fun _ s1 h1 => ?_) fun _ _ _ => trivial)
  exact bound_qat hq h1.1.wf

/-- One line of a block scalar, then the rest. -/
def wrapLine (level : Nat) (sep : UInt8) (leading : Bool) (n : Nat) (v : Bytes) : PM Bytes := do
  forward
  takeWhile (notIn b!"\n\r") (.more 0)
  let s ← text
  wrappedLoop level sep leading n (wrappedPush sep leading v s)

theorem wrappedLoop_unfold (level : Nat) (sep : UInt8) (leading : Bool) (n : Nat) (v : Bytes) :
    wrappedLoop level sep leading (n + 1) v = (do
      nl
      forward
      if ← isOk (ind level) then wrapLine level sep leading n v
      else match ← try? (gap false) with
        | some t =>
          if ← isOk (ind level) then wrapLine level sep leading n (v ++ List.replicate t 0x0A)
          else pure (v ++ List.replicate t 0x0A)
        | none => pure v) := rfl

/-- A block scalar fails where it begins, or at the end of the input. -/
theorem wrappedLoop_err {L : Nat} {sep : UInt8} {leading : Bool} : ∀ (n : Nat) (v : Bytes) (k : Ctx) (pre mid post : Bytes)
    (e : PErr) (s' : Parser), wrappedLoop L sep leading n v (st k pre mid post) = (.err e, s') →
    (s'.rest = post ∧ nlLen post = 0) ∨ s'.rest = [] := by
  intro n
  induction n with
  | zero => intro v k pre mid post e s' h; simp [wrappedLoop, diverge] at h
  | succ n ih =>
    intro v k pre mid post e s' h
    have line : ∀ (v : Bytes) (k : Ctx) (pre mid post : Bytes), wrapLine L sep leading n v (st k pre mid post) = (.err e, s') →
        s'.rest = [] := by
      intro v k pre mid post h
      rw [wrapLine, bind_ok (forward_st ..), bind_ok (takeWhile_more0 ..), bind_ok (text_st ..)] at h
      rcases ih _ _ _ _ _ _ _ h with ⟨h1, h2⟩ | h1
      · rw [nlLen_zero_iff] at h2
        cases hd : post.dropWhile (notIn b!"\n\r") with
        | nil => rw [h1, hd]
        | cons c q =>
          have := h2 c q hd
          have hn := List.head_dropWhile_not (p := notIn b!"\n\r") (l := post) (by rw [hd]; simp)
          simp only [hd, List.head_cons] at hn
          simp [notIn, this.1, this.2] at hn
      · exact h1
    rw [wrappedLoop_unfold] at h
    by_cases h0 : nlLen post = 0
    · rw [bind_err (by rw [nl_eq, if_pos h0])] at h
      simp only [Prod.mk.injEq] at h
      rw [← h.2]
      exact .inl ⟨by simp, h0⟩
    · rw [bind_ok (by rw [nl_eq, if_neg h0]), bind_ok (forward_st ..)] at h
      right
      generalize pre ++ (mid ++ post.take (nlLen post)) = pre at h
      generalize post.drop (nlLen post) = post at h
      by_cases h1 : (spaces (k.want L)).isPrefixOf post = true
      · rw [bind_ok (isOk_ok (by rw [ind_eq, if_pos h1]))] at h
        simp only [if_true] at h
        exact line _ _ _ _ _ h
      · rw [bind_ok (isOk_err (by rw [ind_eq, if_neg h1]))] at h
        simp only [Bool.false_eq_true, if_false] at h
        cases hg : gapSpec false ([] ++ post) with
        | none =>
          rw [bind_ok (try_err (by rw [gap_eq, hg]))] at h
          simp at h
        | some x =>
          obtain ⟨t, taken, left⟩ := x
          rw [bind_ok (try_ok (by rw [gap_eq, hg]))] at h
          simp only at h
          generalize [] ++ taken = mid at h
          by_cases h2 : (spaces ((k.at L).want L)).isPrefixOf left = true
          · rw [bind_ok (isOk_ok (by rw [ind_eq, if_pos h2]))] at h
            simp only [if_true] at h
            exact line _ _ _ _ _ h
          · rw [bind_ok (isOk_err (by rw [ind_eq, if_neg h2]))] at h
            simp at h

theorem chomp_opener (k : Ctx) (pre mid post : Bytes) : ∃ c w r, chomp (st k pre mid post) = (.ok c, st k pre (mid ++ w) r) ∧
    w ++ r = post ∧ ∀ x ∈ w, opener x = true := by
  have hx : ∀ (o : Chomp) w r, (do
        if ← isOk (sym 0x2D) then pure Chomp.strip
        else if ← isOk (sym 0x2B) then pure Chomp.keep
        else pure Chomp.clip : PM Chomp) (st k (pre ++ mid) [] post) = (.ok o, st k (pre ++ mid ++ []) w r) →
      chomp (st k pre mid post) = (.ok o, st k pre (mid ++ ([] ++ w)) r) := by
    intro o w r h; exact context_st h
  by_cases h1 : ∃ r, post = 0x2D :: r
  · obtain ⟨r, rfl⟩ := h1
    refine ⟨.strip, [0x2D], r, ?_, rfl, by decide⟩
    have := hx .strip [0x2D] r (by rw [bind_ok (isOk_ok (sym_hit ..))]; simp)
    simpa using this
  · have hm : ∀ (c : UInt8), (¬ ∃ r, post = c :: r) → sym c (st k (pre ++ mid) [] post) = (.err .mismatch, st k (pre ++ mid) [] post) := by
      intro c hc
      cases post with
      | nil => simp
      | cons x r => rw [sym_miss _ _ _ _ _ _ (by rintro rfl; exact hc ⟨r, rfl⟩)]; simp
    by_cases h2 : ∃ r, post = 0x2B :: r
    · have h1' := hm 0x2D h1
      obtain ⟨r, rfl⟩ := h2
      refine ⟨.keep, [0x2B], r, ?_, rfl, by decide⟩
      have := hx .keep [0x2B] r (by
        rw [bind_ok (isOk_err h1')]
        simp only [Bool.false_eq_true, if_false]
        rw [bind_ok (isOk_ok (sym_hit ..))]; simp)
      simpa using this
    · refine ⟨.clip, [], post, ?_, rfl, by simp⟩
      have := hx .clip [] post (by
        rw [bind_ok (isOk_err (hm 0x2D h1))]
        simp only [Bool.false_eq_true, if_false]
        rw [bind_ok (isOk_err (hm 0x2B h2))]; simp)
      simpa using this

/-- A block scalar that fails: the cursor is back at the mark, or behind the sign. -/
theorem block_qat {L : Nat} {c sep : UInt8} {leading : Bool} (hc : opener c = true) (hq : QuotesClosed doc)
    (hs : PWF (tc doc) s) :
    Runs (do
      sym c
      let ch ← chomp
      ws (.more 0)
      let v ← stringWrapped L sep leading
      pure (ch.apply v)) s (fun _ s' => PWF (tc doc) s')
      (fun _ s' => s'.pos = s.eaten ∨ QAt doc s'.pos) := by
  have hr := block_runs (L := L) (c := c) (sep := sep) (leading := leading) hs
  have hs0 := hs
  obtain ⟨k, pre, mid, post, rfl⟩ := PWF.exists_st hs
  by_cases hp : ∃ r, post = c :: r
  · obtain ⟨r, rfl⟩ := hp
    obtain ⟨ch, w, r', h1, h2, h3⟩ := chomp_opener k pre (mid ++ [c]) r
    have hx : (do
        sym c
        let ch ← chomp
        ws (.more 0)
        let v ← stringWrapped L sep leading
        pure (ch.apply v) : PM Bytes) (st k pre mid (c :: r)) = (do
        let v ← stringWrapped L sep leading
        pure (ch.apply v) : PM Bytes) (st k pre (mid ++ [c] ++ w ++ r'.takeWhile isBlank) (r'.dropWhile isBlank)) := by
      rw [bind_ok (sym_hit ..), bind_ok h1, bind_ok (ws_st ..)]
    unfold Runs at *
    rw [hx] at hr ⊢
    have w3 : PWF (tc doc) (st k pre (mid ++ [c] ++ w ++ r'.takeWhile isBlank) (r'.dropWhile isBlank)) := by
      refine hs.move ?_
      rw [← h2]
      simp only [List.append_assoc, List.takeWhile_append_dropWhile, List.cons_append, List.nil_append]
    have q3 : QAt doc (st k pre (mid ++ [c] ++ w ++ r'.takeWhile isBlank) (r'.dropWhile isBlank)).pos := by
      rw [show mid ++ [c] ++ w ++ r'.takeWhile isBlank = mid ++ (([c] ++ w) ++ r'.takeWhile isBlank) by simp] at w3 ⊢
      refine hq.run w3 (fun x hx => ?_) fun h => by simp at h
      simp only [List.mem_append, List.mem_singleton] at hx
      rcases hx with (rfl | hx) | hx
      · exact hc
      · exact h3 x hx
      · exact blank_opener (mem_takeWhile hx)
    generalize mid ++ [c] ++ w ++ r'.takeWhile isBlank = mid at *
    generalize r'.dropWhile isBlank = post at *
    rcases hy : (do
        let v ← stringWrapped L sep leading
        pure (ch.apply v) : PM Bytes) (st k pre mid post) with ⟨o, s'⟩
    rw [hy] at hr
    cases o with
    | ok v => exact hr.wf
    | panic p => trivial
    | diverge => exact hr
    | err e =>
      right
      rw [qat_rest hr.1.wf]
      rw [qat_st w3] at q3
      rcases hz : stringWrapped L sep leading (st k pre mid post) with ⟨o, s2⟩
      cases o with
      | ok v => rw [bind_ok hz] at hy; simp at hy
      | panic p => rw [bind_panic hz] at hy; simp at hy
      | diverge => rw [bind_diverge hz] at hy; simp at hy
      | err e' =>
        rw [bind_err hz] at hy
        simp only [Prod.mk.injEq] at hy
        rw [← hy.2]
        unfold stringWrapped context at hz
        have e0 : ({ st k pre mid post with eaten := (st k pre mid post).pos } : Parser) = st k (pre ++ mid) [] post := by
          simp [st]
        simp only [e0] at hz
        rw [bind_ok (get_run _)] at hz
        rcases hw : wrappedLoop L sep leading ((st k (pre ++ mid) [] post).rest.length + 1) [] (st k (pre ++ mid) [] post) with ⟨o, s3⟩
        cases o with
        | ok v =>
          rw [bind_ok hw] at hz
          have this : ∀ e s', (back 1 >>= fun _ => pure (v ++ [0x0A]) : PM Bytes) s3 ≠ (.err e, s') := by
            intro e s' hh
            rcases hk : back 1 s3 with ⟨o, s5⟩
            cases o with
            | ok u => rw [bind_ok hk] at hh; simp at hh
            | panic p => rw [bind_panic hk] at hh; simp at hh
            | diverge => rw [bind_diverge hk] at hh; simp at hh
            | err e => unfold back at hk; split at hk <;> simp at hk
          rcases hb2 : (back 1 >>= fun _ => pure (v ++ [0x0A]) : PM Bytes) s3 with ⟨o, s4⟩
          rw [hb2] at hz this
          simp only [Prod.mk.injEq] at hz
          exact absurd (by rw [hz.1]) (this e' s4)
        | panic p => rw [bind_panic hw] at hz; simp at hz
        | diverge => rw [bind_diverge hw] at hz; simp at hz
        | err e2 =>
          rw [bind_err hw] at hz
          simp only [Prod.mk.injEq] at hz
          have hrest : s2.rest = s3.rest := by rw [← hz.2]; rfl
          rw [hrest]
          rcases wrappedLoop_err _ _ _ _ _ _ _ _ hw with ⟨h, -⟩ | h
          · rw [h]; exact q3
          · rw [h]; exact .nil
  · have hm : sym c (st k pre mid post) = (.err .mismatch, st k pre [] (mid ++ post)) := by
      cases post with
      | nil => simp
      | cons x r => exact sym_miss _ _ _ _ _ _ (by rintro rfl; exact hp ⟨r, rfl⟩)
    unfold Runs
    rw [bind_err hm]
    left; simp


/-! ## Quoted strings, numbers, aliases and tags -/

theorem Stp.of_st {k : Ctx} {pre mid post mid' post' : Bytes} (hs : PWF (tc doc) (st k pre mid post))
    (h : mid' ++ post' = mid ++ post) : Stp doc (st k pre mid post) (st k pre mid' post') :=
  ⟨hs.move h, rfl, rfl⟩

/-- A quoted string that is closed is read. -/
theorem stringQuoted_closed {n : Nat} {a q : UInt8} (haq : (a = 0x27 ∧ q = 0x27) ∨ (a = 0x5C ∧ q = 0x22))
    (hs : PWF (tc doc) s) (hq : ∀ b, s.rest = q :: b → unclosed a q b = false) (hn : s.rest.length ≤ n) :
    Runs (stringQuoted n q [a, q]) s (fun _ s' => Stp doc s s') (fun _ s' => Stp doc s s' ∧ s'.pos = s.pos) := by
  obtain ⟨k, pre, mid, post, rfl⟩ := PWF.exists_st hs
  rw [st_rest] at hq hn
  unfold Runs
  by_cases hp : ∃ r, post = q :: r
  · obtain ⟨r, rfl⟩ := hp
    have hu := hq r rfl
    have hl : r.length + 1 ≤ n := hn
    have hu' : unclosed a q (r.dropWhile isBlank) = false := by
      rw [← hu]
      conv => rhs; rw [← List.takeWhile_append_dropWhile (p := isBlank) (l := r)]
      rw [unclosed_drop]
      intro x hx
      have hx := mem_takeWhile hx
      rcases haq with ⟨rfl, rfl⟩ | ⟨rfl, rfl⟩ <;> constructor <;> (rintro rfl; revert hx; decide)
    have hlen : (r.dropWhile isBlank).length ≤ r.length := (List.dropWhile_sublist _).length_le
    obtain ⟨v', p', m', q', h1, h2, h3⟩ := quotedLoop_closed haq n (lossy (r.takeWhile isBlank)) k (pre ++ mid ++ [q])
      (r.takeWhile isBlank) (r.dropWhile isBlank) hu' (by omega)
    have hpre : pre ++ mid <+: p' := by
      refine List.prefix_of_prefix_length_le (l₃ := pre ++ mid ++ [q] ++ (r.takeWhile isBlank ++ r.dropWhile isBlank)) ?_ ?_ ?_
      · exact ⟨[q] ++ (r.takeWhile isBlank ++ r.dropWhile isBlank), by simp⟩
      · rw [← h2]; exact List.prefix_append _ _
      · simp only [List.length_append] at h3 ⊢; omega
    obtain ⟨w, rfl⟩ := hpre
    have hc : stringQuoted n q [a, q] (st k pre mid (q :: r)) = (.ok v', st k pre (mid ++ (w ++ m')) q') := by
      refine context_st ?_
      rw [bind_ok (sym_hit ..), bind_ok (forward_st ..), ws, bind_ok (takeWhile_more0 ..), bind_ok (text_st ..)]
      simp only [List.nil_append]
      exact h1
    rw [hc]
    refine Stp.of_st hs ?_
    rw [List.takeWhile_append_dropWhile] at h2
    have h2 : (pre ++ mid) ++ (w ++ (m' ++ q')) = (pre ++ mid) ++ (q :: r) := by
      simpa using h2
    have := List.append_cancel_left h2
    simp [this]
  · have hm : stringQuoted n q [a, q] (st k pre mid post) = (.err .mismatch, st k pre (mid ++ ([] ++ [])) post) := by
      refine context_st ?_
      have : sym q (st k (pre ++ mid) [] post) = (.err .mismatch, st k (pre ++ mid) [] ([] ++ post)) := by
        cases post with
        | nil => simp
        | cons x r => exact sym_miss _ _ _ _ _ _ (by rintro rfl; exact hp ⟨r, rfl⟩)
      rw [bind_err this]
      simp
    rw [hm]
    exact ⟨Stp.of_st hs (by simp), by simp⟩

/-- An error puts the cursor back at the mark; otherwise the mark is kept. -/
def EB (x : PM α) : Prop := ∀ s, match x s with
  | (.ok _, s') => s'.eaten = s.eaten
  | (.err _, s') => s'.pos = s.eaten ∧ s'.eaten = s.eaten
  | _ => True

theorem EB.bind {x : PM α} {f : α → PM β} (hx : EB x) (hf : ∀ a, EB (f a)) : EB (x >>= f) := by
  intro s
  have h := hx s
  rcases hr : x s with ⟨o, s1⟩
  rw [hr] at h
  cases o with
  | ok a =>
    rw [bind_ok hr]
    have h2 := hf a s1
    rcases hr2 : f a s1 with ⟨o, s2⟩
    rw [hr2] at h2
    cases o with
    | ok b => exact h2.trans h
    | err e => exact ⟨h2.1.trans h, h2.2.trans h⟩
    | panic p => trivial
    | diverge => trivial
  | err e => rw [bind_err hr]; exact h
  | panic p => rw [bind_panic hr]; trivial
  | diverge => rw [bind_diverge hr]; trivial

theorem EB.pure {a : α} : EB (pure a : PM α) := fun _ => rfl
theorem EB.ite {c : Prop} [Decidable c] {x y : PM α} (hx : EB x) (hy : EB y) : EB (if c then x else y) := by
  split
  · exact hx
  · exact hy
/-- The three ways out. -/
theorem EB.of {x : PM α} (h : ∀ s, (∃ a s', x s = (.ok a, s') ∧ s'.eaten = s.eaten) ∨
    (∃ e s', x s = (.err e, s') ∧ s'.pos = s.eaten ∧ s'.eaten = s.eaten) ∨ (∃ p s', x s = (.panic p, s'))) : EB x := by
  intro s
  rcases h s with ⟨a, s', h, h'⟩ | ⟨a, s', h, h'⟩ | ⟨a, s', h⟩ <;> rw [h]
  · exact h'
  · exact h'
  · trivial
theorem EB.takeWhile {f : UInt8 → Bool} {o : TakeOpt} : EB (takeWhile f o) := by
  refine .of fun s => ?_
  unfold YamlPeg.takeWhile
  by_cases h1 : s.pos ≤ s.doc.length
  · rw [if_pos h1]
    simp only
    by_cases h2 : takeCount f o s.rest 0 = 0
    · rw [if_pos h2]
      by_cases h3 : o.lo? = some 0
      · rw [if_pos h3]; exact .inl ⟨_, _, rfl, rfl⟩
      · rw [if_neg h3]; exact .inr (.inl ⟨_, _, rfl, rfl, rfl⟩)
    · rw [if_neg h2]
      cases h4 : o.lo? with
      | none => exact .inl ⟨_, _, rfl, rfl⟩
      | some lo =>
        simp only
        by_cases h5 : takeCount f o s.rest 0 < lo
        · rw [if_pos h5]; exact .inr (.inl ⟨_, _, rfl, rfl, rfl⟩)
        · rw [if_neg h5]; exact .inl ⟨_, _, rfl, rfl⟩
  · rw [if_neg h1]; exact .inr (.inr ⟨_, _, rfl⟩)
theorem EB.text : EB YamlPeg.text := by
  refine .of fun s => ?_
  unfold YamlPeg.text
  by_cases h1 : s.eaten < s.pos
  · rw [if_pos h1]
    by_cases h2 : s.pos ≤ s.doc.length
    · rw [if_pos h2]; exact .inl ⟨_, _, rfl, rfl⟩
    · rw [if_neg h2]; exact .inr (.inr ⟨_, _, rfl⟩)
  · rw [if_neg h1]; exact .inl ⟨_, _, rfl, rfl⟩
theorem EB.orDefault {x : PM α} {d : α} (h : EB x) : EB (M.orDefault d x) := by
  intro s
  have h := h s
  unfold M.orDefault
  rcases hr : x s with ⟨o, s1⟩
  rw [hr] at h
  cases o <;> first | exact h | exact h.2 | trivial
theorem EB.isOk {x : PM α} (h : EB x) : EB (M.isOk x) := by
  intro s
  have h := h s
  unfold M.isOk
  rcases hr : x s with ⟨o, s1⟩
  rw [hr] at h
  cases o <;> first | exact h | exact h.2 | trivial
theorem EB.get : EB (M.get : PM Parser) := fun _ => rfl
theorem EB.back {n : Nat} : EB (YamlPeg.back n) := by
  refine .of fun s => ?_
  unfold YamlPeg.back
  by_cases h : n ≤ s.pos
  · rw [if_pos h]; exact .inl ⟨_, _, rfl, rfl⟩
  · rw [if_neg h]; exact .inr (.inr ⟨_, _, rfl⟩)
theorem EB.count {x : PM α} (h : EB x) : EB (YamlPeg.count x) :=
  EB.get.bind fun _ => h.bind fun _ => EB.get.bind fun _ => .ite .pure (fun _ => trivial)
theorem EB.runIf {c : Bool} {x : PM Unit} (h : EB x) : EB (M.runIf c x) := by
  unfold M.runIf
  exact .ite h .pure
theorem EB.sym {c : UInt8} : EB (YamlPeg.sym c) := .takeWhile
theorem EB.bound : EB YamlPeg.bound := EB.bind .takeWhile fun _ => EB.back.bind fun _ => .takeWhile
theorem EB.numPrefix : EB YamlPeg.numPrefix := (EB.orDefault .sym).bind fun _ => .takeWhile
theorem EB.floatTail : EB YamlPeg.floatTail :=
  (EB.count .takeWhile).bind fun _ => (EB.runIf .back).bind fun _ => .bound
theorem EB.float : EB YamlPeg.float := EB.numPrefix.bind fun _ => EB.sym.bind fun _ => EB.bind .takeWhile fun _ =>
  EB.text.bind fun _ => EB.floatTail.bind fun _ => .pure
theorem EB.sciFloat : EB YamlPeg.sciFloat := EB.numPrefix.bind fun _ => EB.bind .takeWhile fun _ => EB.bind .takeWhile fun _ =>
  EB.bind .takeWhile fun _ => EB.text.bind fun _ => EB.floatTail.bind fun _ => .pure
theorem EB.context {x : PM α} (h : ∀ s e s', x s ≠ (.err e, s')) : EB (YamlPeg.context x) := by
  intro s
  unfold YamlPeg.context
  have h := h { s with eaten := s.pos }
  rcases hr : x { s with eaten := s.pos } with ⟨o, s1⟩
  rw [hr] at h
  cases o with
  | ok a => rfl
  | err e => exact absurd rfl (h e s1)
  | panic p => trivial
  | diverge => trivial
theorem EB.int : EB YamlPeg.int := by
  refine EB.numPrefix.bind fun _ => EB.text.bind fun t => EB.bind (.ite ?_ .pure) fun _ => EB.bind .takeWhile fun _ =>
    EB.bound.bind fun _ => .pure
  refine EB.bind (EB.context fun s e s' h => ?_) fun _ => .ite .text .pure
  unfold octalOrHex at h
  have hne : ∀ {x : PM Unit} {s e s'}, M.isOk x s ≠ (.err e, s') := by
    intro x s e s' h
    unfold M.isOk at h
    split at h <;> simp at h
  rcases hr : M.isOk octal s with ⟨o, s1⟩
  cases o with
  | ok b =>
    rw [bind_ok hr] at h
    split at h
    · simp at h
    · exact hne h
  | err e => exact hne hr
  | panic p => rw [bind_panic hr] at h; simp at h
  | diverge => rw [bind_diverge hr] at h; simp at h

/-- A number that fails leaves the cursor at the mark. -/
theorem runs_eb {x : PM α} (h : (PK (tc doc)).Holds x (fun _ => True)) (hi : SameInd x) (hb : EB x) (hs : PWF (tc doc) s) :
    Runs x s (fun _ s' => Stp doc s s') (fun _ s' => Stp doc s s' ∧ s'.pos = s.eaten) := by
  have hr := runs_stp h hi hs
  have hb := hb s
  unfold Runs at *
  rcases hx : x s with ⟨o, s'⟩
  rw [hx] at hr hb
  cases o with
  | ok a => exact hr
  | err e => exact ⟨hr, hb.1⟩
  | panic p => trivial
  | diverge => exact hr

/-- An alias that fails leaves the cursor at the mark or behind the `*`. -/
theorem anchorUse_qat (hq : QuotesClosed doc) (hs : PWF (tc doc) s) :
    Runs anchorUse s (fun _ s' => Stp doc s s') (fun _ s' => Stp doc s s' ∧ (s'.pos = s.eaten ∨ QAt doc s'.pos)) := by
  have hr := runs_stp (anchorUse_pk (c := tc doc)) anchorUse_si hs
  have h2 : Runs anchorUse s (fun _ _ => True) (fun _ s' => s'.pos = s.eaten ∨ QAt doc s'.pos) := by
    refine Runs.bind (((sym_runs hs).and (sym_qat (by decide) hq hs)).mono (fun _ s1 h1 => ?_) fun _ _ h => .inl h.1.2.2)
    unfold Runs context
    have hb : EB (do identifier; YamlPeg.text) :=
      (EB.bind (x := takeWhile isAlnum .one) .takeWhile fun _ => .takeWhile).bind fun _ => .text
    have hb := hb { s1 with eaten := s1.pos }
    rcases hx : (do identifier; YamlPeg.text : PM Bytes) { s1 with eaten := s1.pos } with ⟨o, s2⟩
    rw [hx] at hb
    have hd := runs_stp (x := context (do identifier; YamlPeg.text))
      (context_pk (pk_pf (Holds.bind identifier_pk fun _ _ => text_pk))) (context_si (bind_si identifier_si fun _ => text_si)) h1.1.1.wf
    unfold Runs context at hd
    rw [hx] at hd
    cases o with
    | ok a => trivial
    | panic p => trivial
    | diverge => exact hd
    | err e =>
      right
      have : s2.pos = s1.pos := hb.1
      show QAt doc s2.pos
      rw [this]
      exact h1.2
  exact (hr.and h2).mono (fun _ _ h => h.1) fun _ _ h => ⟨h.1, h.2⟩

end
end YamlPeg
