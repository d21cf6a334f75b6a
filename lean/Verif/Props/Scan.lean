import Verif.Proof.PropText
import Verif.Proof.Leaf
import Verif.Props.Loader
/-!
# What the sub-parsers accept: C72, C73, C74, C75

Each sub-parser of `Parser` is called in an arbitrary state whose mark is not behind the cursor and
whose cursor is inside the document.  Its language is a relation `L t r a`: it takes the text `t`,
in front of the text `r`, with the result `a`.
-/

namespace YamlPeg.Props
open YamlPeg M

/-- The mark is not behind the cursor, the cursor is inside the document. -/
structure InOrder (s : Parser) : Prop where
  mark : s.eaten ≤ s.pos
  inside : s.pos ≤ s.doc.length

example : InOrder (Parser.new b!"- a") := ⟨by decide, by decide⟩

/-- The state with the cursor `n` bytes further on, nothing else changed. -/
def moved (s : Parser) (n : Nat) : Parser := { s with pos := s.pos + n }

/-- The state with the cursor back on the mark, nothing else changed. -/
def atMark (s : Parser) : Parser := { s with pos := s.eaten }

/-- `x`, called in the state `s`, takes exactly the texts of the language `L`: if a text of `L` is behind
the cursor, it returns its value and moves the cursor over the text; if there is none, it is a mismatch
and leaves the state `left`. -/
def Exact {α : Type} (x : PM α) (L : Bytes → Bytes → α → Prop) (s left : Parser) : Prop :=
  (∀ t r a, s.doc.drop s.pos = t ++ r → L t r a → x s = (.ok a, moved s t.length)) ∧
  ((∀ t r a, s.doc.drop s.pos = t ++ r → ¬ L t r a) → x s = (.err .mismatch, left))

/-- No byte of the set is at the front. -/
def NotFront (set : Bytes) (r : Bytes) : Prop := ∀ c r', r = c :: r' → c ∉ set

theorem moved_st (k : Ctx) (pre mid t r : Bytes) :
    moved (st k pre mid (t ++ r)) t.length = st k pre (mid ++ t) r := by
  simp [moved, st, Nat.add_assoc]

theorem atMark_st (k : Ctx) (pre mid post : Bytes) : atMark (st k pre mid post) = st k pre [] (mid ++ post) := by
  simp [atMark, st]

theorem drop_st (k : Ctx) (pre mid post : Bytes) : (st k pre mid post).doc.drop (st k pre mid post).pos = post :=
  st_rest k pre mid post

theorem exact_of {α : Type} {x : PM α} {L : Bytes → Bytes → α → Prop} {back : Parser → Parser}
    (h1 : ∀ k pre mid t r a, L t r a → x (st k pre mid (t ++ r)) = (.ok a, st k pre (mid ++ t) r))
    (h2 : ∀ k pre mid post, (∃ t r a, post = t ++ r ∧ L t r a) ∨
      x (st k pre mid post) = (.err .mismatch, back (st k pre mid post)))
    (s : Parser) (hs : InOrder s) : Exact x L s (back s) := by
  obtain ⟨k, pre, mid, post, rfl⟩ := exists_st s hs.1 hs.2
  rw [Exact, drop_st]
  refine ⟨?_, fun h => ?_⟩
  · rintro t r a rfl hL
    rw [moved_st]
    exact h1 _ _ _ _ _ _ hL
  · rcases h2 k pre mid post with ⟨t, r, a, e, hL⟩ | h2
    · exact absurd hL (h t r a e)
    · exact h2

/-- The same for a sub-parser that is called with the cursor on the mark. -/
theorem exact_fresh {α : Type} {x : PM α} {L : Bytes → Bytes → α → Prop}
    (h1 : ∀ k pre t r a, L t r a → x (st k pre [] (t ++ r)) = (.ok a, st k pre t r))
    (h2 : ∀ k pre post, (∃ t r a, post = t ++ r ∧ L t r a) ∨
      x (st k pre [] post) = (.err .mismatch, st k pre [] post))
    (s : Parser) (hs : s.pos ≤ s.doc.length) (he : s.eaten = s.pos) : Exact x L s s := by
  obtain ⟨k, pre, mid, post, rfl⟩ := exists_st s (by omega) hs
  have hm : mid = [] := by simpa using he
  subst hm
  rw [Exact, drop_st]
  refine ⟨?_, fun h => ?_⟩
  · rintro t r a rfl hL
    rw [moved_st]
    exact h1 _ _ _ _ _ hL
  · rcases h2 k pre post with ⟨t, r, a, e, hL⟩ | h2
    · exact absurd hL (h t r a e)
    · exact h2

/-- The longest run at the front. -/
theorem run_front (f : UInt8 → Bool) (l : Bytes) : ∃ t r, l = t ++ r ∧ l.takeWhile f = t ∧ l.dropWhile f = r ∧
    (∀ c ∈ t, f c = true) ∧ ∀ c r', r = c :: r' → f c = false := by
  refine ⟨l.takeWhile f, l.dropWhile f, (List.takeWhile_append_dropWhile ..).symm, rfl, rfl, fun c h => ?_, ?_⟩
  · have := List.all_takeWhile (p := f) (l := l)
    exact List.all_eq_true.1 this c h
  · intro c r' h
    have := List.head?_dropWhile_not f l
    rw [h] at this
    simpa using this

/-! ## C72: signs, white space, line breaks, comments, boundaries -/

/-- **C72.** `sym` takes exactly the byte. -/
theorem C72_sym (c : UInt8) (s : Parser) (hs : InOrder s) : Exact (sym c) (fun t _ _ => t = [c]) s (atMark s) := by
  refine exact_of ?_ ?_ s hs
  · rintro k pre mid _ r _ rfl; simp
  · intro k pre mid post
    rw [atMark_st]
    cases post with
    | nil => exact .inr (by simp)
    | cons x r =>
      by_cases hx : x = c
      · exact .inl ⟨[c], r, (), by simp [hx], rfl⟩
      · exact .inr (sym_miss _ _ _ _ _ _ hx)

/-- **C72.** `sym_set` takes exactly one byte of the set. -/
theorem C72_sym_set (set : Bytes) (s : Parser) (hs : InOrder s) :
    Exact (symSet set) (fun t _ _ => ∃ c ∈ set, t = [c]) s (atMark s) := by
  refine exact_of ?_ ?_ s hs
  · rintro k pre mid _ r _ ⟨c, hc, rfl⟩; exact symSet_hit _ _ _ _ _ _ hc
  · intro k pre mid post
    rw [atMark_st]
    cases post with
    | nil => exact .inr (by simp)
    | cons x r =>
      by_cases hx : x ∈ set
      · exact .inl ⟨[x], r, (), rfl, x, hx, rfl⟩
      · exact .inr (symSet_miss _ _ _ _ _ _ hx)

/-- **C72.** `sym_seq` takes exactly the text, and goes back to the mark even if a part of it matched. -/
theorem C72_sym_seq (l : Bytes) (s : Parser) (hs : InOrder s) : Exact (symSeq l) (fun t _ _ => t = l) s (atMark s) := by
  refine exact_of ?_ ?_ s hs
  · rintro k pre mid _ r _ rfl; simp
  · intro k pre mid post
    rw [atMark_st]
    by_cases h : l.isPrefixOf post = true
    · obtain ⟨r, rfl⟩ := List.isPrefixOf_iff_prefix.1 h
      exact .inl ⟨l, r, (), rfl, rfl⟩
    · exact .inr (symSeq_miss _ _ _ _ _ (by cases hb : l.isPrefixOf post <;> simp_all))

/-- Space, tab and form feed. -/
def blanks : Bytes := [0x20, 0x09, 0x0C]

/-- Space, tab, line feed, form feed and carriage return. -/
def whites : Bytes := [0x20, 0x09, 0x0A, 0x0C, 0x0D]

theorem isBlank_mem (c : UInt8) : isBlank c = true ↔ c ∈ blanks := by
  have := byte_forall (P := fun c => decide (isBlank c = true ↔ c ∈ blanks)) (by decide +kernel) c
  simpa only [decide_eq_true_eq] using this

theorem isWs_mem (c : UInt8) : isAsciiWs c = true ↔ c ∈ whites := by
  have := byte_forall (P := fun c => decide (isAsciiWs c = true ↔ c ∈ whites)) (by decide +kernel) c
  simpa only [decide_eq_true_eq] using this

/-- All bytes are in the set. -/
def Over (set t : Bytes) : Prop := ∀ c ∈ t, c ∈ set

/-- Blanks, as many as there are. -/
def Blanks (t r : Bytes) : Prop := Over blanks t ∧ NotFront blanks r

theorem blanks_front (l : Bytes) : ∃ t r, l = t ++ r ∧ l.takeWhile isBlank = t ∧ l.dropWhile isBlank = r ∧ Blanks t r := by
  obtain ⟨t, r, h1, h2, h3, h4, h5⟩ := run_front isBlank l
  refine ⟨t, r, h1, h2, h3, fun c h => (isBlank_mem c).1 (h4 c h), fun c r' h hc => ?_⟩
  have := h5 c r' h
  rw [(isBlank_mem c).2 hc] at this
  simp at this

theorem Blanks.split {t r : Bytes} (h : Blanks t r) : (t ++ r).takeWhile isBlank = t ∧ (t ++ r).dropWhile isBlank = r :=
  takeWhile_all (fun c hc => (isBlank_mem c).2 (h.1 c hc)) r fun c r' hr => by
    have := h.2 c r' hr
    rw [← isBlank_mem] at this
    simpa using this

/-- **C72.** `ws` takes all blanks at the cursor if there are enough of them. -/
theorem C72_ws (s : Parser) (hs : InOrder s) :
    Exact (ws (.more 0)) (fun t r _ => Blanks t r) s (atMark s) ∧
    Exact (ws (.more 1)) (fun t r _ => Blanks t r ∧ t ≠ []) s (atMark s) := by
  constructor
  · refine exact_of ?_ ?_ s hs
    · rintro k pre mid t r _ h
      rw [ws_st, h.split.1, h.split.2]
    · intro k pre mid post
      obtain ⟨t, r, h1, -, -, h4⟩ := blanks_front post
      exact .inl ⟨t, r, (), h1, h4⟩
  · refine exact_of ?_ ?_ s hs
    · rintro k pre mid t r _ ⟨h, hne⟩
      refine (takeWhile_more1 k pre mid (t ++ r) isBlank).trans ?_
      rw [h.split.1, h.split.2, if_neg hne]
    · intro k pre mid post
      rw [atMark_st]
      obtain ⟨t, r, h1, h2, -, h4⟩ := blanks_front post
      by_cases ht : t = []
      · refine .inr ((takeWhile_more1 k pre mid post isBlank).trans ?_)
        rw [h2, if_pos ht]
      · exact .inl ⟨t, r, (), h1, h4, ht⟩

/-- **C72.** `inv` takes all white space, line breaks included. -/
theorem C72_inv (s : Parser) (hs : InOrder s) :
    Exact (inv (.more 0)) (fun t r _ => Over whites t ∧ NotFront whites r) s (atMark s) := by
  refine exact_of ?_ ?_ s hs
  · rintro k pre mid t r _ ⟨h, hr⟩
    have := takeWhile_all (fun c hc => (isWs_mem c).2 (h c hc)) r fun c r' he => by
      have := hr c r' he
      rw [← isWs_mem] at this
      simpa using this
    rw [inv_st, this.1, this.2]
  · intro k pre mid post
    obtain ⟨t, r, h1, -, -, h4, h5⟩ := run_front isAsciiWs post
    refine .inl ⟨t, r, (), h1, fun c h => (isWs_mem c).1 (h4 c h), fun c r' h hc => ?_⟩
    have := h5 c r' h
    rw [(isWs_mem c).2 hc] at this
    simp at this

/-- A line break: `\r\n`, `\n\r`, or one of the two alone. -/
def Break (t r : Bytes) : Prop :=
  t = b!"\r\n" ∨ t = b!"\n\r" ∨ (t = b!"\n" ∧ NotFront b!"\r" r) ∨ (t = b!"\r" ∧ NotFront b!"\n" r)

theorem Break.len {t r : Bytes} (h : Break t r) : nlLen (t ++ r) = t.length ∧ t ≠ [] := by
  rcases h with rfl | rfl | ⟨rfl, h⟩ | ⟨rfl, h⟩
  · simp [nlLen]
  · simp [nlLen]
  · refine ⟨?_, by simp⟩
    cases r with
    | nil => rfl
    | cons c r =>
      have := h c r rfl
      simp only [List.mem_singleton] at this
      simp only [List.cons_append, List.nil_append, List.length_singleton]
      unfold nlLen; split <;> simp_all
  · refine ⟨?_, by simp⟩
    cases r with
    | nil => rfl
    | cons c r =>
      have := h c r rfl
      simp only [List.mem_singleton] at this
      simp only [List.cons_append, List.nil_append, List.length_singleton]
      unfold nlLen; split <;> simp_all

theorem break_front (l : Bytes) : nlLen l = 0 ∨ ∃ t r, l = t ++ r ∧ Break t r ∧ nlLen l = t.length := by
  unfold nlLen
  split
  · rename_i r; exact .inr ⟨b!"\r\n", r, rfl, .inl rfl, rfl⟩
  · rename_i r; exact .inr ⟨b!"\n\r", r, rfl, .inr (.inl rfl), rfl⟩
  · rename_i r h
    refine .inr ⟨b!"\n", r, rfl, .inr (.inr (.inl ⟨rfl, fun c r' e hc => ?_⟩)), rfl⟩
    subst e
    simp only [List.mem_singleton] at hc
    subst hc
    exact h _ rfl
  · rename_i r h
    refine .inr ⟨b!"\r", r, rfl, .inr (.inr (.inr ⟨rfl, fun c r' e hc => ?_⟩)), rfl⟩
    subst e
    simp only [List.mem_singleton] at hc
    subst hc
    exact h _ rfl
  · exact .inl rfl

/-- **C72.** `nl` takes exactly one line break; otherwise the cursor stays. -/
theorem C72_nl (s : Parser) (hs : InOrder s) : Exact nl (fun t r _ => Break t r) s s := by
  refine exact_of (back := id) ?_ ?_ s hs
  · rintro k pre mid t r _ h
    have := h.len
    rw [nl_eq, this.1, if_neg (by simpa using this.2)]
    simp
  · intro k pre mid post
    rcases break_front post with h | ⟨t, r, h1, h2, -⟩
    · exact .inr (by rw [nl_eq, if_pos h]; rfl)
    · exact .inl ⟨t, r, (), h1, h2⟩

/-- A comment: blanks, `#`, and the rest of the line. -/
def Comment (t r : Bytes) : Prop :=
  ∃ b x, t = b ++ b!"#" ++ x ∧ Over blanks b ∧ (∀ c ∈ x, c ∉ b!"\n\r") ∧ (r = [] ∨ ∃ c r', r = c :: r' ∧ c ∈ b!"\n\r")

theorem comment_hit {t r : Bytes} (h : Comment t r) (k : Ctx) (pre mid : Bytes) :
    comment (st k pre mid (t ++ r)) = (.ok (), st k pre (mid ++ t) r) := by
  obtain ⟨b, x, rfl, hb, hx, hr⟩ := h
  have h1 : Blanks b (0x23 :: (x ++ r)) := ⟨hb, by rintro c r' ⟨⟩; decide⟩
  have h2 := takeWhile_all (f := notIn b!"\n\r") (d := x) (fun c hc => by
    have := hx c hc
    simpa [notIn] using this) r fun c r' e => by
      rcases hr with rfl | ⟨c', r'', rfl, hc⟩
      · cases e
      · cases e; exact notIn_false.2 hc
  rw [show b ++ b!"#" ++ x ++ r = b ++ (0x23 :: (x ++ r)) by simp, comment, bind_ok (ws_st ..), h1.split.1, h1.split.2,
    bind_ok (sym_hit ..), takeWhile_more0, h2.1, h2.2]
  simp

theorem comment_cases (k : Ctx) (pre mid post : Bytes) : (∃ t r, post = t ++ r ∧ Comment t r) ∨
    comment (st k pre mid post) = (.err .mismatch, st k pre [] (mid ++ post)) := by
  obtain ⟨b, r, h1, h2, h3, h4⟩ := blanks_front post
  rw [comment, bind_ok (ws_st ..), h2, h3]
  cases r with
  | nil => refine .inr ?_; rw [bind_err (sym_nil ..), h1]; simp
  | cons c r =>
    by_cases hc : c = 0x23
    · subst hc
      obtain ⟨x, y, e, -, -, h5, h6⟩ := run_front (notIn b!"\n\r") r
      refine .inl ⟨b ++ b!"#" ++ x, y, by rw [h1, e]; simp, b, x, rfl, h4.1, fun c hc => ?_, ?_⟩
      · have := h5 c hc; simpa [notIn] using this
      · cases y with
        | nil => exact .inl rfl
        | cons d y =>
          have := h6 d y rfl
          exact .inr ⟨d, y, rfl, notIn_false.1 this⟩
    · refine .inr ?_
      rw [bind_err (sym_miss _ _ _ _ _ _ hc), h1]; simp

/-- **C72.** `comment` takes exactly a comment. -/
theorem C72_comment (s : Parser) (hs : InOrder s) : Exact comment (fun t r _ => Comment t r) s (atMark s) := by
  refine exact_of (fun k pre mid t r _ h => comment_hit h ..) ?_ s hs
  intro k pre mid post
  rw [atMark_st]
  rcases comment_cases k pre mid post with ⟨t, r, h1, h2⟩ | h
  · exact .inl ⟨t, r, (), h1, h2⟩
  · exact .inr h

/-- A boundary: a space and all further blanks, or nothing in front of an indicator or a line break. -/
def Boundary (t r : Bytes) : Prop :=
  Blanks t r ∧ ((∃ t', t = 0x20 :: t') ∨ (t = [] ∧ ∃ c r', r = c :: r' ∧ c ∈ b!":{}[],\n\r"))

theorem bound_hit {t r : Bytes} (h : Boundary t r) (k : Ctx) (pre mid : Bytes) :
    bound (st k pre mid (t ++ r)) = (.ok (), st k pre (mid ++ t) r) := by
  obtain ⟨hb, h⟩ := h
  rw [bound_eq, hb.split.1, hb.split.2, if_pos]
  rcases h with ⟨t', rfl⟩ | ⟨rfl, c, r', rfl, hc⟩
  · rfl
  · simp only [List.nil_append, headIn, List.contains_iff_mem]
    simp only [List.mem_cons] at hc ⊢
    grind

theorem bound_cases (k : Ctx) (pre mid post : Bytes) : (∃ t r, post = t ++ r ∧ Boundary t r) ∨
    bound (st k pre mid post) = (.err .mismatch, st k pre [] (mid ++ post)) := by
  rw [bound_eq]
  split
  · rename_i h
    obtain ⟨b, r, h1, -, -, h4⟩ := blanks_front post
    refine .inl ⟨b, r, h1, h4, ?_⟩
    subst h1
    cases b with
    | nil =>
      refine .inr ⟨rfl, ?_⟩
      cases r with
      | nil => simp [headIn] at h
      | cons c r =>
        refine ⟨c, r, rfl, ?_⟩
        have hn := h4.2 c r rfl
        simp only [List.nil_append, headIn, List.contains_iff_mem, List.mem_cons] at h
        simp only [blanks, List.mem_cons] at hn ⊢
        grind
    | cons c b =>
      refine .inl ⟨b, ?_⟩
      have hc := h4.1 c (by simp)
      simp only [List.cons_append, headIn, List.contains_iff_mem] at h
      have := byte_forall (P := fun c => decide (c ∈ b!":{}[] ,\n\r" → c ∈ blanks → c = 0x20)) (by decide +kernel) c
      simp only [decide_eq_true_eq] at this
      rw [this h hc]
  · exact .inr rfl

/-- **C72.** `bound` takes exactly a boundary. -/
theorem C72_bound (s : Parser) (hs : InOrder s) : Exact bound (fun t r _ => Boundary t r) s (atMark s) := by
  refine exact_of (fun k pre mid t r _ h => bound_hit h ..) ?_ s hs
  intro k pre mid post
  rw [atMark_st]
  rcases bound_cases k pre mid post with ⟨t, r, h1, h2⟩ | h
  · exact .inl ⟨t, r, (), h1, h2⟩
  · exact .inr h

/-- **C72.** `complex_mapping` takes exactly a `?` and a boundary. -/
theorem C72_complex_mapping (s : Parser) (hs : InOrder s) :
    Exact complexMapping (fun t r _ => ∃ t', t = b!"?" ++ t' ∧ Boundary t' r) s (atMark s) := by
  refine exact_of ?_ ?_ s hs
  · rintro k pre mid _ r _ ⟨t', rfl, h⟩
    rw [complexMapping, show b!"?" ++ t' ++ r = 0x3F :: (t' ++ r) from rfl, bind_ok (sym_hit ..), bound_hit h]
    simp
  · intro k pre mid post
    rw [atMark_st, complexMapping]
    cases post with
    | nil => exact .inr (by rw [bind_err (sym_nil ..)]; simp)
    | cons c r =>
      by_cases hc : c = 0x3F
      · subst hc
        rw [bind_ok (sym_hit ..)]
        rcases bound_cases k pre (mid ++ [0x3F]) r with ⟨t, r', rfl, h⟩ | h
        · exact .inl ⟨0x3F :: t, r', (), rfl, t, rfl, h⟩
        · exact .inr (by rw [h]; simp)
      · exact .inr (by rw [bind_err (sym_miss _ _ _ _ _ _ hc)])

/-! ### Gaps -/

/-- What may stand on a line of a gap in front of its line break.  With `cmt`, comments; without, blanks,
but not on the first line. -/
def Idle (cmt first : Bool) (i r : Bytes) : Prop :=
  i = [] ∨ (cmt = true ∧ Comment i r) ∨ (cmt = false ∧ first = false ∧ Over blanks i)

/-- A gap of `n` line breaks: as many idle lines as there are; `first` tells whether the first one is still to come. -/
inductive Gap (cmt : Bool) : Bool → Nat → Bytes → Bytes → Prop
  | stop {r : Bytes} : (∀ i b r', r = i ++ (b ++ r') → Idle cmt false i (b ++ r') → ¬ Break b r') → Gap cmt false 0 [] r
  | line {first : Bool} {i b t r : Bytes} {n : Nat} : Idle cmt first i (b ++ (t ++ r)) → Break b (t ++ r) →
      Gap cmt false n t r → Gap cmt first (n + 1) (i ++ (b ++ t)) r

theorem Comment.skip {i r : Bytes} (h : Comment i r) : cmtSkip (i ++ r) = (i, r) := by
  obtain ⟨b, x, rfl, hb, hx, hr⟩ := h
  have h1 : Blanks b (0x23 :: (x ++ r)) := ⟨hb, by rintro c r' ⟨⟩; decide⟩
  have h2 := takeWhile_all (f := notIn b!"\n\r") (d := x) (fun c hc => by
    have := hx c hc
    simpa [notIn] using this) r fun c r' e => by
      rcases hr with rfl | ⟨c', r'', rfl, hc⟩
      · cases e
      · cases e; exact notIn_false.2 hc
  rw [show b ++ b!"#" ++ x ++ r = b ++ (0x23 :: (x ++ r)) by simp]
  simp only [cmtSkip, h1.split.1, h1.split.2, h2.1, h2.2]
  simp

theorem no_comment_skip {l : Bytes} (h : ∀ i r, l = i ++ r → ¬ Comment i r) : cmtSkip l = ([], l) := by
  have h1 := comment_st0 ⟨[], 0, false, []⟩ [] l
  rcases comment_cases ⟨[], 0, false, []⟩ [] [] l with ⟨t, r, e, hc⟩ | h2
  · exact absurd hc (h t r e)
  · rw [orDefault_err h2] at h1
    simp only [Prod.mk.injEq, true_and] at h1
    have e := congrArg Parser.pos h1
    have ha := cmtSkip_append l
    simp only [st_pos, List.length_nil, Nat.zero_add] at e
    have e1 : (cmtSkip l).1 = [] := List.length_eq_zero_iff.1 e.symm
    rw [e1, List.nil_append] at ha
    exact Prod.ext e1 ha

theorem Break.front {b r : Bytes} (h : Break b r) : ∃ c b', b = c :: b' ∧ (c = 0x0A ∨ c = 0x0D) := by
  rcases h with rfl | rfl | ⟨rfl, -⟩ | ⟨rfl, -⟩
  · exact ⟨_, _, rfl, .inr rfl⟩
  · exact ⟨_, _, rfl, .inl rfl⟩
  · exact ⟨_, _, rfl, .inl rfl⟩
  · exact ⟨_, _, rfl, .inr rfl⟩

theorem Comment.front {i r : Bytes} (h : Comment i r) : ∃ c i', i = c :: i' ∧ c ≠ 0x0A ∧ c ≠ 0x0D := by
  obtain ⟨b, x, rfl, hb, -, -⟩ := h
  cases b with
  | nil => exact ⟨0x23, x, rfl, by decide, by decide⟩
  | cons c b =>
    refine ⟨c, _, rfl, ?_⟩
    have := hb c (by simp)
    simp only [blanks, List.mem_cons, List.not_mem_nil, or_false] at this
    rcases this with rfl | rfl | rfl <;> decide

theorem Break.no_comment {b r : Bytes} (h : Break b r) : ∀ i r', b ++ r = i ++ r' → ¬ Comment i r' := by
  intro i r' e hc
  obtain ⟨c, b', rfl, h1⟩ := h.front
  obtain ⟨d, i', rfl, h2⟩ := hc.front
  simp only [List.cons_append, List.cons.injEq] at e
  rcases h1 with rfl | rfl <;> simp_all

theorem Break.blanks {i b r : Bytes} (hi : Over blanks i) (h : Break b r) : Blanks i (b ++ r) := by
  refine ⟨hi, fun c r' e => ?_⟩
  obtain ⟨d, b', rfl, hd⟩ := h.front
  simp only [List.cons_append, List.cons.injEq] at e
  obtain ⟨rfl, -⟩ := e
  rcases hd with rfl | rfl <;> decide

theorem Idle.gapLine {cmt : Bool} {i b r : Bytes} (h : Idle cmt false i (b ++ r)) (hb : Break b r) :
    gapLine cmt (i ++ (b ++ r)) = (i, b ++ r) := by
  unfold YamlPeg.gapLine
  rcases h with rfl | ⟨rfl, h⟩ | ⟨rfl, -, h⟩
  · cases cmt with
    | true => rw [if_pos rfl, List.nil_append, no_comment_skip hb.no_comment]
    | false =>
      have := (hb.blanks (i := []) (by simp [Over])).split
      simp only [List.nil_append] at this
      simp [this.1, this.2]
  · rw [if_pos rfl, h.skip]
  · have := (hb.blanks h).split
    simp [this.1, this.2]

theorem Idle.gapLead {cmt : Bool} {i b r : Bytes} (h : Idle cmt true i (b ++ r)) (hb : Break b r) :
    gapLead cmt (i ++ (b ++ r)) = (i, b ++ r) := by
  unfold YamlPeg.gapLead
  rcases h with rfl | ⟨rfl, h⟩ | ⟨-, h, -⟩
  · cases cmt with
    | true => rw [if_pos rfl, List.nil_append, no_comment_skip hb.no_comment]
    | false => simp
  · rw [if_pos rfl, h.skip]
  · simp at h

theorem gap_more {cmt first : Bool} {n : Nat} {t r : Bytes} (h : Gap cmt first n t r) : first = false → ∀ f,
    (t ++ r).length < f → gapMore cmt f (t ++ r) = (n, t, r) := by
  induction h with
  | @stop r h =>
    intro _ f hf
    obtain ⟨f, rfl⟩ : ∃ m, f = m + 1 := ⟨f - 1, by omega⟩
    rw [List.nil_append, gapMore]
    rw [if_pos]
    have ha := gapLine_append r cmt
    rcases break_front (gapLine cmt r).2 with h0 | ⟨b, r', e, hb, -⟩
    · exact h0
    · refine absurd hb (h (gapLine cmt r).1 b r' (by rw [← e, ha]) ?_)
      rw [← e]
      unfold YamlPeg.gapLine
      cases cmt with
      | true =>
        rw [if_pos rfl]
        by_cases hc : ∃ i r', r = i ++ r' ∧ Comment i r'
        · obtain ⟨i, r', rfl, hc⟩ := hc
          rw [hc.skip]
          exact .inr (.inl ⟨rfl, hc⟩)
        · rw [no_comment_skip fun i r' e hx => hc ⟨i, r', e, hx⟩]
          exact .inl rfl
      | false =>
        obtain ⟨x, y, -, h2, h3, h4⟩ := blanks_front r
        rw [if_neg (by simp), h2]
        exact .inr (.inr ⟨rfl, rfl, h4.1⟩)
  | @line first i b t r n hi hb _ ih =>
    intro hf f hl
    subst hf
    obtain ⟨f, rfl⟩ : ∃ m, f = m + 1 := ⟨f - 1, by omega⟩
    have e : i ++ (b ++ t) ++ r = i ++ (b ++ (t ++ r)) := by simp
    have hlen := hb.len
    rw [e] at hl ⊢
    rw [gapMore, hi.gapLine hb]
    have : 0 < b.length := List.length_pos_iff.2 hlen.2
    simp only [hlen.1, if_neg (show ¬ b.length = 0 by omega)]
    rw [List.drop_left, List.take_left, ih rfl f (by simp only [List.length_append] at hl ⊢; omega)]

theorem gap_lines (cmt : Bool) : ∀ (m : Nat) (l : Bytes), l.length ≤ m → ∃ n t r, l = t ++ r ∧ Gap cmt false n t r
  | m, l, hm => by
    by_cases h : ∃ i b r', l = i ++ (b ++ r') ∧ Idle cmt false i (b ++ r') ∧ Break b r'
    · obtain ⟨i, b, r', rfl, h1, h2⟩ := h
      have : 0 < b.length := List.length_pos_iff.2 h2.len.2
      cases m with
      | zero => simp only [List.length_append] at hm; omega
      | succ m =>
        obtain ⟨n, t, r, rfl, hg⟩ := gap_lines cmt m r' (by simp only [List.length_append] at hm; omega)
        exact ⟨n + 1, i ++ (b ++ t), r, by simp, .line h1 h2 hg⟩
    · exact ⟨0, [], l, rfl, .stop fun i b r' e h1 h2 => h ⟨i, b, r', e, h1, h2⟩⟩

theorem Gap.spec {cmt : Bool} {n : Nat} {t r : Bytes} (h : Gap cmt true n t r) : gapSpec cmt (t ++ r) = some (n, t, r) := by
  cases h with
  | @line _ i b t _ n hi hb hg =>
    have e : i ++ (b ++ t) ++ r = i ++ (b ++ (t ++ r)) := by simp
    have hlen := hb.len
    have : 0 < b.length := List.length_pos_iff.2 hlen.2
    rw [e, gapSpec, hi.gapLead hb]
    simp only [hlen.1, if_neg (show ¬ b.length = 0 by omega), List.drop_left, List.take_left]
    rw [gap_more hg rfl _ (by omega)]

theorem gap_none {cmt : Bool} {l : Bytes} (h : ∀ n t r, l = t ++ r → ¬ Gap cmt true n t r) : gapSpec cmt l = none := by
  rw [gapSpec]
  rcases break_front (gapLead cmt l).2 with h0 | ⟨b, r', e, hb, -⟩
  · simp [h0]
  · have ha := gapLead_append l cmt
    obtain ⟨n, t, r, rfl, hg⟩ := gap_lines cmt _ r' (Nat.le_refl _)
    refine absurd (Gap.line (cmt := cmt) (first := true) (i := (gapLead cmt l).1) ?_ hb hg) (h _ _ _ ?_)
    · rw [← e]
      unfold YamlPeg.gapLead
      cases cmt with
      | true =>
        rw [if_pos rfl]
        by_cases hc : ∃ i r', l = i ++ r' ∧ Comment i r'
        · obtain ⟨i, r', rfl, hc⟩ := hc
          rw [hc.skip]
          exact .inr (.inl ⟨rfl, hc⟩)
        · rw [no_comment_skip fun i r' e hx => hc ⟨i, r', e, hx⟩]
          exact .inl rfl
      | false => exact .inl rfl
    · refine ha.symm.trans ?_
      rw [e]
      simp only [List.append_assoc]

/-- **C72.** `gap` takes exactly a gap and returns the number of its line breaks; otherwise the cursor stays,
or, if there is a comment (and comments are allowed), it is behind the comment. -/
theorem C72_gap (cmt : Bool) (s : Parser) (hs : InOrder s) :
    (∀ c r, cmt = true → s.doc.drop s.pos = c ++ r → Comment c r →
      Exact (gap cmt) (fun t r n => Gap cmt true n t r) s (moved s c.length)) ∧
    ((∀ c r, cmt = true → s.doc.drop s.pos = c ++ r → ¬ Comment c r) →
      Exact (gap cmt) (fun t r n => Gap cmt true n t r) s s) := by
  obtain ⟨k, pre, mid, post, rfl⟩ := exists_st s hs.1 hs.2
  simp only [Exact, drop_st]
  have h1 : ∀ t r n, post = t ++ r → Gap cmt true n t r →
      gap cmt (st k pre mid post) = (.ok n, moved (st k pre mid post) t.length) := by
    rintro t r n rfl h
    rw [moved_st, gap_eq, h.spec]
  refine ⟨fun c r hc e hcom => ⟨h1, fun h => ?_⟩, fun hcom => ⟨h1, fun h => ?_⟩⟩
  · rw [gap_eq, gap_none fun n t r e => h t r n e]
    subst hc e
    simp only [gapLead, if_true, hcom.skip, moved_st]
  · rw [gap_eq, gap_none fun n t r e => h t r n e]
    cases cmt with
    | true => simp [gapLead, no_comment_skip fun i r => hcom i r rfl]
    | false => simp [gapLead]

/-- A gap of three line breaks with two comments. -/
example : Gap true true 3 b!" # c\n\n#\n" b!" \nx" := by
  refine .line (i := b!" # c") (b := b!"\n") (t := b!"\n#\n") (.inr (.inl ⟨rfl, b!" ", b!" c", rfl, ?_, ?_, ?_⟩)) ?_
    (.line (i := []) (b := b!"\n") (t := b!"#\n") (.inl rfl) ?_
      (.line (i := b!"#") (b := b!"\n") (t := []) (.inr (.inl ⟨rfl, [], [], rfl, ?_, ?_, ?_⟩)) ?_ (.stop ?_)))
  · simp [Over, blanks]
  · simp
  · exact .inr ⟨_, _, rfl, by simp⟩
  · exact .inr (.inr (.inl ⟨rfl, by rintro c r' ⟨⟩; decide⟩))
  · exact .inr (.inr (.inl ⟨rfl, by rintro c r' ⟨⟩; decide⟩))
  · simp [Over]
  · simp
  · exact .inr ⟨_, _, rfl, by simp⟩
  · exact .inr (.inr (.inl ⟨rfl, by rintro c r' ⟨⟩; decide⟩))
  · rintro i b r' e (rfl | ⟨-, b', x, rfl, hb, -, -⟩ | ⟨h, -⟩) hbr
    · obtain ⟨c, b', rfl, hc⟩ := hbr.front
      simp only [List.nil_append, List.cons_append, List.cons.injEq] at e
      obtain ⟨rfl, -⟩ := e
      rcases hc with hc | hc <;> cases hc
    · match b', e with
      | [], e => simp at e
      | [c], e => simp at e
      | c :: d :: b', e =>
        simp only [List.cons_append, List.cons.injEq] at e
        have := hb d (by simp)
        rw [← e.2.1] at this
        revert this; decide
    · cases h

/-! ## C73: names, anchors, aliases, tags -/

/-- Letters and digits. -/
def alnums : Bytes := b!"0123456789ABCDEFGHIJKLMNOPQRSTUVWXYZabcdefghijklmnopqrstuvwxyz"

/-- A name: a letter or digit, then all letters, digits and `-` that follow. -/
def Name (t r : Bytes) : Prop :=
  (∃ c t', t = c :: t' ∧ c ∈ alnums ∧ ∀ d ∈ t', d ∈ alnums ∨ d = 0x2D) ∧ NotFront (b!"-" ++ alnums) r

theorem isAlnum_mem (c : UInt8) : isAlnum c = true ↔ c ∈ alnums := by
  have := byte_forall (P := fun c => decide (isAlnum c = true ↔ c ∈ alnums)) (by decide +kernel) c
  simpa only [decide_eq_true_eq] using this

theorem idByte_mem (c : UInt8) : idByte c = true ↔ c ∈ alnums ∨ c = 0x2D := by
  simp [idByte, isAlnum_mem]

theorem name_iff {t r : Bytes} : Name t r ↔ IsIdent t ∧ IdEnd r := by
  constructor
  · rintro ⟨⟨c, t', rfl, hc, ht⟩, hr⟩
    refine ⟨⟨(isAlnum_mem c).2 hc, ?_⟩, fun d r' e => ?_⟩
    · intro d hd
      rcases List.mem_cons.1 hd with rfl | hd
      · exact (idByte_mem d).2 (.inl hc)
      · exact (idByte_mem d).2 (ht d hd)
    · have := hr d r' e
      cases hb : idByte d with
      | false => rfl
      | true =>
        rcases (idByte_mem d).1 hb with h | h
        · exact absurd (by simp [h]) this
        · exact absurd (by simp [h]) this
  · rintro ⟨⟨h1, h2⟩, h3⟩
    refine ⟨?_, fun d r' e hd => ?_⟩
    · cases t with
      | nil => simp [headAlnum] at h1
      | cons c t' =>
        exact ⟨c, t', rfl, (isAlnum_mem c).1 h1, fun d hd => (idByte_mem d).1 (h2 d (by simp [hd]))⟩
    · have := h3 d r' e
      rw [(idByte_mem d).2] at this
      · simp at this
      · simp only [List.singleton_append, List.mem_cons] at hd
        exact hd.symm

theorem name_front (l : Bytes) : (∃ t r, l = t ++ r ∧ Name t r) ∨ headAlnum l = false := by
  cases h : headAlnum l with
  | false => exact .inr rfl
  | true =>
    obtain ⟨t, r, h1, h2, h3, h4, h5⟩ := run_front idByte l
    refine .inl ⟨t, r, h1, name_iff.2 ⟨⟨?_, h4⟩, h5⟩⟩
    subst h1
    cases t with
    | nil =>
      cases r with
      | nil => simp [headAlnum] at h
      | cons c r =>
        have := h5 c r rfl
        simp only [idByte, Bool.or_eq_false_iff] at this
        simp only [List.nil_append, headAlnum, this.1] at h
        cases h
    | cons c t => exact h

/-- **C73.** `identifier` takes exactly a name. -/
theorem C73_identifier (s : Parser) (hs : InOrder s) : Exact identifier (fun t r _ => Name t r) s (atMark s) := by
  refine exact_of ?_ ?_ s hs
  · rintro k pre mid t r _ h
    exact identifier_read (name_iff.1 h).1 (name_iff.1 h).2 ..
  · intro k pre mid post
    rw [atMark_st]
    rcases name_front post with ⟨t, r, h1, h2⟩ | h
    · exact .inl ⟨t, r, (), h1, h2⟩
    · exact .inr (by rw [identifier_eq, if_neg (by simp [h])])

/-- The cursor behind the sign `c` if it is there, otherwise on the mark. -/
def behindSign (c : UInt8) (s : Parser) : Parser :=
  if (s.doc.drop s.pos).head? = some c then moved s 1 else atMark s

theorem named_exact {x : PM Bytes} {c : UInt8} (hx : x = (do sym c; context (do identifier; text))) (s : Parser) (hs : InOrder s) :
    Exact x (fun t r v => t = [c] ++ v ∧ Name v r) s (behindSign c s) := by
  subst hx
  refine exact_of (back := behindSign c) ?_ ?_ s hs
  · rintro k pre mid _ r v ⟨rfl, h⟩
    have h' := name_iff.1 h
    rw [show [c] ++ v ++ r = c :: (v ++ r) from rfl, bind_ok (sym_hit ..),
      context_st (o := .ok v) (p' := []) (m' := v) (post' := r) (k' := k)]
    · simp
    · rw [bind_ok (identifier_read h'.1 h'.2 ..)]
      simp [h'.1.lossy]
  · intro k pre mid post
    unfold behindSign
    rw [drop_st]
    cases post with
    | nil => exact .inr (by rw [bind_err (sym_nil ..), if_neg (by simp), atMark_st, List.append_nil])
    | cons d r =>
      by_cases hd : d = c
      · subst hd
        rcases name_front r with ⟨t, r', rfl, h2⟩ | h
        · exact .inl ⟨[d] ++ t, r', t, rfl, rfl, h2⟩
        · refine .inr ?_
          rw [bind_ok (sym_hit ..), context_st (o := .err .mismatch) (p' := []) (m' := []) (post' := r) (k' := k),
            if_pos (by simp)]
          · have := moved_st k pre mid [d] r
            simp only [List.singleton_append, List.length_singleton] at this
            rw [this]; simp
          · rw [bind_err (by rw [identifier_eq, if_neg (by simp [h])])]; simp
      · refine .inr ?_
        rw [bind_err (sym_miss _ _ _ _ _ _ hd), if_neg (by simpa using hd), atMark_st]

/-- **C73.** `anchor` takes exactly `&` and a name, and returns the name; behind an `&` without a name the cursor
is left behind the `&`. -/
theorem C73_anchor (s : Parser) (hs : InOrder s) :
    Exact anchor (fun t r v => t = b!"&" ++ v ∧ Name v r) s (behindSign 0x26 s) := named_exact rfl s hs

/-- **C73.** `anchor_use` takes exactly `*` and a name, and returns the name. -/
theorem C73_alias (s : Parser) (hs : InOrder s) :
    Exact anchorUse (fun t r v => t = b!"*" ++ v ∧ Name v r) s (behindSign 0x2A s) := named_exact rfl s hs

example : Name b!"a-1" b!": x" := ⟨⟨0x61, b!"-1", rfl, by decide, by simp; decide⟩, by rintro c r' ⟨⟩; decide⟩

/-- A name, or nothing where there is none. -/
def NameOrNot (t r : Bytes) : Prop := Name t r ∨ (t = [] ∧ NotFront alnums r)

/-- The texts of tags and what they stand for, given the table of handles. -/
inductive Tag (tbl : List (Bytes × Bytes)) : Bytes → Bytes → Bytes → Prop
  /-- `!x` -/
  | one {x r : Bytes} : Name x r → NotFront b!"!" r → Tag tbl (b!"!" ++ x) r x
  /-- `!h!x` -/
  | handle {h p x r : Bytes} : Name h (b!"!" ++ x ++ r) → mapGet h tbl = some p → NameOrNot x r →
      Tag tbl (b!"!" ++ h ++ b!"!" ++ x) r (p ++ x)
  /-- `!!x` -/
  | second {p x r : Bytes} : mapGet b!"!!" tbl = some p → NameOrNot x r → Tag tbl (b!"!!" ++ x) r (p ++ x)
  /-- `!<u>x` -/
  | verbatim {u x r : Bytes} : u ≠ [] → (∀ c ∈ u, c ∉ b!" <>\n\r") → NameOrNot x r →
      Tag tbl (b!"!<" ++ u ++ b!">" ++ x) r (lossy u ++ x)
  /-- `!` alone -/
  | alone {p r : Bytes} : mapGet b!"!" tbl = some p → NotFront (b!"!<" ++ alnums) r → Tag tbl b!"!" r p

/-- A tag whose handle is not in the table. -/
def UnknownHandle (tbl : List (Bytes × Bytes)) (l : Bytes) : Prop :=
  (∃ h r, l = b!"!" ++ h ++ b!"!" ++ r ∧ Name h (b!"!" ++ r) ∧ mapGet h tbl = none) ∨
  (∃ r, l = b!"!!" ++ r ∧ mapGet b!"!!" tbl = none) ∨
  (∃ r, l = b!"!" ++ r ∧ NotFront (b!"!<" ++ alnums) r ∧ mapGet b!"!" tbl = none)

theorem notFront_alnum {r : Bytes} : NotFront alnums r ↔ headAlnum r = false := by
  cases r with
  | nil => simp [NotFront, headAlnum]
  | cons c r =>
    simp only [NotFront, headAlnum, List.cons.injEq, and_imp]
    constructor
    · intro h
      have := h c r rfl rfl
      rw [← isAlnum_mem] at this
      simpa using this
    · rintro h d r' rfl rfl hd
      rw [(isAlnum_mem _).2 hd] at h
      cases h

theorem suffix_read {x r : Bytes} (h : NameOrNot x r) (k : Ctx) (pre mid : Bytes) :
    context (do if ← isOk identifier then text else pure [] : PM Bytes) (st k pre mid (x ++ r)) =
      (.ok x, st k pre (mid ++ x) r) := by
  rcases h with h | ⟨rfl, h⟩
  · exact tagSuffix_some (name_iff.1 h).1 (name_iff.1 h).2 ..
  · rw [List.nil_append, context_st (o := .ok []) (p' := []) (m' := []) (post' := r) (k' := k)]
    · simp
    · rw [bind_ok (isOk_err (by rw [identifier_eq, if_neg (by simp [notFront_alnum.1 h])]))]
      simp

theorem suffix_front (l : Bytes) : ∃ x r, l = x ++ r ∧ NameOrNot x r := by
  rcases name_front l with ⟨x, r, h1, h2⟩ | h
  · exact ⟨x, r, h1, .inl h2⟩
  · exact ⟨[], l, rfl, .inr ⟨rfl, notFront_alnum.2 h⟩⟩

/-- The body of `tag` behind the `!`. -/
def tagBody : PM Bytes := do
  orDefault () identifier
  let handle ← text
  let pre ← tagPrefixPart handle
  let doc ← context (do
    if ← isOk identifier then text else pure [])
  pure (pre ++ doc)

theorem tag_body : tag = (do sym 0x21; context tagBody) := rfl

theorem tagBody_name {h : Bytes} {l : Bytes} (hn : Name h l) (k : Ctx) (pre : Bytes) :
    tagBody (st k pre [] (h ++ l)) = (do
      let p ← (do if ← isOk (sym 0x21) then tagLookup h else pure [])
      let doc ← context (do if ← isOk identifier then text else pure [])
      pure (p ++ doc) : PM Bytes) (st k pre h l) := by
  have hi := name_iff.1 hn
  have hne : h.isEmpty = false := by simpa using hi.1.ne
  rw [tagBody, bind_ok (orDefault_ok (identifier_read hi.1 hi.2 ..)), bind_ok (text_st ..)]
  simp only [List.nil_append, hi.1.lossy, tagPrefixPart, hne, Bool.not_false, if_true]

theorem tagBody_noname {l : Bytes} (hn : headAlnum l = false) (k : Ctx) (pre : Bytes) :
    tagBody (st k pre [] l) = (do
      let p ← tagPrefixPart []
      let doc ← context (do if ← isOk identifier then text else pure [])
      pure (p ++ doc) : PM Bytes) (st k pre [] l) := by
  rw [tagBody, bind_ok (orDefault_err (by rw [identifier_eq, if_neg (by simp [hn])])), List.nil_append, bind_ok (text_st ..)]
  rfl

theorem tag_hit {tbl : List (Bytes × Bytes)} {t r v : Bytes} (h : Tag tbl t r v) {k : Ctx} (hk : k.tag = tbl) (pre mid : Bytes) :
    tag (st k pre mid (t ++ r)) = (.ok v, st k pre (mid ++ t) r) := by
  subst hk
  obtain ⟨t', rfl, hb⟩ : ∃ t', t = 0x21 :: t' ∧ ∀ pre, tagBody (st k pre [] (t' ++ r)) = (.ok v, st k pre t' r) := by
    cases h with
    | one hn hr =>
      refine ⟨v, rfl, fun pre => ?_⟩
      rw [tagBody_name hn]
      rw [bind_ok (a := []) (s' := st k pre [] (v ++ r)), bind_ok (suffix_read (.inl hn) ..)]
      · simp
      · rw [bind_ok (isOk_err (s' := st k pre [] (v ++ r)) (e := .mismatch) ?_)]
        · simp
        · cases r with
          | nil => simp
          | cons c r => exact sym_miss _ _ _ _ _ _ (by rintro rfl; exact hr _ r rfl (by simp))
    | @handle h p x r hn hp hx =>
      refine ⟨h ++ b!"!" ++ x, by simp, fun pre => ?_⟩
      rw [show h ++ b!"!" ++ x ++ r = h ++ (b!"!" ++ x ++ r) by simp, tagBody_name hn, show b!"!" ++ x ++ r = 0x21 :: (x ++ r) from rfl]
      rw [bind_ok (a := p) (s' := st k pre (h ++ [0x21]) (x ++ r)), bind_ok (suffix_read hx ..)]
      · simp
      · rw [bind_ok (isOk_ok (sym_hit ..))]
        simp only [if_true]
        exact tagLookup_read hp ..
    | @second p x r hp hx =>
      refine ⟨b!"!" ++ x, rfl, fun pre => ?_⟩
      rw [tagBody_noname (by rfl), show b!"!" ++ x ++ r = 0x21 :: (x ++ r) from rfl]
      rw [bind_ok (a := p) (s' := st k pre [0x21] (x ++ r)), bind_ok (suffix_read hx ..)]
      · simp
      · rw [tagPrefixPart]
        simp only [List.isEmpty_nil, Bool.not_true, Bool.false_eq_true, if_false]
        rw [bind_ok (isOk_err (sym_miss _ _ _ _ _ _ (by decide)))]
        simp only [Bool.false_eq_true, if_false]
        rw [List.nil_append, bind_ok (isOk_ok (sym_hit ..))]
        simp only [if_true]
        exact tagLookup_read hp ..
    | @verbatim u x r hu hc hx =>
      refine ⟨b!"<" ++ u ++ b!">" ++ x, by simp, fun pre => ?_⟩
      have hw := takeWhile_all (f := notIn b!" <>\n\r") (d := u) (fun c h => by simpa [notIn] using hc c h) (0x3E :: (x ++ r))
        (by rintro _ _ ⟨⟩; decide)
      rw [show b!"<" ++ u ++ b!">" ++ x ++ r = 0x3C :: (u ++ 0x3E :: (x ++ r)) by simp, tagBody_noname (by rfl)]
      rw [bind_ok (a := lossy u) (s' := st k pre (0x3C :: (u ++ [0x3E])) (x ++ r)), bind_ok (suffix_read hx ..)]
      · simp
      · rw [tagPrefixPart]
        simp only [List.isEmpty_nil, Bool.not_true, Bool.false_eq_true, if_false]
        rw [bind_ok (isOk_ok (sym_hit ..))]
        simp only [if_true]
        rw [bind_ok (context_st (o := .ok (lossy u)) (p' := []) (m' := u) (post' := 0x3E :: (x ++ r)) (k' := k) ?_)]
        · rw [bind_ok (sym_hit ..)]; simp
        · rw [bind_ok (by rw [takeWhile_more1, hw.1, hw.2, if_neg hu])]
          simp
    | alone hp hr =>
      refine ⟨[], rfl, fun pre => ?_⟩
      have ha : headAlnum r = false := notFront_alnum.1 fun c r' e hc => hr c r' e (by simp [hc])
      have hsf := suffix_read (x := []) (.inr ⟨rfl, notFront_alnum.2 ha⟩) k pre []
      rw [List.nil_append] at hsf
      rw [List.nil_append, tagBody_noname ha]
      rw [bind_ok (a := v) (s' := st k pre [] r), bind_ok hsf]
      · simp
      · have hm : ∀ c ∈ b!"!<", sym c (st k pre [] r) = (.err .mismatch, st k pre [] r) := by
          intro c hc
          cases r with
          | nil => simp
          | cons d r => exact sym_miss _ _ _ _ _ _ (by rintro rfl; exact hr d r rfl (by simp at hc ⊢; grind))
        rw [tagPrefixPart]
        simp only [List.isEmpty_nil, Bool.not_true, Bool.false_eq_true, if_false]
        rw [bind_ok (isOk_err (hm 0x3C (by simp)))]
        simp only [Bool.false_eq_true, if_false]
        rw [bind_ok (isOk_err (hm 0x21 (by simp)))]
        simp only [Bool.false_eq_true, if_false]
        exact tagLookup_read hp ..
  rw [tag_body, List.cons_append, bind_ok (sym_hit ..), context_st (o := .ok v) (p' := []) (m' := t') (post' := r) (k' := k)]
  · simp
  · simpa using hb (pre ++ (mid ++ [0x21]))

/-- **C73.** `tag` takes exactly the texts of tags, with what they stand for. -/
theorem C73_tag (s : Parser) (hs : InOrder s) (t r v : Bytes) (he : s.doc.drop s.pos = t ++ r) (h : Tag s.tag t r v) :
    tag s = (.ok v, moved s t.length) := by
  obtain ⟨k, pre, mid, post, rfl⟩ := exists_st s hs.1 hs.2
  rw [drop_st] at he
  subst he
  rw [moved_st]
  exact tag_hit h rfl ..

/-- **C73.** An unknown handle makes `tag` panic. -/
theorem C73_unknown_handle (s : Parser) (hs : InOrder s) (h : UnknownHandle s.tag (s.doc.drop s.pos)) :
    (tag s).1 = .panic .tagHandle := by
  obtain ⟨k, pre, mid, post, rfl⟩ := exists_st s hs.1 hs.2
  rw [drop_st] at h
  replace h : UnknownHandle k.tag post := h
  have hl : ∀ key pre mid post, mapGet key k.tag = none → tagLookup key (st k pre mid post) = (.panic .tagHandle, st k pre mid post) := by
    intro key pre mid post h
    have : mapGet key (st k pre mid post).tag = none := h
    simp only [tagLookup, this]
  obtain ⟨l, rfl, s', hb⟩ : ∃ l, post = 0x21 :: l ∧ ∃ s', tagBody (st k (pre ++ (mid ++ [0x21])) [] l) = (.panic .tagHandle, s') := by
    rcases h with ⟨h, r, rfl, hn, hp⟩ | ⟨r, rfl, hp⟩ | ⟨r, rfl, hr, hp⟩
    · refine ⟨h ++ (b!"!" ++ r), by simp, st k (pre ++ (mid ++ [0x21])) (h ++ [0x21]) r, ?_⟩
      rw [tagBody_name hn, bind_panic]
      rw [show b!"!" ++ r = 0x21 :: r from rfl, bind_ok (isOk_ok (sym_hit ..))]
      simp only [if_true]
      exact hl _ _ _ _ hp
    · refine ⟨b!"!" ++ r, rfl, st k (pre ++ (mid ++ [0x21])) [0x21] r, ?_⟩
      rw [tagBody_noname (by rfl), bind_panic]
      rw [tagPrefixPart]
      simp only [List.isEmpty_nil, Bool.not_true, Bool.false_eq_true, if_false]
      rw [show b!"!" ++ r = 0x21 :: r from rfl, bind_ok (isOk_err (sym_miss _ _ _ _ _ _ (by decide)))]
      simp only [Bool.false_eq_true, if_false]
      rw [List.nil_append, bind_ok (isOk_ok (sym_hit ..))]
      simp only [if_true]
      exact hl _ _ _ _ hp
    · refine ⟨r, rfl, st k (pre ++ (mid ++ [0x21])) [] r, ?_⟩
      have ha : headAlnum r = false := notFront_alnum.1 fun c r' e hc => hr c r' e (by simp [hc])
      have hm : ∀ pre, ∀ c ∈ b!"!<", sym c (st k pre [] r) = (.err .mismatch, st k pre [] r) := by
        intro pre c hc
        cases r with
        | nil => simp
        | cons d r => exact sym_miss _ _ _ _ _ _ (by rintro rfl; exact hr d r rfl (by simp at hc ⊢; grind))
      rw [tagBody_noname ha, bind_panic]
      rw [tagPrefixPart]
      simp only [List.isEmpty_nil, Bool.not_true, Bool.false_eq_true, if_false]
      rw [bind_ok (isOk_err (hm _ 0x3C (by simp)))]
      simp only [Bool.false_eq_true, if_false]
      rw [bind_ok (isOk_err (hm _ 0x21 (by simp)))]
      simp only [Bool.false_eq_true, if_false]
      exact hl _ _ _ _ hp
  rw [tag_body, bind_ok (sym_hit ..)]
  have e : ({ st k pre (mid ++ [0x21]) l with eaten := (st k pre (mid ++ [0x21]) l).pos } : Parser) =
      st k (pre ++ (mid ++ [0x21])) [] l := by simp [st]
  simp only [context, e, hb]

/-- **C73.** Everything else is a mismatch: without a `!` the cursor goes back to the mark; behind an unfinished `!<` it is
behind that, or behind the `!`. -/
theorem C73_no_tag (s : Parser) (hs : InOrder s) (h1 : ∀ t r v, s.doc.drop s.pos = t ++ r → ¬ Tag s.tag t r v)
    (h2 : ¬ UnknownHandle s.tag (s.doc.drop s.pos)) : ∃ left, tag s = (.err .mismatch, left) ∧
      ((NotFront b!"!" (s.doc.drop s.pos) ∧ left = atMark s) ∨
       (∃ r, s.doc.drop s.pos = b!"!<" ++ r ∧ (r = [] ∨ ∃ c r', r = c :: r' ∧ c ∈ b!" <>\n\r") ∧ left = moved s 2) ∨
       (∃ u r, s.doc.drop s.pos = b!"!<" ++ u ++ r ∧ u ≠ [] ∧ NotFront b!">" r ∧ left = moved s 1)) := by
  obtain ⟨k, pre, mid, post, rfl⟩ := exists_st s hs.1 hs.2
  rw [drop_st] at h1 h2 ⊢
  replace h1 : ∀ t r v, post = t ++ r → ¬ Tag k.tag t r v := h1
  replace h2 : ¬ UnknownHandle k.tag post := h2
  cases post with
  | nil =>
    refine ⟨st k pre [] mid, ?_, .inl ⟨by rintro _ _ ⟨⟩, by rw [atMark_st, List.append_nil]⟩⟩
    rw [tag_body, bind_err (sym_nil ..)]
  | cons c l =>
    by_cases hc : c = 0x21
    · subst hc
      -- behind the sign
      rcases name_front l with ⟨h, r, rfl, hn⟩ | hn
      · exfalso
        cases r with
        | nil => exact h1 (b!"!" ++ h) [] h (by simp) (.one hn (by rintro _ _ ⟨⟩))
        | cons d r =>
          by_cases hd : d = 0x21
          · subst hd
            obtain ⟨x, r', rfl, hx⟩ := suffix_front r
            cases hp : mapGet h k.tag with
            | none => exact h2 (.inl ⟨h, x ++ r', by simp, by simpa using hn, hp⟩)
            | some p => exact h1 (b!"!" ++ h ++ b!"!" ++ x) r' (p ++ x) (by simp) (.handle (by simpa using hn) hp hx)
          · exact h1 (b!"!" ++ h) (d :: r) h (by simp) (.one hn (by rintro _ _ ⟨⟩; simpa using hd))
      · cases l with
        | nil =>
          exfalso
          cases hp : mapGet b!"!" k.tag with
          | none => exact h2 (.inr (.inr ⟨[], rfl, by rintro _ _ ⟨⟩, hp⟩))
          | some p => exact h1 b!"!" [] p rfl (.alone hp (by rintro _ _ ⟨⟩))
        | cons d r =>
          by_cases hd : d = 0x21
          · exfalso
            subst hd
            obtain ⟨x, r', rfl, hx⟩ := suffix_front r
            cases hp : mapGet b!"!!" k.tag with
            | none => exact h2 (.inr (.inl ⟨x ++ r', rfl, hp⟩))
            | some p => exact h1 (b!"!!" ++ x) r' (p ++ x) rfl (.second hp hx)
          · by_cases hd' : d = 0x3C
            · subst hd'
              obtain ⟨u, y, rfl, e1, e2, h5, h6⟩ := run_front (notIn b!" <>\n\r") r
              have hu : ∀ c ∈ u, c ∉ b!" <>\n\r" := fun c hc hx => by
                have := h5 c hc
                rw [notIn_false.2 hx] at this
                cases this
              have hm2 := moved_st k pre mid b!"!<" (u ++ y)
              have hm1 := moved_st k pre mid b!"!" (b!"<" ++ (u ++ y))
              simp only [List.cons_append, List.nil_append, List.length_cons, List.length_nil, Nat.zero_add] at hm1 hm2
              by_cases hun : u = []
              · subst hun
                refine ⟨moved (st k pre mid (0x21 :: 0x3C :: ([] ++ y))) 2, ?_, .inr (.inl ⟨y, rfl, ?_, rfl⟩)⟩
                · rw [hm2, tag_body, bind_ok (sym_hit ..), context_st (o := .err .mismatch) (p' := []) (m' := b!"<") (post' := y) (k' := k)]
                  · simp
                  · rw [tagBody_noname (by rfl), bind_err]
                    rw [tagPrefixPart]
                    simp only [List.isEmpty_nil, Bool.not_true, Bool.false_eq_true, if_false]
                    rw [bind_ok (isOk_ok (sym_hit ..))]
                    simp only [if_true]
                    rw [bind_err (context_st (o := .err .mismatch) (p' := []) (m' := []) (post' := y) (k' := k) ?_)]
                    · simp
                    · rw [bind_err (by rw [takeWhile_more1, e1, if_pos rfl])]
                      simp
                · cases y with
                  | nil => exact .inl rfl
                  | cons c y => exact .inr ⟨c, y, rfl, notIn_false.1 (h6 c y rfl)⟩
              · have hy : NotFront b!">" y := by
                  rintro c y' rfl hc
                  simp only [List.mem_singleton] at hc
                  subst hc
                  obtain ⟨x, r', rfl, hx⟩ := suffix_front y'
                  exact h1 (b!"!<" ++ u ++ b!">" ++ x) r' (lossy u ++ x) (by simp) (.verbatim hun hu hx)
                refine ⟨moved (st k pre mid (0x21 :: 0x3C :: (u ++ y))) 1, ?_, .inr (.inr ⟨u, y, rfl, hun, hy, rfl⟩)⟩
                rw [hm1, tag_body, bind_ok (sym_hit ..), context_st (o := .err .mismatch) (p' := []) (m' := []) (post' := 0x3C :: (u ++ y)) (k' := k)]
                · simp
                · rw [tagBody_noname (by rfl), bind_err]
                  rw [tagPrefixPart]
                  simp only [List.isEmpty_nil, Bool.not_true, Bool.false_eq_true, if_false]
                  rw [bind_ok (isOk_ok (sym_hit ..))]
                  simp only [if_true]
                  rw [bind_ok (context_st (o := .ok (lossy u)) (p' := []) (m' := u) (post' := y) (k' := k) ?_)]
                  · rw [bind_err (e := .mismatch) (s' := st k (pre ++ (mid ++ [0x21])) [] (0x3C :: (u ++ y)))]
                    · simp
                    · cases y with
                      | nil => simp
                      | cons c y =>
                        rw [sym_miss]
                        · simp
                        · rintro rfl; exact hy _ y rfl (by simp)
                  · rw [bind_ok (by rw [takeWhile_more1, e1, e2, if_neg hun])]
                    simp
            · exfalso
              have hr : NotFront (b!"!<" ++ alnums) (d :: r) := by
                rintro _ _ ⟨⟩ hx
                simp only [List.cons_append, List.nil_append, List.mem_cons] at hx
                rcases hx with hx | hx | hx
                · exact hd hx
                · exact hd' hx
                · exact notFront_alnum.2 hn d r rfl hx
              cases hp : mapGet b!"!" k.tag with
              | none => exact h2 (.inr (.inr ⟨d :: r, rfl, hr, hp⟩))
              | some p => exact h1 b!"!" (d :: r) p rfl (.alone hp hr)
    · refine ⟨st k pre [] (mid ++ c :: l), ?_, .inl ⟨by rintro _ _ ⟨⟩; simpa using hc, by rw [atMark_st]⟩⟩
      rw [tag_body, bind_err (sym_miss _ _ _ _ _ _ hc)]

/-- Tags of each form. -/
example : Tag [(b!"!", b!""), (b!"!!", b!"tag:yaml.org,2002:"), (b!"e", b!"p:")] b!"!e!x" b!" y" b!"p:x" :=
  .handle (h := b!"e") (p := b!"p:") (x := b!"x") ⟨⟨0x65, [], rfl, by decide, by simp⟩, by rintro c r' ⟨⟩; decide⟩ (by decide)
    (.inl ⟨⟨0x78, [], rfl, by decide, by simp⟩, by rintro c r' ⟨⟩; decide⟩)
example : Tag [(b!"!", b!""), (b!"!!", b!"tag:yaml.org,2002:")] b!"!!str" b!" y" b!"tag:yaml.org,2002:str" :=
  .second (p := b!"tag:yaml.org,2002:") (x := b!"str") (by decide)
    (.inl ⟨⟨0x73, b!"tr", rfl, by decide, by simp; decide⟩, by rintro c r' ⟨⟩; decide⟩)

/-! ## C74: numbers -/

/-- Behind a number: one of these. -/
def numberEnds : Bytes := b!":{}[],\n\r"

/-- A decimal number: digits, perhaps behind a minus sign. -/
def Decimal (v : Bytes) : Prop :=
  ∃ sg d, (sg = [] ∨ sg = b!"-") ∧ d ≠ [] ∧ (∀ x ∈ d, x ∈ b!"0123456789") ∧ v = sg ++ d

theorem NotFront.apply {f : UInt8 → Bool} {set r : Bytes} (h : NotFront set r) (hf : ∀ c, f c = true → c ∈ set) :
    ∀ c r', r = c :: r' → f c = false := by
  intro c r' e
  cases hc : f c with
  | false => rfl
  | true => exact absurd (hf c hc) (h c r' e)

theorem numPrefix_hit {v l : Bytes} (hv : Decimal v) (hl : NotFront b!"0123456789" l) (k : Ctx) (pre : Bytes) :
    numPrefix (st k pre [] (v ++ l)) = (.ok (), st k pre v l) := by
  obtain ⟨sg, d, h1, h2, h3, rfl⟩ := hv
  rw [List.append_assoc]
  exact numPrefix_read _ _ h1 ⟨h2, fun x hx => (isDigit_mem x).2 (h3 x hx)⟩ l
    (hl.apply fun c => (isDigit_mem c).1)

theorem numPrefix_cases (k : Ctx) (pre post : Bytes) :
    (∃ v l, post = v ++ l ∧ Decimal v ∧ NotFront b!"0123456789" l) ∨
    numPrefix (st k pre [] post) = (.err .mismatch, st k pre [] post) := by
  rw [numPrefix_eq]
  split
  · exact .inr rfl
  · rename_i h
    obtain ⟨d, l, h1, h2, h3, h4, h5⟩ := run_front isDigit (unsigned post)
    refine .inl ⟨signOf post ++ d, l, ?_, ⟨signOf post, d, ?_, by rw [← h2]; exact h, fun x hx => (isDigit_mem x).1 (h4 x hx), rfl⟩, ?_⟩
    · rw [List.append_assoc, ← h1, signOf_append]
    · unfold signOf; split <;> simp
    · intro c r e hc
      have := h5 c r e
      rw [(isDigit_mem c).2 hc] at this
      cases this

theorem Decimal.ascii {v : Bytes} (h : Decimal v) : ∀ x ∈ v, x < 0x80 := by
  obtain ⟨sg, d, h1, -, h3, rfl⟩ := h
  intro x hx
  rcases List.mem_append.1 hx with hx | hx
  · rcases h1 with rfl | rfl
    · simp at hx
    · simp at hx; subst hx; decide
  · exact isDigit_ascii ((isDigit_mem x).2 (h3 x hx))

/-- `0o…` and `0x…`: the digits behind the letter. -/
def Based (v : Bytes) : Prop :=
  (∃ d, d ≠ [] ∧ (∀ x ∈ d, x ∈ octalDigits) ∧ v = b!"o" ++ d) ∨ (∃ d, d ≠ [] ∧ (∀ x ∈ d, x ∈ hexDigits) ∧ v = b!"x" ++ d)

/-- As many digits as there are. -/
def BasedEnd (v r : Bytes) : Prop :=
  (∀ c d, v = c :: d → c = 0x6F → NotFront octalDigits r) ∧ (∀ c d, v = c :: d → c = 0x78 → NotFront hexDigits r)

theorem based_hit {v r : Bytes} (hv : Based v) (hr : BasedEnd v r) (k : Ctx) (pre mid : Bytes) :
    context octalOrHex (st k pre mid (v ++ r)) = (.ok true, st k pre (mid ++ v) r) := by
  rw [context_st (o := .ok true) (p' := []) (m' := v) (post' := r) (k' := k)]
  · simp
  · rcases hv with ⟨d, hne, hd, rfl⟩ | ⟨d, hne, hd, rfl⟩
    · have h1 := takeWhile_all (f := asciiDigit 8) (fun x hx => (octalDigit_mem x).2 (hd x hx)) r
        ((hr.1 _ _ rfl rfl).apply fun c => (octalDigit_mem c).1)
      rw [octalOrHex, bind_ok (isOk_ok (a := ()) (s' := st k (pre ++ mid) (b!"o" ++ d) r) ?_)]
      · simp
      · rw [octal, show b!"o" ++ d ++ r = 0x6F :: (d ++ r) from rfl, bind_ok (sym_hit ..), takeWhile_more1, h1.1, h1.2, if_neg hne]
        rfl
    · have h1 := takeWhile_all (f := asciiDigit 16) (fun x hx => (hexDigit_mem x).2 (hd x hx)) r
        ((hr.2 _ _ rfl rfl).apply fun c => (hexDigit_mem c).1)
      rw [octalOrHex, bind_ok (isOk_err (e := .mismatch) (s' := st k (pre ++ mid) [] (b!"x" ++ d ++ r)) ?_)]
      · simp only [Bool.false_eq_true, if_false]
        rw [isOk_ok (a := ()) (s' := st k (pre ++ mid) (b!"x" ++ d) r)]
        · simp
        · rw [hexadecimal, show b!"x" ++ d ++ r = 0x78 :: (d ++ r) from rfl, bind_ok (sym_hit ..), takeWhile_more1, h1.1, h1.2, if_neg hne]
          rfl
      · rw [octal, show b!"x" ++ d ++ r = 0x78 :: (d ++ r) from rfl, bind_err (sym_miss _ _ _ _ _ _ (by decide))]
        simp

theorem based_cases (k : Ctx) (pre mid post : Bytes) : (∃ v r, post = v ++ r ∧ Based v ∧ BasedEnd v r) ∨
    context octalOrHex (st k pre mid post) = (.ok false, st k pre mid post) := by
  cases post with
  | nil => exact .inr (octalOrHex_nil ..)
  | cons c r =>
    by_cases h1 : c = 0x6F
    · subst h1
      obtain ⟨d, l, rfl, e1, e2, h4, h5⟩ := run_front (asciiDigit 8) r
      by_cases hd : d = []
      · subst hd
        refine .inr ?_
        rw [context_st (o := .ok false) (p' := []) (m' := []) (post' := 0x6F :: ([] ++ l)) (k' := k)]
        · simp
        · rw [octalOrHex, bind_ok (isOk_err (e := .mismatch) (s' := st k (pre ++ mid) [] (0x6F :: ([] ++ l))) ?_)]
          · simp only [Bool.false_eq_true, if_false]
            rw [isOk_err (e := .mismatch) (s' := st k (pre ++ mid) [] (0x6F :: ([] ++ l)))]
            · simp
            · rw [hexadecimal, bind_err (sym_miss _ _ _ _ _ _ (by decide))]; simp
          · rw [octal, bind_ok (sym_hit ..), takeWhile_more1, e1, if_pos rfl]; simp
      · refine .inl ⟨b!"o" ++ d, l, rfl, .inl ⟨d, hd, fun x hx => (octalDigit_mem x).1 (h4 x hx), rfl⟩, ?_, ?_⟩
        · intro _ _ _ _ c r' e hc
          have := h5 c r' e
          rw [(octalDigit_mem c).2 hc] at this; cases this
        · rintro _ _ ⟨⟩ h; cases h
    · by_cases h2 : c = 0x78
      · subst h2
        obtain ⟨d, l, rfl, e1, e2, h4, h5⟩ := run_front (asciiDigit 16) r
        by_cases hd : d = []
        · subst hd
          refine .inr ?_
          rw [context_st (o := .ok false) (p' := []) (m' := []) (post' := 0x78 :: ([] ++ l)) (k' := k)]
          · simp
          · rw [octalOrHex, bind_ok (isOk_err (e := .mismatch) (s' := st k (pre ++ mid) [] (0x78 :: ([] ++ l))) ?_)]
            · simp only [Bool.false_eq_true, if_false]
              rw [isOk_err (e := .mismatch) (s' := st k (pre ++ mid) [] (0x78 :: ([] ++ l)))]
              · simp
              · rw [hexadecimal, bind_ok (sym_hit ..), takeWhile_more1, e1, if_pos rfl]; simp
            · rw [octal, bind_err (sym_miss _ _ _ _ _ _ (by decide))]; simp
        · refine .inl ⟨b!"x" ++ d, l, rfl, .inr ⟨d, hd, fun x hx => (hexDigit_mem x).1 (h4 x hx), rfl⟩, ?_, ?_⟩
          · rintro _ _ ⟨⟩ h; cases h
          · intro _ _ _ _ c r' e hc
            have := h5 c r' e
            rw [(hexDigit_mem c).2 hc] at this; cases this
      · exact .inr (octalOrHex_no _ _ _ _ _ h1 h2)

/-- An integer: its text, all blanks behind it, and then the end of a number. -/
def Integer (t r v : Bytes) : Prop :=
  ∃ b c r', t = v ++ b ∧ IntForm v ∧ Over blanks b ∧ r = c :: r' ∧ c ∈ numberEnds

theorem end_not {c : UInt8} (h : c ∈ numberEnds) : c ∉ blanks ∧ c ∉ b!"0123456789" ∧ c ∉ octalDigits ∧ c ∉ hexDigits ∧ c ≠ 0x6F ∧ c ≠ 0x78 := by
  simp only [numberEnds, List.mem_cons, List.not_mem_nil, or_false] at h
  rcases h with rfl | rfl | rfl | rfl | rfl | rfl | rfl | rfl <;> decide

theorem blank_not {c : UInt8} (h : c ∈ blanks) : c ∉ b!"0123456789" ∧ c ∉ octalDigits ∧ c ∉ hexDigits ∧ c ≠ 0x6F ∧ c ≠ 0x78 := by
  simp only [blanks, List.mem_cons, List.not_mem_nil, or_false] at h
  rcases h with rfl | rfl | rfl <;> decide

theorem behind_not {b r : Bytes} {c : UInt8} (hb : Over blanks b) (hc : c ∈ numberEnds) : ∀ d r', b ++ c :: r = d :: r' →
    d ∉ b!"0123456789" ∧ d ∉ octalDigits ∧ d ∉ hexDigits ∧ d ≠ 0x6F ∧ d ≠ 0x78 := by
  intro d r' e
  cases b with
  | nil => cases e; exact (end_not hc).2
  | cons x b => cases e; exact blank_not (hb _ (by simp))

theorem int_end {b r : Bytes} {c : UInt8} (hb : Over blanks b) (hc : c ∈ numberEnds) (v : Bytes) (k : Ctx) (pre mid : Bytes) :
    (do ws (.more 0); bound; pure v : PM Bytes) (st k pre mid (b ++ c :: r)) = (.ok v, st k pre (mid ++ b) (c :: r)) := by
  have h1 : Blanks b (c :: r) := ⟨hb, by rintro _ _ ⟨⟩; exact (end_not hc).1⟩
  have h2 := bound_hit (t := []) (r := c :: r) ⟨⟨by simp [Over], by rintro _ _ ⟨⟩; exact (end_not hc).1⟩, .inr ⟨rfl, c, r, rfl, hc⟩⟩
    k pre (mid ++ b)
  rw [bind_ok (ws_st ..), h1.split.1, h1.split.2, bind_ok (by simpa using h2)]
  rfl

theorem int_end_cases (v : Bytes) (k : Ctx) (pre mid post : Bytes) :
    (∃ b c r, post = b ++ c :: r ∧ Over blanks b ∧ c ∈ numberEnds) ∨
    (do ws (.more 0); bound; pure v : PM Bytes) (st k pre mid post) = (.err .mismatch, st k pre [] (mid ++ post)) := by
  obtain ⟨b, r, h1, h2, h3, h4⟩ := blanks_front post
  rcases bound_cases k pre (mid ++ b) r with ⟨t, r', e, hb⟩ | h
  · subst e
    obtain ⟨-, ⟨t', rfl⟩ | ⟨rfl, c, r'', rfl, hc⟩⟩ := hb
    · exact absurd (by simp [blanks]) (h4.2 0x20 (t' ++ r') rfl)
    · exact .inl ⟨b, c, r'', h1, h4.1, hc⟩
  · refine .inr ?_
    rw [bind_ok (ws_st ..), h2, h3, bind_err h, h1]
    simp

/-- **C74.** `int`, with the cursor on the mark, takes exactly an integer and the blanks behind it, in front of a
boundary, and returns the text of the integer. -/
theorem C74_int (s : Parser) (hs : s.pos ≤ s.doc.length) (he : s.eaten = s.pos) : Exact int Integer s s := by
  refine exact_fresh ?_ ?_ s hs he
  · rintro k pre _ _ v ⟨b, c, r, rfl, hv, hb, rfl, hc⟩
    rw [List.append_assoc]
    have hbe := behind_not (r := r) hb hc
    rcases hv with hd | ⟨d, hne, hd, rfl⟩ | ⟨d, hne, hd, rfl⟩
    · have hd : Decimal v := hd
      rw [int, bind_ok (numPrefix_hit hd (fun d r' e => (hbe d r' e).1) ..), bind_ok (text_st ..), lossy_ascii _ hd.ascii,
        bind_ok (int_tail _ _ _ _ _ fun d r' e => (hbe d r' e).2.2.2)]
      exact int_end hb hc ..
    · have h0 : Decimal b!"0" := ⟨[], b!"0", .inl rfl, by simp, by simp, rfl⟩
      rw [int, show b!"0o" ++ d ++ (b ++ c :: r) = b!"0" ++ ((b!"o" ++ d) ++ (b ++ c :: r)) by simp,
        bind_ok (numPrefix_hit h0 (by rintro _ _ ⟨⟩; decide) ..), bind_ok (text_st ..)]
      rw [bind_ok (a := b!"0o" ++ d) (s' := st k pre (b!"0o" ++ d) (b ++ c :: r))]
      · exact int_end hb hc ..
      · rw [if_pos (by decide), bind_ok (based_hit (.inl ⟨d, hne, hd, rfl⟩)
          ⟨fun _ _ _ _ x r' e => (hbe x r' e).2.1, by rintro _ _ ⟨⟩ h; cases h⟩ ..)]
        simp only [if_true]
        rw [show b!"0" ++ (b!"o" ++ d) = b!"0o" ++ d from rfl, text_st, lossy_ascii]
        intro x hx
        simp only [List.cons_append, List.nil_append, List.mem_cons] at hx
        rcases hx with rfl | rfl | hx
        · decide
        · decide
        · have := byte_forall (P := fun c => decide (c ∈ octalDigits → c < 0x80)) (by decide +kernel) x
          simp only [decide_eq_true_eq] at this
          exact this (hd x hx)
    · have h0 : Decimal b!"0" := ⟨[], b!"0", .inl rfl, by simp, by simp, rfl⟩
      rw [int, show b!"0x" ++ d ++ (b ++ c :: r) = b!"0" ++ ((b!"x" ++ d) ++ (b ++ c :: r)) by simp,
        bind_ok (numPrefix_hit h0 (by rintro _ _ ⟨⟩; decide) ..), bind_ok (text_st ..)]
      rw [bind_ok (a := b!"0x" ++ d) (s' := st k pre (b!"0x" ++ d) (b ++ c :: r))]
      · exact int_end hb hc ..
      · rw [if_pos (by decide), bind_ok (based_hit (.inr ⟨d, hne, hd, rfl⟩)
          ⟨(by rintro _ _ ⟨⟩ h; cases h), fun _ _ _ _ x r' e => (hbe x r' e).2.2.1⟩ ..)]
        simp only [if_true]
        rw [show b!"0" ++ (b!"x" ++ d) = b!"0x" ++ d from rfl, text_st, lossy_ascii]
        intro x hx
        simp only [List.cons_append, List.nil_append, List.mem_cons] at hx
        rcases hx with rfl | rfl | hx
        · decide
        · decide
        · have := byte_forall (P := fun c => decide (c ∈ hexDigits → c < 0x80)) (by decide +kernel) x
          simp only [decide_eq_true_eq] at this
          exact this (hd x hx)
  · intro k pre post
    rcases numPrefix_cases k pre post with ⟨v, l, rfl, hv, hl⟩ | h
    · have hrun : ∀ w s', (do
            if v == b!"0" then
              if ← context octalOrHex then text else pure v
            else pure v : PM Bytes) (st k pre v l) = (.ok w, s') →
          int (st k pre [] (v ++ l)) = (do ws (.more 0); bound; pure w : PM Bytes) s' := by
        intro w s' h
        rw [int, bind_ok (numPrefix_hit hv hl ..), bind_ok (text_st ..), lossy_ascii _ hv.ascii, bind_ok h]
      have plain : (do
            if v == b!"0" then
              if ← context octalOrHex then text else pure v
            else pure v : PM Bytes) (st k pre v l) = (.ok v, st k pre v l) →
          (∃ t r a, v ++ l = t ++ r ∧ Integer t r a) ∨ int (st k pre [] (v ++ l)) = (.err .mismatch, st k pre [] (v ++ l)) := by
        intro h
        rcases int_end_cases v k pre v l with ⟨b, c, r, rfl, hb, hc⟩ | h'
        · exact .inl ⟨v ++ b, c :: r, v, by simp, b, c, r, rfl, .inl hv, hb, rfl, hc⟩
        · exact .inr (by rw [hrun _ _ h, h'])
      by_cases h0 : v = b!"0"
      · subst h0
        rcases based_cases k pre b!"0" l with ⟨w, r, rfl, hw, hr⟩ | h
        · have hf : IntForm (b!"0" ++ w) := by
            rcases hw with ⟨d, hne, hd, rfl⟩ | ⟨d, hne, hd, rfl⟩
            · exact .inr (.inl ⟨d, hne, hd, rfl⟩)
            · exact .inr (.inr ⟨d, hne, hd, rfl⟩)
          have hasc : lossy (b!"0" ++ w) = b!"0" ++ w := by
            refine lossy_ascii _ fun x hx => ?_
            rcases List.mem_append.1 hx with hx | hx
            · simp at hx; subst hx; decide
            · rcases hw with ⟨d, -, hd, rfl⟩ | ⟨d, -, hd, rfl⟩
              · rcases List.mem_append.1 hx with hx | hx
                · simp at hx; subst hx; decide
                · have := byte_forall (P := fun c => decide (c ∈ octalDigits → c < 0x80)) (by decide +kernel) x
                  simp only [decide_eq_true_eq] at this
                  exact this (hd x hx)
              · rcases List.mem_append.1 hx with hx | hx
                · simp at hx; subst hx; decide
                · have := byte_forall (P := fun c => decide (c ∈ hexDigits → c < 0x80)) (by decide +kernel) x
                  simp only [decide_eq_true_eq] at this
                  exact this (hd x hx)
          have hx := hrun (b!"0" ++ w) (st k pre (b!"0" ++ w) r) (by
            rw [if_pos (by decide), bind_ok (based_hit hw hr ..)]
            simp only [if_true]
            rw [text_st, hasc])
          rcases int_end_cases (b!"0" ++ w) k pre (b!"0" ++ w) r with ⟨b, c, r, rfl, hb, hc⟩ | h'
          · exact .inl ⟨b!"0" ++ w ++ b, c :: r, b!"0" ++ w, by simp, b, c, r, rfl, hf, hb, rfl, hc⟩
          · refine .inr ?_
            rw [hx, h']
            simp
        · exact plain (by rw [if_pos (by decide), bind_ok h]; simp)
      · exact plain (by rw [if_neg (by simpa using h0)]; rfl)
    · exact .inr (by rw [int, bind_err h])

example : Integer b!"0x1F " b!", 2]" b!"0x1F" :=
  ⟨b!" ", 0x2C, b!" 2]", rfl, .inr (.inr ⟨b!"1F", by simp, by decide, rfl⟩), by simp [Over, blanks], rfl, by decide⟩

/-- Behind a number with a fraction or an exponent: all blanks, of which the last is a space, whatever
follows; or nothing in front of the end of a number. -/
def FloatEnd (b r : Bytes) : Prop :=
  Blanks b r ∧ ((∃ b', b = b' ++ b!" ") ∨ (b = [] ∧ ∃ c r', r = c :: r' ∧ c ∈ numberEnds))

theorem floatEnd_hit {b r : Bytes} (h : FloatEnd b r) (k : Ctx) (pre mid : Bytes) :
    floatTail (st k pre mid (b ++ r)) = (.ok (), st k pre (mid ++ b) r) := by
  obtain ⟨hb, h⟩ := h
  rw [floatTail_eq, hb.split.1, hb.split.2]
  rcases h with ⟨b', rfl⟩ | ⟨rfl, c, r', rfl, hc⟩
  · have := bound_hit (t := b!" ") (r := r) ⟨⟨by simp [Over, blanks], hb.2⟩, .inl ⟨[], rfl⟩⟩ k pre (mid ++ b')
    simpa using this
  · have := bound_hit (t := []) (r := c :: r') ⟨hb, .inr ⟨rfl, c, r', rfl, hc⟩⟩ k pre mid
    simpa using this

theorem floatEnd_cases (k : Ctx) (pre mid post : Bytes) : (∃ b r, post = b ++ r ∧ FloatEnd b r) ∨
    floatTail (st k pre mid post) = (.err .mismatch, st k pre [] (mid ++ post)) := by
  obtain ⟨b, r, h1, h2, h3, h4⟩ := blanks_front post
  rw [floatTail_eq, h2, h3]
  rcases List.eq_nil_or_concat b with rfl | ⟨w, x, rfl⟩
  · rcases bound_cases k pre mid r with ⟨t, r', e, hb⟩ | h
    · subst e
      obtain ⟨-, ⟨t', rfl⟩ | ⟨rfl, c, r'', rfl, hc⟩⟩ := hb
      · exact absurd (by simp [blanks]) (h4.2 0x20 (t' ++ r') rfl)
      · exact .inl ⟨[], c :: r'', h1, h4, .inr ⟨rfl, c, r'', rfl, hc⟩⟩
    · refine .inr ?_
      rw [h1]
      simpa using h
  · simp only [List.concat_eq_append] at *
    rcases bound_cases k pre (mid ++ w) (x :: r) with ⟨t, r', e, hb⟩ | h
    · obtain ⟨-, ⟨t', rfl⟩ | ⟨rfl, c, r'', rfl, hc⟩⟩ := hb
      · cases e
        exact .inl ⟨w ++ b!" ", _, h1, h4, .inl ⟨w, rfl⟩⟩
      · cases e
        exact absurd (h4.1 _ (by simp)) (end_not hc).1
    · refine .inr ?_
      rw [h1]
      simpa using h

theorem FloatEnd.notDigit {b r : Bytes} (h : FloatEnd b r) : NotFront b!"0123456789" (b ++ r) := by
  intro c r' e
  cases b with
  | nil =>
    obtain ⟨-, ⟨b', h⟩ | ⟨-, d, r'', rfl, hd⟩⟩ := h
    · simp at h
    · cases e; exact (end_not hd).2.1
  | cons x b => cases e; exact (blank_not (h.1.1 _ (by simp))).1

/-- A decimal fraction: a decimal number, a point, perhaps digits, and the blanks behind it.  The value is
the text; a fraction of a single zero is left out. -/
def Fraction (t r v : Bytes) : Prop :=
  ∃ n f b, t = n ++ b!"." ++ f ++ b ∧ Decimal n ∧ (∀ x ∈ f, x ∈ b!"0123456789") ∧ FloatEnd b r ∧
    ((f = b!"0" ∧ v = n) ∨ (f ≠ b!"0" ∧ v = n ++ b!"." ++ f))

theorem fraction_run {n f l : Bytes} (hn : Decimal n) (hf : ∀ x ∈ f, x ∈ b!"0123456789") (hl : NotFront b!"0123456789" l)
    (k : Ctx) (pre : Bytes) : float (st k pre [] (n ++ b!"." ++ f ++ l)) =
      (do floatTail; pure (if f = b!"0" then n else n ++ b!"." ++ f) : PM Bytes) (st k pre (n ++ b!"." ++ f) l) := by
  have hd : ∀ x ∈ f, isDigit x = true := fun x hx => (isDigit_mem x).2 (hf x hx)
  obtain ⟨t1, t2⟩ := takeWhile_all hd l (hl.apply fun c => (isDigit_mem c).1)
  have hasc : ∀ x ∈ n ++ b!"." ++ f, x < 0x80 := by
    intro x hx
    simp only [List.mem_append, List.mem_cons, List.not_mem_nil, or_false] at hx
    rcases hx with (h | rfl) | h
    · exact hn.ascii x h
    · decide
    · exact isDigit_ascii (hd x h)
  rw [float, show n ++ b!"." ++ f ++ l = n ++ 0x2E :: (f ++ l) by simp,
    bind_ok (numPrefix_hit hn (by rintro _ _ ⟨⟩; decide) ..), bind_ok (sym_hit ..), bind_ok (takeWhile_more0 ..), t1, t2,
    bind_ok (text_st ..), lossy_ascii _ hasc]
  obtain ⟨sg, d, h1, h2, h3, rfl⟩ := hn
  have := trim_float sg d f h1 (fun x hx => (isDigit_mem x).2 (h3 x hx)) hd
  rw [show sg ++ d ++ b!"." ++ f = sg ++ d ++ 0x2E :: f by simp, this]

/-- **C74.** `float`, with the cursor on the mark, takes exactly a decimal fraction. -/
theorem C74_float (s : Parser) (hs : s.pos ≤ s.doc.length) (he : s.eaten = s.pos) : Exact float Fraction s s := by
  refine exact_fresh ?_ ?_ s hs he
  · rintro k pre _ r v ⟨n, f, b, rfl, hn, hf, hb, hv⟩
    rw [List.append_assoc _ b r, fraction_run hn hf hb.notDigit, bind_ok (floatEnd_hit hb ..)]
    rcases hv with ⟨rfl, rfl⟩ | ⟨h, rfl⟩
    · simp
    · rw [if_neg h]; rfl
  · intro k pre post
    rcases numPrefix_cases k pre post with ⟨n, l, rfl, hn, hl⟩ | h
    · cases l with
      | nil => refine .inr ?_; rw [float, bind_ok (numPrefix_hit hn hl ..), bind_err (sym_nil ..)]; simp
      | cons c l =>
        by_cases hc : c = 0x2E
        · subst hc
          obtain ⟨f, l', rfl, -, -, h4, h5⟩ := run_front isDigit l
          have hf : ∀ x ∈ f, x ∈ b!"0123456789" := fun x hx => (isDigit_mem x).1 (h4 x hx)
          have hl' : NotFront b!"0123456789" l' := by
            intro c r e hc
            have := h5 c r e
            rw [(isDigit_mem c).2 hc] at this; cases this
          have hrun := fraction_run hn hf hl' k pre
          rcases floatEnd_cases k pre (n ++ b!"." ++ f) l' with ⟨b, r, rfl, hb⟩ | h
          · refine .inl ⟨n ++ b!"." ++ f ++ b, r, if f = b!"0" then n else n ++ b!"." ++ f, by simp, n, f, b, rfl, hn, hf, hb, ?_⟩
            split
            · exact .inl ⟨‹_›, rfl⟩
            · exact .inr ⟨‹_›, rfl⟩
          · refine .inr ?_
            rw [show n ++ 0x2E :: (f ++ l') = n ++ b!"." ++ f ++ l' by simp, hrun, bind_err h]
        · refine .inr ?_
          rw [float, bind_ok (numPrefix_hit hn hl ..), bind_err (sym_miss _ _ _ _ _ _ hc)]
    · exact .inr (by rw [float, bind_err h])

/-- A number with an exponent and the blanks behind it. -/
def Scientific (t r v : Bytes) : Prop :=
  ∃ n e es d b, t = v ++ b ∧ v = n ++ e :: es ++ d ∧ Decimal n ∧ e ∈ b!"eE" ∧ (es = [] ∨ es = b!"+" ∨ es = b!"-") ∧
    d ≠ [] ∧ (∀ x ∈ d, x ∈ b!"0123456789") ∧ FloatEnd b r

theorem sci_run {n es l : Bytes} {e : UInt8} (hn : Decimal n) (he : e ∈ b!"eE") (hes : es = [] ∨ es = b!"+" ∨ es = b!"-")
    (hl : es = [] → NotFront b!"+-" l) (k : Ctx) (pre : Bytes) : sciFloat (st k pre [] (n ++ e :: es ++ l)) =
      (do takeWhile isDigit (.more 1); let s ← text; floatTail; pure s : PM Bytes) (st k pre (n ++ e :: es) l) := by
  have hrange : takeWhile (isIn b!"+-") (.range 0 1) (st k pre (n ++ [e]) (es ++ l)) =
      (.ok (), st k pre (n ++ [e] ++ es) l) := by
    rw [takeWhile_range01]
    rcases hes with rfl | rfl | rfl
    · cases l with
      | nil => simp [headTrue]
      | cons x r =>
        have hx := hl rfl x r rfl
        have : isIn b!"+-" x = false := by
          simp only [isIn, notIn, Bool.not_not]
          rw [Bool.eq_false_iff]
          intro h
          simp only [List.contains_iff_mem] at h
          exact hx h
        simp [headTrue, this]
    · simp [headTrue, isIn, notIn]
    · simp [headTrue, isIn, notIn]
  rw [sciFloat, show n ++ e :: es ++ l = n ++ e :: (es ++ l) by simp, bind_ok (numPrefix_hit hn (by
      rintro c _ ⟨⟩
      simp only [List.mem_cons, List.not_mem_nil, or_false] at he
      rcases he with rfl | rfl <;> decide) ..),
    bind_ok (symSet_hit _ _ _ _ _ _ he), bind_ok hrange]
  simp

/-- **C74.** `sci_float`, with the cursor on the mark, takes exactly a number with an exponent. -/
theorem C74_sci_float (s : Parser) (hs : s.pos ≤ s.doc.length) (he : s.eaten = s.pos) : Exact sciFloat Scientific s s := by
  refine exact_fresh ?_ ?_ s hs he
  · rintro k pre _ r _ ⟨n, e, es, d, b, rfl, rfl, hn, he, hes, hne, hd, hb⟩
    have hasc : ∀ x ∈ n ++ e :: es ++ d, x < 0x80 := by
      intro x hx
      simp only [List.mem_append, List.mem_cons] at hx
      rcases hx with (h | rfl | h) | h
      · exact hn.ascii x h
      · simp only [List.mem_cons, List.not_mem_nil, or_false] at he
        rcases he with rfl | rfl <;> decide
      · rcases hes with rfl | rfl | rfl <;> simp at h <;> subst h <;> decide
      · exact isDigit_ascii ((isDigit_mem x).2 (hd x h))
    have hl : NotFront b!"+-" (d ++ (b ++ r)) := by
      intro c r' e hc
      cases d with
      | nil => exact hne rfl
      | cons x d =>
        cases e
        have := hd c (by simp)
        simp only [List.mem_cons, List.not_mem_nil, or_false] at hc
        rcases hc with rfl | rfl <;> (revert this; decide)
    obtain ⟨t1, t2⟩ := takeWhile_all (f := isDigit) (fun x hx => (isDigit_mem x).2 (hd x hx)) (b ++ r)
      (hb.notDigit.apply fun c => (isDigit_mem c).1)
    rw [List.append_assoc _ b r, List.append_assoc _ d, sci_run hn he hes (fun _ => hl),
      bind_ok (by rw [takeWhile_more1, t1, t2, if_neg hne]), bind_ok (text_st ..), lossy_ascii _ hasc, bind_ok (floatEnd_hit hb ..)]
    rfl
  · intro k pre post
    rcases numPrefix_cases k pre post with ⟨n, l, rfl, hn, hl⟩ | h
    · cases l with
      | nil => refine .inr ?_; rw [sciFloat, bind_ok (numPrefix_hit hn hl ..), bind_err (symSet_nil ..)]; simp
      | cons e l =>
        by_cases he : e ∈ b!"eE"
        · have hsg : ∃ es l', l = es ++ l' ∧ (es = [] ∨ es = b!"+" ∨ es = b!"-") ∧ (es = [] → NotFront b!"+-" l') := by
            cases l with
            | nil => exact ⟨[], [], rfl, .inl rfl, by rintro _ _ _ ⟨⟩⟩
            | cons c l =>
              by_cases hc : c ∈ b!"+-"
              · refine ⟨[c], l, rfl, .inr ?_, by simp⟩
                simpa using hc
              · exact ⟨[], c :: l, rfl, .inl rfl, by rintro _ _ _ ⟨⟩; exact hc⟩
          obtain ⟨es, l', rfl, hes, hl'⟩ := hsg
          obtain ⟨d, l'', rfl, t1, t2, h4, h5⟩ := run_front isDigit l'
          have hrun := sci_run hn he hes hl' k pre
          rw [show n ++ e :: (es ++ (d ++ l'')) = n ++ e :: es ++ (d ++ l'') by simp]
          by_cases hne : d = []
          · subst hne
            refine .inr ?_
            rw [hrun, bind_err (by rw [takeWhile_more1, t1, if_pos rfl])]
          · rcases floatEnd_cases k pre (n ++ e :: es ++ d) l'' with ⟨b, r, rfl, hb⟩ | h
            · exact .inl ⟨n ++ e :: es ++ d ++ b, r, n ++ e :: es ++ d, by simp, n, e, es, d, b, rfl, rfl, hn, he, hes, hne,
                fun x hx => (isDigit_mem x).1 (h4 x hx), hb⟩
            · refine .inr ?_
              rw [hrun, bind_ok (by rw [takeWhile_more1, t1, t2, if_neg hne]), bind_ok (text_st ..), bind_err h]
              simp
        · refine .inr ?_
          rw [sciFloat, bind_ok (numPrefix_hit hn hl ..), bind_err (symSet_miss _ _ _ _ _ _ he)]
    · exact .inr (by rw [sciFloat, bind_err h])

example : Fraction b!"-12.50 " b!"]" b!"-12.50" :=
  ⟨b!"-12", b!"50", b!" ", rfl, ⟨b!"-", b!"12", .inr rfl, by simp, by decide, rfl⟩, by decide,
    ⟨⟨by simp [Over, blanks], by rintro _ _ ⟨⟩; decide⟩, .inl ⟨[], rfl⟩⟩, .inr ⟨by decide, rfl⟩⟩

example : Scientific b!"6e+23" b!", " b!"6e+23" :=
  ⟨b!"6", 0x65, b!"+", b!"23", [], rfl, rfl, ⟨[], b!"6", .inl rfl, by simp, by decide, rfl⟩, by decide, .inr (.inl rfl),
    by simp, by decide, ⟨⟨by simp [Over], by rintro _ _ ⟨⟩; decide⟩, .inr ⟨rfl, 0x2C, b!" ", rfl, by decide⟩⟩⟩

/-! ## C75: indentation, chomping -/

/-- The indentation table for a level: as long as the level asks, the missing steps are of two spaces. -/
def TableFor (level : Nat) (old new : List Nat) : Prop :=
  new.length = level + 1 ∧ ∀ i (h : i < new.length), new[i] = (old[i]?).getD 2

theorem tableFor_unique {level : Nat} {old new : List Nat} (h : TableFor level old new) : new = indentFor level old := by
  refine List.ext_getElem (by rw [h.1, indentFor_len]) fun i h1 h2 => ?_
  rw [h.2 i h1]
  unfold indentFor
  rw [h.1] at h1
  split
  · by_cases h3 : i < old.length
    · rw [List.getElem_append_left h3]; simp [h3]
    · rw [List.getElem_append_right (by omega)]; simp [h3]
  · rw [List.getElem_take]
    have : i < old.length := by omega
    simp [this]

/-- **C75.** `ind(level)` takes exactly as many spaces as the steps up to the level ask for, and no byte more;
if there are fewer, it is a mismatch and the cursor is back on the mark.  In both cases the table is then
the one of the level. -/
theorem C75_ind (level : Nat) (s : Parser) (hs : InOrder s) (tbl : List Nat) (ht : TableFor level s.indent tbl) :
    (∀ r, s.doc.drop s.pos = List.replicate tbl.sum 0x20 ++ r →
      ind level s = (.ok (), { moved s tbl.sum with indent := tbl })) ∧
    ((∀ r, s.doc.drop s.pos ≠ List.replicate tbl.sum 0x20 ++ r) →
      ind level s = (.err .mismatch, { atMark s with indent := tbl })) := by
  have ht := tableFor_unique ht
  subst ht
  obtain ⟨k, pre, mid, post, rfl⟩ := exists_st s hs.1 hs.2
  rw [drop_st, ind_eq]
  clear ht hs
  rw [st_indent]
  refine ⟨?_, fun h => ?_⟩
  · rintro r rfl
    rw [if_pos]
    · simp [st, Ctx.at, Ctx.want, spaces, moved, Nat.add_assoc]
    · exact List.isPrefixOf_iff_prefix.2 ⟨r, rfl⟩
  · rw [if_neg]
    · simp [st, Ctx.at, atMark]
    · intro h'
      obtain ⟨r, rfl⟩ := List.isPrefixOf_iff_prefix.1 h'
      exact h r rfl

/-- White space, as much as there is. -/
def Whites (t r : Bytes) : Prop := Over whites t ∧ NotFront whites r

theorem Whites.split {t r : Bytes} (h : Whites t r) :
    (t ++ r).takeWhile isAsciiWs = t ∧ (t ++ r).dropWhile isAsciiWs = r :=
  takeWhile_all (fun c hc => (isWs_mem c).2 (h.1 c hc)) r (h.2.apply fun c => (isWs_mem c).1)

/-- **C75.** `ind_define(0)` takes all white space, line breaks included, and makes its length the first step;
later steps are kept. -/
theorem C75_ind_define_root (s : Parser) (hs : InOrder s) (t r : Bytes) (he : s.doc.drop s.pos = t ++ r) (h : Whites t r) :
    indDefine 0 s = (.ok (), { moved s t.length with indent := t.length :: s.indent.drop 1 }) := by
  obtain ⟨k, pre, mid, post, rfl⟩ := exists_st s hs.1 hs.2
  rw [drop_st] at he
  subst he
  rw [moved_st, indDefine]
  simp only [gt_iff_lt, Nat.lt_irrefl, decide_false, runIf_false]
  rw [bind_ok (pure_run ..), bind_ok (count_more0 ..), h.split.1, h.split.2, bind_ok (get_run _)]
  cases hk : k.indent with
  | nil => simp [st, hk, M.modify]
  | cons x xs => simp [st, hk, M.modify]

/-- **C75.** `ind_define(level + 1)`: the spaces of the level, then all white space, whose length is the step
of the next level; deeper steps are forgotten.  It never goes out of the table. -/
theorem C75_ind_define (level : Nat) (s : Parser) (hs : InOrder s) (tbl : List Nat) (ht : TableFor level s.indent tbl) :
    (∀ t r, s.doc.drop s.pos = List.replicate tbl.sum 0x20 ++ t ++ r → Whites t r →
      indDefine (level + 1) s = (.ok (), { moved s (tbl.sum + t.length) with indent := tbl ++ [t.length] })) ∧
    ((∀ r, s.doc.drop s.pos ≠ List.replicate tbl.sum 0x20 ++ r) →
      indDefine (level + 1) s = (.err .mismatch, { atMark s with indent := tbl })) := by
  obtain ⟨h1, h2⟩ := C75_ind level s hs tbl ht
  have hd : decide (level + 1 > 0) = true := by simp
  refine ⟨fun t r e hw => ?_, fun h => ?_⟩
  · rw [indDefine, hd, runIf_true, Nat.add_sub_cancel, bind_ok (h1 (t ++ r) (by rw [e, List.append_assoc]))]
    obtain ⟨k, pre, mid, post, rfl⟩ := exists_st s hs.1 hs.2
    rw [drop_st] at e
    subst e
    have he : ({ moved (st k pre mid (List.replicate tbl.sum 0x20 ++ t ++ r)) tbl.sum with indent := tbl } : Parser) =
        st { k with indent := tbl } pre (mid ++ List.replicate tbl.sum 0x20) (t ++ r) := by
      simp [st, moved, Nat.add_assoc]
    rw [he, bind_ok (count_more0 ..), hw.split.1, hw.split.2, bind_ok (get_run _)]
    simp [st, ht.1, M.modify, moved, Nat.add_assoc]
  · rw [indDefine, hd, runIf_true, Nat.add_sub_cancel, bind_err (h2 h)]

/-- What the chomping sign says of the end of a block text: `-` drops all white space at the end, `+` keeps it,
nothing leaves one line break. -/
inductive Chomped : Bytes → Bytes → (Bytes → Bytes) → Prop
  | strip (r : Bytes) : Chomped b!"-" r trimEnd
  | keep (r : Bytes) : Chomped b!"+" r id
  | clip (r : Bytes) (h : NotFront b!"+-" r) : Chomped [] r fun v => trimEnd v ++ b!"\n"

/-- **C75.** `chomp` takes at most its sign, never fails, and returns the function of the sign. -/
theorem C75_chomp (s : Parser) (hs : InOrder s) (t r : Bytes) (f : Bytes → Bytes) (he : s.doc.drop s.pos = t ++ r)
    (h : Chomped t r f) : ∃ c, chomp s = (.ok c, moved s t.length) ∧ c.apply = f := by
  obtain ⟨k, pre, mid, post, rfl⟩ := exists_st s hs.1 hs.2
  rw [drop_st] at he
  subst he
  rw [moved_st]
  cases h with
  | strip =>
    refine ⟨.strip, ?_, rfl⟩
    rw [chomp, context_st (o := .ok .strip) (p' := []) (m' := b!"-") (post' := r) (k' := k)]
    · simp
    · rw [show b!"-" ++ r = 0x2D :: r from rfl, bind_ok (isOk_ok (sym_hit ..))]; simp
  | keep =>
    refine ⟨.keep, ?_, rfl⟩
    rw [chomp, context_st (o := .ok .keep) (p' := []) (m' := b!"+") (post' := r) (k' := k)]
    · simp
    · rw [show b!"+" ++ r = 0x2B :: r from rfl, bind_ok (isOk_err (sym_miss _ _ _ _ _ _ (by decide)))]
      simp only [Bool.false_eq_true, if_false, List.nil_append]
      rw [bind_ok (isOk_ok (sym_hit ..))]; simp
  | clip _ h =>
    refine ⟨.clip, ?_, rfl⟩
    rw [chomp, context_st (o := .ok .clip) (p' := []) (m' := []) (post' := r) (k' := k)]
    · simp
    · cases r with
      | nil =>
        rw [List.append_nil, bind_ok (isOk_err (sym_nil ..))]
        simp only [Bool.false_eq_true, if_false]
        rw [bind_ok (isOk_err (sym_nil ..))]; simp
      | cons c r =>
        have hc := h c r rfl
        rw [List.nil_append, bind_ok (isOk_err (sym_miss _ _ _ _ _ _ (by rintro rfl; exact hc (by decide))))]
        simp only [Bool.false_eq_true, if_false, List.nil_append]
        rw [bind_ok (isOk_err (sym_miss _ _ _ _ _ _ (by rintro rfl; exact hc (by decide))))]; simp

example : TableFor 2 [0, 4] [0, 4, 2] := ⟨rfl, by decide⟩
example : TableFor 0 [0, 4] [0] := ⟨rfl, by decide⟩

end YamlPeg.Props
