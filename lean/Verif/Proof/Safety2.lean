import Verif.Proof.Zip2
/-! # Safety of the grammar methods -/

namespace YamlPeg
open M Frame

theorem mapGet_mapInsert {V : Type} (k k' : Bytes) (v : V) (m : List (Bytes × V)) :
    mapGet k' (mapInsert k v m) = if k' = k then some v else mapGet k' m := by
  induction m with
  | nil => simp [mapInsert, mapGet]
  | cons e r ih =>
    obtain ⟨a, b⟩ := e
    simp only [mapInsert]
    split
    · rename_i h
      have h : k = a := by simpa using h
      subst h
      by_cases h' : k' = k <;> simp [mapGet, h']
    · split
      · by_cases h' : k' = k <;> simp [mapGet, h']
      · rename_i h _
        have h : k ≠ a := by simpa using h
        by_cases h' : k' = k
        · subst h'
          simp only [mapGet, ih]
          simp [h]
        · simp only [mapGet, ih, h', if_false]

section
variable {c : PCfg} {α : Type}

theorem PWF.exists_st {s : Parser} (h : PWF c s) : ∃ k pre mid post, s = st k pre mid post :=
  YamlPeg.exists_st s h.eaten (by rw [h.doc]; exact h.pos)

theorem PWF.move {k : Ctx} {pre mid post mid' post' : Bytes} (h : PWF c (st k pre mid post))
    (e : mid' ++ post' = mid ++ post) : PWF c (st k pre mid' post') := by
  have hd : pre ++ (mid ++ post) = c.doc := h.doc
  refine ⟨?_, h.consumed, h.lo, ?_, ?_, h.indent, h.tag1, h.tag2⟩
  · show pre ++ (mid' ++ post') = c.doc
    rw [e]; exact hd
  · simp
  · rw [← hd, ← e]; simp

theorem gap_pk {cmt : Bool} : (PK c).Holds (gap cmt) (fun _ => True) := by
  intro s hs
  obtain ⟨k, pre, mid, post, rfl⟩ := PWF.exists_st hs
  rw [gap_eq]
  cases hg : gapSpec cmt post with
  | none =>
    refine ⟨PWF.move hs ?_, rfl, trivial⟩
    rw [List.append_assoc, gapLead_append]
  | some q =>
    obtain ⟨t, taken, left⟩ := q
    refine ⟨PWF.move hs ?_, rfl, trivial⟩
    simp only [gapSpec] at hg
    split at hg
    · simp at hg
    · simp only [Option.some.injEq, Prod.mk.injEq] at hg
      obtain ⟨-, h2, h3⟩ := hg
      rw [← h2, ← h3]
      simp only [List.append_assoc, gapMore_append, List.take_append_drop, gapLead_append]

/-- The first byte exists and is in the set. -/
def headIn (set : Bytes) : Bytes → Bool
  | [] => false
  | x :: _ => set.contains x

/-- Exact behaviour of `bound`. -/
theorem bound_eq (k : Ctx) (pre mid post : Bytes) : bound (st k pre mid post) =
    if headIn b!":{}[] ,\n\r" post then
      (.ok (), st k pre (mid ++ post.takeWhile isBlank) (post.dropWhile isBlank))
    else (.err .mismatch, st k pre [] (mid ++ post)) := by
  cases post with
  | nil => simp [bound, bind_run, headIn]
  | cons x r =>
    have hb : back 1 (st k pre (mid ++ [x]) r) = (.ok (), st k pre mid (x :: r)) := by
      simp [back, st]
    by_cases hx : x ∈ b!":{}[] ,\n\r"
    · rw [bound, bind_ok (symSet_hit _ _ _ _ _ _ hx), bind_ok hb, ws_st]
      simp only [headIn, List.contains_iff_mem.2 hx, if_true]
    · rw [bound, bind_err (symSet_miss _ _ _ _ _ _ hx)]
      have : (b!":{}[] ,\n\r").contains x = false := by simpa using hx
      simp only [headIn, this, Bool.false_eq_true, if_false]

theorem bound_pk : (PK c).Holds bound (fun _ => True) := by
  intro s hs
  obtain ⟨k, pre, mid, post, rfl⟩ := PWF.exists_st hs
  rw [bound_eq]
  split
  · exact ⟨PWF.move hs (by rw [List.append_assoc, List.takeWhile_append_dropWhile]), rfl, trivial⟩
  · exact ⟨PWF.move hs (by simp), rfl, trivial⟩

theorem complexMapping_pk : (PK c).Holds complexMapping (fun _ => True) :=
  Holds.bind sym_pk fun _ _ => bound_pk

theorem numPrefix_pk : (PK c).Holds numPrefix (fun _ => True) :=
  Holds.bind (V := fun _ => True) (Holds.orDefault sym_pk trivial) fun _ _ => takeWhile_pk

theorem octal_pk : (PK c).Holds octal (fun _ => True) :=
  Holds.bind sym_pk fun _ _ => takeWhile_pk
theorem hexadecimal_pk : (PK c).Holds hexadecimal (fun _ => True) :=
  Holds.bind sym_pk fun _ _ => takeWhile_pk

theorem octalOrHex_pk : (PK c).Holds octalOrHex (fun _ => True) :=
  Holds.bind (isOk_pk octal_pk) fun _ _ =>
    Holds.ite (fun _ => Holds.pure trivial) fun _ => isOk_pk hexadecimal_pk

theorem int_pk : (PK c).Holds int (fun _ => True) := by
  refine Holds.bind numPrefix_pk fun _ _ => Holds.bind text_pk fun s _ => ?_
  refine Holds.bind (V := fun _ => True) ?_ fun _ _ => Holds.bind ws_pk fun _ _ =>
    Holds.bind bound_pk fun _ _ => Holds.pure trivial
  refine Holds.ite (fun _ => ?_) fun _ => Holds.pure trivial
  refine Holds.bind (context_pk (pk_pf octalOrHex_pk)) fun _ _ => ?_
  exact Holds.ite (fun _ => text_pk) fun _ => Holds.pure trivial

theorem count_more0 (f : UInt8 → Bool) (k : Ctx) (pre mid post : Bytes) :
    count (takeWhile f (.more 0)) (st k pre mid post) =
      (.ok (post.takeWhile f).length, st k pre (mid ++ post.takeWhile f) (post.dropWhile f)) := by
  rw [count, bind_ok (get_run _), bind_ok (takeWhile_more0 ..), bind_ok (get_run _)]
  have h1 : (st k pre mid post).pos ≤
      (st k pre (mid ++ post.takeWhile f) (post.dropWhile f)).pos := by simp
  rw [if_pos h1]
  simp only [pure_run, st_pos, List.length_append]
  congr 2; omega

/-- Exact behaviour of the end of a float. -/
theorem floatTail_eq (k : Ctx) (pre mid post : Bytes) : floatTail (st k pre mid post) =
    bound (st k pre (mid ++ (post.takeWhile isBlank).dropLast)
      (((post.takeWhile isBlank).getLast?.toList) ++ post.dropWhile isBlank)) := by
  rw [floatTail, bind_ok (show count (ws (.more 0)) _ = _ from count_more0 isBlank ..)]
  rcases List.eq_nil_or_concat (post.takeWhile isBlank) with hw | ⟨w, x, hw⟩
  · simp [hw, runIf, bind_run]
  · simp only [List.concat_eq_append] at hw
    simp only [hw]
    have h2 : decide ((w ++ [x]).length > 0) = true := by simp
    rw [h2, runIf_true]
    have : back 1 (st k pre (mid ++ (w ++ [x])) (post.dropWhile isBlank)) =
        (.ok (), st k pre (mid ++ w) (x :: post.dropWhile isBlank)) := by
      have h1 : 1 ≤ pre.length + (mid.length + (w.length + 1)) := by omega
      simp [back, st, h1]
      omega
    rw [bind_ok this]
    simp

theorem floatTail_pk : (PK c).Holds floatTail (fun _ => True) := by
  intro s hs
  obtain ⟨k, pre, mid, post, rfl⟩ := PWF.exists_st hs
  rw [floatTail_eq]
  refine bound_pk _ (PWF.move hs ?_)
  rcases List.eq_nil_or_concat (post.takeWhile isBlank) with hw | ⟨w, x, hw⟩
  · have := List.takeWhile_append_dropWhile (p := isBlank) (l := post)
    simp only [hw] at this ⊢
    simpa using this
  · have := List.takeWhile_append_dropWhile (p := isBlank) (l := post)
    simp only [List.concat_eq_append] at hw
    rw [hw] at this ⊢
    conv => rhs; rw [← this]
    simp

theorem float_pk : (PK c).Holds float (fun _ => True) :=
  Holds.bind numPrefix_pk fun _ _ => Holds.bind sym_pk fun _ _ => Holds.bind takeWhile_pk fun _ _ =>
    Holds.bind text_pk fun _ _ => Holds.bind floatTail_pk fun _ _ => Holds.pure trivial

theorem sciFloat_pk : (PK c).Holds sciFloat (fun _ => True) :=
  Holds.bind numPrefix_pk fun _ _ => Holds.bind symSet_pk fun _ _ => Holds.bind takeWhile_pk fun _ _ =>
    Holds.bind takeWhile_pk fun _ _ => Holds.bind text_pk fun _ _ =>
    Holds.bind floatTail_pk fun _ _ => Holds.pure trivial

theorem quotedLoop_pf (hd : c.div) {q : UInt8} {ig : Bytes} {n : Nat} {v : Bytes} :
    (PF c).Holds (quotedLoop q ig n v) (fun _ => True) := by
  induction n generalizing v with
  | zero => exact Holds.diverge hd
  | succ n ih =>
    refine Holds.bind forward_pf fun _ _ => Holds.bind (pk_pf takeWhile_pk) fun _ _ =>
      Holds.bind (pk_pf text_pk) fun _ _ => Holds.bind forward_pf fun _ _ =>
      Holds.bind (pk_pf (isOk_pk symSeq_pk)) fun _ _ => Holds.ite (fun _ => ih) fun _ => ?_
    refine Holds.bind (V := fun _ => True)
      (Holds.try? (V := fun _ => True) (pk_pf gap_pk) (fun _ _ => trivial) trivial) fun o _ => ?_
    cases o with
    | some t => exact Holds.bind (pk_pf ws_pk) fun _ _ => ih
    | none =>
      refine Holds.bind (pk_pf (isOk_pk sym_pk)) fun _ _ => Holds.ite (fun _ => ih) fun _ => ?_
      exact Holds.bind (pk_pf (isOk_pk sym_pk)) fun _ _ =>
        Holds.ite (fun _ => Holds.pure trivial) fun _ => ih

theorem stringQuoted_pk (hd : c.div) {n : Nat} {q : UInt8} {ig : Bytes} :
    (PK c).Holds (stringQuoted n q ig) (fun _ => True) :=
  context_pk (Holds.bind (pk_pf sym_pk) fun _ _ => Holds.bind forward_pf fun _ _ =>
    Holds.bind (pk_pf ws_pk) fun _ _ => Holds.bind (pk_pf text_pk) fun _ _ => quotedLoop_pf hd)

theorem plainStop_pk : (PK c).Holds plainStop (fun _ => True) := by
  refine Holds.bind food_pk fun _ _ => Holds.ite (fun _ => Holds.pure trivial) fun _ => ?_
  refine Holds.bind (isOk_pk symSeq_pk) fun _ _ => Holds.ite (fun _ => Holds.pure trivial) fun _ => ?_
  refine Holds.bind (V := fun _ => True) ?_ fun _ _ => Holds.ite (fun _ => Holds.pure trivial)
    fun _ => isOk_pk symSeq_pk
  exact Holds.bind (isOk_pk sym_pk) fun _ _ => Holds.ite (fun _ => isOk_pk nl_pk)
    fun _ => Holds.pure trivial

theorem plainLoop_pf (hd : c.div) {level : Nat} {inner : Bool} {patt : Bytes} {n : Nat} {v : Bytes}
    {lead : Bool} : (PF c).Holds (plainLoop level inner patt n v lead) (fun _ => True) := by
  induction n generalizing v lead with
  | zero => exact Holds.diverge hd
  | succ n ih =>
    refine Holds.bind forward_pf fun _ _ => Holds.bind (pk_pf takeWhile_pk) fun _ _ =>
      Holds.bind (pk_pf text_pk) fun _ _ => Holds.bind forward_pf fun _ _ =>
      Holds.bind (pk_pf plainStop_pk) fun _ _ => Holds.ite (fun _ => ?_) fun _ => ?_
    · exact Holds.bind (pk_pf backward_pk) fun _ _ => Holds.pure trivial
    refine Holds.bind forward_pf fun _ _ => Holds.bind (pk_pf (isOk_pk symSet_pk)) fun _ _ =>
      Holds.ite (fun _ => Holds.bind (pk_pf text_pk) fun _ _ => ih) fun _ => ?_
    refine Holds.bind (V := fun _ => True) (Holds.ite (fun _ => pk_pf (isOk_pk symSet_pk))
      fun _ => Holds.pure trivial) fun _ _ => Holds.ite
      (fun _ => Holds.bind (pk_pf text_pk) fun _ _ => ih) fun _ => ?_
    refine Holds.bind (pk_pf (isOk_pk ind_pk)) fun _ _ => Holds.ite (fun _ => ih) fun _ => ?_
    refine Holds.bind (V := fun _ => True)
      (Holds.try? (V := fun _ => True) (pk_pf gap_pk) (fun _ _ => trivial) trivial) fun o _ => ?_
    cases o with
    | some t =>
      refine Holds.bind (pk_pf (isOk_pk ind_pk)) fun _ _ => ?_
      exact Holds.ite (fun _ => ih) fun _ => Holds.pure trivial
    | none => exact Holds.pure trivial

theorem stringPlain_pk (hd : c.div) {n level : Nat} {inner : Bool} :
    (PK c).Holds (stringPlain n level inner) (fun _ => True) :=
  context_pk (Holds.bind (plainLoop_pf hd) fun _ _ =>
    Holds.ite (fun _ => pk_pf mismatch_pk) fun _ => Holds.pure trivial)

/-- The same parameters with another lower bound of the mark. -/
def PCfg.withLo (c : PCfg) (lo : Nat) : PCfg := { c with lo := lo }

theorem PWF.withLo {s : Parser} {lo : Nat} (h : PWF c s) (hl : lo ≤ s.eaten) :
    PWF (c.withLo lo) s :=
  ⟨h.doc, h.consumed, hl, h.eaten, h.pos, h.indent, h.tag1, h.tag2⟩

theorem PWF.ofLo {s : Parser} {lo : Nat} (h : PWF (c.withLo lo) s) (hl : c.lo ≤ lo) :
    PWF c s :=
  ⟨h.doc, h.consumed, Nat.le_trans hl h.lo, h.eaten, h.pos, h.indent, h.tag1, h.tag2⟩

/-- A successful `nl` moves the cursor. -/
theorem nl_ok_pos {s s' : Parser} {a : Unit} (hs : PWF c s) (h : nl s = (.ok a, s')) :
    s.pos + 1 ≤ s'.pos := by
  obtain ⟨k, pre, mid, post, rfl⟩ := PWF.exists_st hs
  rw [nl_eq] at h
  split at h
  · simp at h
  · simp only [Prod.mk.injEq, true_and] at h
    subst h
    simp only [st_pos, List.length_append, List.length_take]
    have := nlLen_le post
    omega

theorem wrappedLoop_spec (n : Nat) : ∀ (c : PCfg), c.doc.length - c.lo < n →
    ∀ (level : Nat) (sep : UInt8) (leading : Bool) (v : Bytes) (s : Parser), PWF c s →
      PWF c (wrappedLoop level sep leading n v s).2 ∧
      s.eaten ≤ (wrappedLoop level sep leading n v s).2.eaten ∧
      (PF c).OutOk (fun _ => True) (wrappedLoop level sep leading n v s).2
        (wrappedLoop level sep leading n v s).1 ∧
      (∀ r, (wrappedLoop level sep leading n v s).1 = .ok r →
        s.pos + 1 ≤ (wrappedLoop level sep leading n v s).2.eaten) := by
  induction n with
  | zero => intro c h; omega
  | succ n ih =>
    intro c hn level sep leading v s hs
    have hnl := nl_pk (c := c) s hs
    rcases hr : nl s with ⟨r, s1⟩
    rw [hr] at hnl
    obtain ⟨w1, r1, o1⟩ := hnl
    cases r with
    | panic p => rw [wrappedLoop, bind_panic hr]; exact ⟨w1, Nat.le_of_eq (Eq.symm r1), o1, by simp⟩
    | diverge => rw [wrappedLoop, bind_diverge hr]; exact ⟨w1, Nat.le_of_eq (Eq.symm r1), o1, by simp⟩
    | err e => rw [wrappedLoop, bind_err hr]; exact ⟨w1, Nat.le_of_eq (Eq.symm r1), o1, by simp⟩
    | ok a =>
      have hp := nl_ok_pos hs hr
      have w1 : PWF c s1 := w1
      have hlo := hs.lo
      have hea := hs.eaten
      have hp1 := w1.pos
      let c' := c.withLo (s.pos + 1)
      have hn' : c'.doc.length - c'.lo < n := by
        show c.doc.length - (s.pos + 1) < n
        omega
      have w2 : PWF c' { s1 with eaten := s1.pos } :=
        ⟨w1.doc, w1.consumed, hp, Nat.le_refl _, w1.pos, w1.indent, w1.tag1, w1.tag2⟩
      have htail : ∀ x, (PF c').Holds (wrappedLoop level sep leading n x) (fun _ => True) := by
        intro x s' hs'
        obtain ⟨a1, a2, a3, -⟩ := ih c' hn' level sep leading x s' hs'
        exact ⟨a1, a2, a3⟩
      have hline : ∀ x, (PF c').Holds (do
          forward
          takeWhile (notIn b!"\n\r") (.more 0)
          let s ← text
          wrappedLoop level sep leading n (wrappedPush sep leading x s)) (fun _ => True) :=
        fun x => Holds.bind forward_pf fun _ _ => Holds.bind (pk_pf takeWhile_pk) fun _ _ =>
          Holds.bind (pk_pf text_pk) fun _ _ => htail _
      have hbody : (PF c').Holds (do
          if ← isOk (ind level) then (do
            forward
            takeWhile (notIn b!"\n\r") (.more 0)
            let s ← text
            wrappedLoop level sep leading n (wrappedPush sep leading v s))
          else match ← try? (gap false) with
            | some t =>
              let v := v ++ List.replicate t 0x0A
              if ← isOk (ind level) then (do
                forward
                takeWhile (notIn b!"\n\r") (.more 0)
                let s ← text
                wrappedLoop level sep leading n (wrappedPush sep leading v s)) else pure v
            | none => pure v) (fun _ => True) := by
        refine Holds.bind (pk_pf (isOk_pk ind_pk)) fun _ _ => Holds.ite (fun _ => hline _) fun _ => ?_
        refine Holds.bind (V := fun _ => True)
          (Holds.try? (V := fun _ => True) (pk_pf gap_pk) (fun _ _ => trivial) trivial) fun o _ => ?_
        cases o with
        | some t =>
          refine Holds.bind (pk_pf (isOk_pk ind_pk)) fun _ _ => ?_
          exact Holds.ite (fun _ => hline _) fun _ => Holds.pure trivial
        | none => exact Holds.pure trivial
      obtain ⟨b1, b2, b3⟩ := hbody _ w2
      have b1 : PWF c' _ := b1
      have b2 : s1.pos ≤ _ := b2
      rw [wrappedLoop, bind_ok hr]
      refine ⟨PWF.ofLo b1 ?_, ?_, b3, fun _ _ => ?_⟩
      · show c.lo ≤ s.pos + 1
        omega
      · exact Nat.le_trans (show s.eaten ≤ s1.pos by omega) b2
      · exact Nat.le_trans hp b2

theorem stringWrapped_pk {level : Nat} {sep : UInt8} {leading : Bool} :
    (PK c).Holds (stringWrapped level sep leading) (fun _ => True) := by
  intro s hs
  have hea := hs.eaten
  have hlo := hs.lo
  let c' := c.withLo s.pos
  have hs' : PWF c' { s with eaten := s.pos } :=
    ⟨hs.doc, hs.consumed, Nat.le_refl _, Nat.le_refl _, hs.pos, hs.indent, hs.tag1, hs.tag2⟩
  have hlen : c'.doc.length - c'.lo < ({ s with eaten := s.pos } : Parser).rest.length + 1 := by
    show c.doc.length - s.pos < (s.doc.drop s.pos).length + 1
    rw [hs.doc]; simp
  obtain ⟨w, e, o, p⟩ := wrappedLoop_spec _ c' hlen level sep leading [] _ hs'
  simp only [stringWrapped, context, bind_run, get_run]
  rcases hr : wrappedLoop level sep leading (({ s with eaten := s.pos } : Parser).rest.length + 1) []
    { s with eaten := s.pos } with ⟨r, s1⟩
  rw [hr] at w e o p
  have hgen : ∀ q, s.pos ≤ q → q ≤ c.doc.length →
      PWF c { s1 with eaten := s.eaten, pos := q } := fun q h1 h2 =>
    ⟨w.doc, w.consumed, hlo, Nat.le_trans hea h1, h2, w.indent, w.tag1, w.tag2⟩
  have e : s.pos ≤ s1.eaten := e
  have w2 : s1.eaten ≤ s1.pos := w.eaten
  have w3 : s1.pos ≤ c.doc.length := w.pos
  cases r with
  | panic x => exact ⟨hgen s1.pos (by omega) w3, rfl, o⟩
  | diverge => exact ⟨hgen s1.pos (by omega) w3, rfl, o⟩
  | err x => exact ⟨hgen s1.pos (by omega) w3, rfl, o⟩
  | ok v =>
    have p : s.pos + 1 ≤ s1.eaten := p v rfl
    have h1 : 1 ≤ s1.pos := by omega
    simp only [back, h1, if_true, pure_run]
    exact ⟨hgen (s1.pos - 1) (by omega) (by omega), rfl, trivial⟩

theorem chomp_pk : (PK c).Holds chomp (fun _ => True) :=
  context_pk (Holds.bind (pk_pf (isOk_pk sym_pk)) fun _ _ => Holds.ite (fun _ => Holds.pure trivial)
    fun _ => Holds.bind (pk_pf (isOk_pk sym_pk)) fun _ _ => Holds.ite (fun _ => Holds.pure trivial)
    fun _ => Holds.pure trivial)

theorem stringLiteral_pk {level : Nat} : (PK c).Holds (stringLiteral level) (fun _ => True) :=
  Holds.bind sym_pk fun _ _ => Holds.bind chomp_pk fun _ _ => Holds.bind ws_pk fun _ _ =>
    Holds.bind stringWrapped_pk fun _ _ => Holds.pure trivial

theorem stringFolded_pk {level : Nat} : (PK c).Holds (stringFolded level) (fun _ => True) :=
  Holds.bind sym_pk fun _ _ => Holds.bind chomp_pk fun _ _ => Holds.bind ws_pk fun _ _ =>
    Holds.bind stringWrapped_pk fun _ _ => Holds.pure trivial

theorem identifier_pk : (PK c).Holds identifier (fun _ => True) :=
  Holds.bind takeWhile_pk fun _ _ => takeWhile_pk

theorem tagLookup_pk {key : Bytes} (h : c.X .tagHandle ∨ key = b!"!" ∨ key = b!"!!") :
    (PK c).Holds (tagLookup key) (fun _ => True) := by
  intro s hs
  simp only [tagLookup]
  cases hg : mapGet key s.tag with
  | some v => exact ⟨hs, rfl, trivial⟩
  | none =>
    refine ⟨hs, rfl, ?_⟩
    rcases h with h | h | h
    · exact h
    · subst h; have := hs.tag1; simp [hg] at this
    · subst h; have := hs.tag2; simp [hg] at this

theorem tagPrefixPart_pk {handle : Bytes} (h : c.X .tagHandle) :
    (PK c).Holds (tagPrefixPart handle) (fun _ => True) := by
  refine Holds.ite (fun _ => ?_) fun _ => ?_
  · exact Holds.bind (isOk_pk sym_pk) fun _ _ => Holds.ite (fun _ => tagLookup_pk (.inl h))
      fun _ => Holds.pure trivial
  · refine Holds.bind (isOk_pk sym_pk) fun _ _ => Holds.ite (fun _ => ?_) fun _ => ?_
    · refine Holds.bind (context_pk (pk_pf (Holds.bind takeWhile_pk fun _ _ => text_pk))) fun _ _ => ?_
      exact Holds.bind sym_pk fun _ _ => Holds.pure trivial
    · exact Holds.bind (isOk_pk sym_pk) fun _ _ => Holds.ite
        (fun _ => tagLookup_pk (.inr (.inr rfl))) fun _ => tagLookup_pk (.inr (.inl rfl))

theorem tag_pk (h : c.X .tagHandle) : (PK c).Holds tag (fun _ => True) := by
  refine Holds.bind sym_pk fun _ _ => context_pk (pk_pf ?_)
  refine Holds.bind (V := fun _ => True) (Holds.orDefault identifier_pk trivial) fun _ _ =>
    Holds.bind text_pk fun _ _ => Holds.bind (tagPrefixPart_pk h) fun _ _ => ?_
  refine Holds.bind (V := fun _ => True) (context_pk (pk_pf ?_)) fun _ _ => Holds.pure trivial
  exact Holds.bind (isOk_pk identifier_pk) fun _ _ => Holds.ite (fun _ => text_pk)
    fun _ => Holds.pure trivial

theorem anchor_pk : (PK c).Holds anchor (fun _ => True) :=
  Holds.bind sym_pk fun _ _ => context_pk (pk_pf (Holds.bind identifier_pk fun _ _ => text_pk))
theorem anchorUse_pk : (PK c).Holds anchorUse (fun _ => True) :=
  Holds.bind sym_pk fun _ _ => context_pk (pk_pf (Holds.bind identifier_pk fun _ _ => text_pk))

/-- `ind level` leaves exactly `level + 1` entries in the indent table. -/
theorem ind_indent (level : Nat) (s : Parser) :
    (ind level s).2.indent = indentFor level s.indent := by
  have hsym : ∀ (x : UInt8) (s : Parser), (sym x s).2.indent = s.indent := by
    intro x s
    simp only [sym, symSet, takeWhile]
    split
    · split
      · split <;> rfl
      · split
        · split <;> rfl
        · rfl
    · rfl
  have : ∀ (m : Nat) (s : Parser), (symTimes 0x20 m s).2.indent = s.indent := by
    intro m
    induction m with
    | zero => intro s; rfl
    | succ m ih =>
      intro s
      have h1 := hsym 0x20 s
      simp only [symTimes, bind_run]
      rcases hr : sym 0x20 s with ⟨r, s'⟩
      rw [hr] at h1
      cases r <;> simp_all
  simp only [ind, bind_run, modify_run, get_run, this]

/-- `ind_define` behind its call of `ind`. -/
def defineTail (level : Nat) : PM Unit := do
  let n ← count (takeWhile isAsciiWs (.more 0))
  let s ← get
  if level = s.indent.length then
    modify fun s => { s with indent := s.indent ++ [n] }
  else if level < s.indent.length then
    modify fun s => { s with indent := s.indent.set level n }
  else M.panic .index

theorem indDefine_pk {level : Nat} : (PK c).Holds (indDefine level) (fun _ => True) := by
  have tail : ∀ s, PWF c s → level ≤ s.indent.length →
      PWF c (defineTail level s).2 ∧ (defineTail level s).2.eaten = s.eaten ∧
      (PK c).OutOk (fun _ => True) (defineTail level s).2 (defineTail level s).1 := by
    intro s hs hl
    obtain ⟨k, pre, mid, post, rfl⟩ := PWF.exists_st hs
    simp only [defineTail, bind_run, count_more0, get_run]
    have hm : PWF c (st k pre (mid ++ post.takeWhile isAsciiWs) (post.dropWhile isAsciiWs)) :=
      PWF.move hs (by rw [List.append_assoc, List.takeWhile_append_dropWhile])
    simp only [st_indent] at hl
    have hne : k.indent ≠ [] := hs.indent
    by_cases h1 : level = k.indent.length
    · have h1' : level = (st k pre (mid ++ post.takeWhile isAsciiWs)
        (post.dropWhile isAsciiWs)).indent.length := h1
      rw [if_pos h1']
      exact ⟨⟨hm.doc, hm.consumed, hm.lo, hm.eaten, hm.pos, by simp, hm.tag1, hm.tag2⟩, rfl, trivial⟩
    · have h2 : level < k.indent.length := by omega
      have h1' : ¬ level = (st k pre (mid ++ post.takeWhile isAsciiWs)
        (post.dropWhile isAsciiWs)).indent.length := h1
      have h2' : level < (st k pre (mid ++ post.takeWhile isAsciiWs)
        (post.dropWhile isAsciiWs)).indent.length := h2
      rw [if_neg h1', if_pos h2']
      exact ⟨⟨hm.doc, hm.consumed, hm.lo, hm.eaten, hm.pos, by simpa using hne, hm.tag1, hm.tag2⟩,
          rfl, trivial⟩
  intro s hs
  cases level with
  | zero =>
    exact tail s hs (Nat.zero_le _)
  | succ l =>
    change _ ∧ _ ∧ _
    rw [show indDefine (l + 1) = (do runIf (decide (l + 1 > 0)) (ind (l + 1 - 1)); defineTail (l + 1))
      from rfl]
    have h0 : runIf (decide (l + 1 > 0)) (ind (l + 1 - 1)) = ind l := by simp [runIf]
    rw [h0]
    obtain ⟨w, e, o⟩ := ind_pk (c := c) (level := l) s hs
    have hi := ind_indent l s
    rcases hr : ind l s with ⟨r, s1⟩
    rw [hr] at w e o hi
    cases r with
    | panic x => rw [bind_panic hr]; exact ⟨w, e, o⟩
    | diverge => rw [bind_diverge hr]; exact ⟨w, e, o⟩
    | err x => rw [bind_err hr]; exact ⟨w, e, o⟩
    | ok u =>
      rw [bind_ok hr]
      have hlen : s1.indent.length = l + 1 := by
        show (_ : List Nat).length = _
        rw [show s1.indent = indentFor l s.indent from hi, indentFor_length]
      obtain ⟨a1, a2, a3⟩ := tail s1 w (by omega)
      exact ⟨a1, a2.trans e, a3⟩

theorem directiveYaml_pk (hX : c.strict ∨ c.X .unreachable) :
    (PK c).Holds directiveYaml (fun _ => True) := by
  refine Holds.bind ws_pk fun _ _ => Holds.bind (V := fun _ => True) (Holds.get fun _ _ => trivial)
    fun s _ => Holds.ite (fun _ => errAt_pk hX) fun _ => ?_
  refine Holds.bind (V := fun _ => True) (context_pk (pk_pf ?_)) fun _ _ =>
    Holds.ite (fun _ => ?_) fun _ => errAt_pk hX
  · exact Holds.bind (isOk_pk symSeq_pk) fun _ _ => Holds.ite (fun _ => Holds.pure trivial)
      fun _ => isOk_pk symSeq_pk
  · exact Holds.modify (fun s hs => ⟨hs.doc, hs.consumed, hs.lo, hs.eaten, hs.pos, hs.indent,
      hs.tag1, hs.tag2⟩) (fun _ _ => rfl) trivial

theorem directiveHandle_pk : (PK c).Holds directiveHandle (fun _ => True) := by
  refine Holds.bind (isOk_pk identifier_pk) fun _ _ => Holds.ite (fun _ => ?_) fun _ => ?_
  · exact Holds.bind text_pk fun _ _ => Holds.bind sym_pk fun _ _ => Holds.pure trivial
  · exact Holds.bind (isOk_pk sym_pk) fun _ _ => Holds.ite (fun _ => Holds.pure trivial)
      fun _ => Holds.pure trivial

theorem directiveTag_pk : (PK c).Holds directiveTag (fun _ => True) := by
  refine Holds.bind ws_pk fun _ _ => Holds.bind sym_pk fun _ _ => context_pk (pk_pf ?_)
  refine Holds.bind directiveHandle_pk fun h _ => Holds.bind ws_pk fun _ _ => ?_
  refine Holds.bind (context_pk (pk_pf (Holds.bind takeWhile_pk fun _ _ => text_pk))) fun d _ => ?_
  refine Holds.modify (fun s hs => ⟨hs.doc, hs.consumed, hs.lo, hs.eaten, hs.pos, hs.indent,
      ?_, ?_⟩) (fun _ _ => rfl) trivial
  · show (mapGet _ (mapInsert h d s.tag)).isSome = true
    rw [mapGet_mapInsert]; split
    · rfl
    · exact hs.tag1
  · show (mapGet _ (mapInsert h d s.tag)).isSome = true
    rw [mapGet_mapInsert]; split
    · rfl
    · exact hs.tag2

theorem directive_pk (hX : c.strict ∨ c.X .unreachable) :
    (PK c).Holds directive (fun _ => True) := by
  refine Holds.bind sym_pk fun _ _ => Holds.bind (V := fun _ => True) (context_pk (pk_pf ?_)) fun _ _ =>
    Holds.bind gap_pk fun _ _ => Holds.pure trivial
  refine Holds.bind (isOk_pk symSeq_pk) fun _ _ => Holds.ite (fun _ => directiveYaml_pk hX) fun _ => ?_
  exact Holds.bind (isOk_pk symSeq_pk) fun _ _ => Holds.ite (fun _ => directiveTag_pk)
    fun _ => takeWhile_pk

end
end YamlPeg
