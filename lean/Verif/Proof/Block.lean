import Verif.Proof.Leaf
/-! # Symbolic evaluation of the block structure: line ends and the next item -/

namespace YamlPeg
open M

/-- A byte that can begin a token: no white space, no `#`. -/
def tokHead (c : UInt8) : Bool := !isAsciiWs c && c != 0x23

theorem tokHead_blank {c : UInt8} (h : tokHead c = true) : isBlank c = false := by
  simp only [tokHead, Bool.and_eq_true] at h
  simp only [isBlank, Bool.and_eq_false_iff]
  left; left; simpa using h.1

theorem tokHead_ne {c : UInt8} (h : tokHead c = true) :
    c ≠ 0x23 ∧ c ≠ 0x0A ∧ c ≠ 0x0D ∧ c ≠ 0x20 ∧ c ≠ 0x09 ∧ c ≠ 0x0C := by
  refine ⟨?_, ?_, ?_, ?_, ?_, ?_⟩ <;> (rintro rfl; revert h; decide)

variable (k : Ctx) (L : Loader) (pre mid post : Bytes)

theorem gapLead_tok {c : UInt8} (h : tokHead c = true) (r : Bytes) :
    gapLead true (c :: r) = ([], c :: r) := by
  have hb := tokHead_blank h
  simp only [gapLead, if_true, cmtSkip, List.dropWhile, hb]
  split
  · rename_i heq; simp at heq; exact absurd heq.1 (tokHead_ne h).1
  · rfl

theorem gap_tok {c : UInt8} (h : tokHead c = true) (r : Bytes) :
    gap true (st k pre mid (c :: r)) = (.err .mismatch, st k pre mid (c :: r)) := by
  have hl := gapLead_tok h r
  have h0 : nlLen (c :: r) = 0 := by
    rw [nlLen_zero_iff]; rintro _ _ ⟨⟩; exact ⟨(tokHead_ne h).2.1, (tokHead_ne h).2.2.1⟩
  have : gapSpec true (c :: r) = none := by
    simp only [gapSpec, hl, h0, if_true]
  rw [gap_eq, this, hl]; simp

theorem gap_nil : gap true (st k pre mid []) = (.err .mismatch, st k pre mid []) := by
  rw [gap_eq]; simp [gapSpec, gapLead, cmtSkip, nlLen]

/-- A document marker at the front. -/
def docMark (post : Bytes) : Bool := (b!"---").isPrefixOf post || (b!"...").isPrefixOf post

theorem docEnd_eq : docEnd (ld L (st k pre mid post)) =
    (.ok (post.isEmpty || docMark post), ld L (st k pre mid post)) := by
  rw [docEnd]
  apply lift_of
  rw [bind_ok (food_st ..)]
  cases post with
  | nil => rfl
  | cons c r =>
    simp only [List.isEmpty_cons, Bool.false_eq_true, if_false, Bool.false_or]
    generalize hp : c :: r = p
    have hx : (do if ← isOk (symSeq b!"---") then pure true else isOk (symSeq b!"...") : PM Bool)
        (st k (pre ++ mid) [] p) = (.ok (docMark p),
          if docMark p then st k (pre ++ mid) (p.take 3) (p.drop 3) else st k (pre ++ mid) [] p) := by
      by_cases h1 : (b!"---").isPrefixOf p = true
      · have e : p = b!"---" ++ p.drop 3 := by
          obtain ⟨t, rfl⟩ := List.isPrefixOf_iff_prefix.1 h1; simp
        have e2 : p.take 3 = b!"---" := by rw [e]; simp
        rw [bind_ok (isOk_ok (a := ()) (s' := st k (pre ++ mid) b!"---" (p.drop 3)) ?_)]
        · simp only [docMark, h1, Bool.true_or, if_true, e2]; rfl
        · rw [symSeq_eq, if_pos h1]; simp
      · rw [bind_ok (isOk_err (e := .mismatch) (s' := st k (pre ++ mid) [] p) ?_)]
        · simp only [Bool.false_eq_true, if_false]
          by_cases h2 : (b!"...").isPrefixOf p = true
          · have e : p = b!"..." ++ p.drop 3 := by
              obtain ⟨t, rfl⟩ := List.isPrefixOf_iff_prefix.1 h2; simp
            have e2 : p.take 3 = b!"..." := by rw [e]; simp
            rw [isOk_ok (a := ()) (s' := st k (pre ++ mid) b!"..." (p.drop 3))]
            · simp only [docMark, h2, Bool.or_true, if_true, e2]
            · rw [symSeq_eq, if_pos h2]; simp
          · rw [isOk_err (e := .mismatch) (s' := st k (pre ++ mid) [] p)]
            · simp [docMark, h1, h2]
            · rw [symSeq_eq, if_neg h2]; simp
        · rw [symSeq_eq, if_neg h1]; simp
    have hc := context_st (f := (do
        let x ← (do if ← isOk (symSeq b!"---") then pure true else isOk (symSeq b!"..."))
        runIf x backward
        pure x : PM Bool)) (k := k) (k' := k) (pre := pre) (mid := mid) (post := p) (p' := []) (m' := [])
        (post' := p) (o := .ok (docMark p)) (by
          rw [bind_ok hx]
          by_cases hd : docMark p = true
          · simp only [hd, if_true, runIf_true]
            rw [bind_ok (backward_st ..)]; simp
          · simp only [Bool.not_eq_true] at hd
            simp only [hd, runIf_false, if_false, Bool.false_eq_true]
            rw [bind_ok (pure_run ..)]; simp)
    rw [hc]; simp

/-! ## Gaps -/

/-- `G` is a gap: line breaks, empty lines, comments; in front of text that
begins with a token (after blanks) it is exactly what `gap` takes. -/
def GapText (G : Bytes) : Prop :=
  ∀ left, (∃ j c r, left = spaces j ++ c :: r ∧ tokHead c = true) →
    ∃ t, gapSpec true (G ++ left) = some (t, G, left)

theorem GapText.gap {G : Bytes} (hG : GapText G) {j : Nat} {c : UInt8} {r : Bytes} (hc : tokHead c = true) :
    ∃ t, gap true (st k pre mid (G ++ (spaces j ++ c :: r))) =
      (.ok t, st k pre (mid ++ G) (spaces j ++ c :: r)) := by
  obtain ⟨t, ht⟩ := hG _ ⟨j, c, r, rfl, hc⟩
  refine ⟨t, ?_⟩
  rw [gap_eq, ht]

/-- The text behind a collection: where the next line is. `σ` is the column of
the collection. With `dash`, a line at the very column that is no item ends it
too. -/
def Stops (σ : Nat) (dash : Bool) (E : Bytes) : Prop :=
  E = [] ∨ ∃ t taken left, gapSpec true E = some (t, taken, left) ∧
    (left = [] ∨ docMark left = true ∨ ∃ j c r, left = spaces j ++ c :: r ∧ c ≠ 0x20 ∧
      (j < σ ∨ (dash = true ∧ j = σ ∧ (c = 0x2D → headIn b!":{}[] ,\n\r" r = false))))

theorem Stops.mono {σ σ' : Nat} {d : Bool} {E : Bytes} (h : Stops σ d E) (hs : σ < σ') :
    Stops σ' false E := by
  rcases h with h | ⟨t, taken, left, hg, h⟩
  · exact .inl h
  · refine .inr ⟨t, taken, left, hg, ?_⟩
    rcases h with h | h | ⟨j, c, r, h1, h2, h3⟩
    · exact .inl h
    · exact .inr (.inl h)
    · refine .inr (.inr ⟨j, c, r, h1, h2, .inl ?_⟩)
      rcases h3 with h3 | h3 <;> omega

theorem Stops.to_dash {σ : Nat} {E : Bytes} (h : Stops σ false E) (d : Bool) :
    Stops σ d E := by
  rcases h with h | ⟨t, taken, left, hg, h⟩
  · exact .inl h
  · refine .inr ⟨t, taken, left, hg, ?_⟩
    rcases h with h | h | ⟨j, c, r, h1, h2, h3⟩
    · exact .inl h
    · exact .inr (.inl h)
    · refine .inr (.inr ⟨j, c, r, h1, h2, .inl ?_⟩)
      rcases h3 with h3 | h3
      · exact h3
      · simp at h3

theorem docMark_head {l : Bytes} (h : docMark l = true) : ∃ c r, l = c :: r ∧ (c = 0x2D ∨ c = 0x2E) := by
  simp only [docMark, Bool.or_eq_true, List.isPrefixOf_iff_prefix] at h
  rcases h with ⟨t, rfl⟩ | ⟨t, rfl⟩
  · exact ⟨0x2D, _, rfl, .inl rfl⟩
  · exact ⟨0x2E, _, rfl, .inr rfl⟩

/-- No continuation at the wanted depth. -/
theorem Stops.not_prefix {σ w : Nat} {d : Bool} {E : Bytes} {t : Nat} {taken left : Bytes}
    (h : Stops σ d E) (hg : gapSpec true E = some (t, taken, left)) (hw : σ < w) :
    (spaces w).isPrefixOf left = false := by
  rcases h with rfl | ⟨t', taken', left', hg', h⟩
  · simp [gapSpec, gapLead, cmtSkip, nlLen] at hg
  · rw [hg] at hg'
    simp only [Option.some.injEq, Prod.mk.injEq] at hg'
    obtain ⟨rfl, rfl, rfl⟩ := hg'
    rcases h with rfl | h | ⟨j, c, r, rfl, h2, h3⟩
    · exact spaces_not_prefix_nil (by omega)
    · obtain ⟨c, r, rfl, hc⟩ := docMark_head h
      exact spaces_not_prefix_cons (by omega) (by rcases hc with rfl | rfl <;> decide) r
    · exact spaces_not_prefix (by rcases h3 with h3 | h3 <;> omega) h2 r

/-! ## The next item -/

/-- The next item begins at the column of the collection. -/
theorem nextItem_more {G : Bytes} (hG : GapText G) {level τ : Nat} (hw : k.want level = τ) {c : UInt8}
    {r : Bytes} (hc : tokHead c = true) (hm : docMark (spaces τ ++ c :: r) = false) (name : String) :
    nextItem level name (ld L (st k pre [] (G ++ (spaces τ ++ c :: r)))) =
      (.ok false, ld L (st (k.at level) pre (G ++ spaces τ) (c :: r))) := by
  subst hw
  obtain ⟨t, ht⟩ := hG.gap k pre [] (j := k.want level) (r := r) hc
  rw [nextItem, bind_ok (isOk_ok (lift_of ht))]
  simp only [if_true]
  rw [bind_ok (pure_run ..)]
  simp only [Bool.false_eq_true, if_false]
  rw [bind_ok (docEnd_eq ..)]
  have : (spaces (k.want level) ++ c :: r).isEmpty = false := by simp
  simp only [this, hm, Bool.or_false, Bool.false_eq_true, if_false]
  rw [bind_ok (isOk_ok (lift_of (ind_hit ..)))]
  simp

/-- The collection ends, or the next line is at its column but no item. -/
theorem nextItem_stop {E : Bytes} {level τ : Nat} {d : Bool} (hw : k.want level = τ) (h : Stops τ d E) :
    ∃ k' m r, (k' = k ∨ (k' = k.at level ∧ (d = true ∨ 0 < τ))) ∧ m ++ r = E ∧
      ((∀ L pre name, nextItem level name (ld L (st k pre [] E)) = (.ok true, ld L (st k' pre m r))) ∨
       (d = true ∧ (∃ c r', r = c :: r' ∧ c ≠ 0x20 ∧ (c = 0x2D → headIn b!":{}[] ,\n\r" r' = false)) ∧
        ∀ L pre name, nextItem level name (ld L (st k pre [] E)) = (.ok false, ld L (st k' pre m r)))) := by
  rcases h with rfl | ⟨t, taken, left, hg, h⟩
  · refine ⟨k, [], [], .inl rfl, rfl, .inl fun L pre name => ?_⟩
    rw [nextItem, bind_ok (isOk_err (lift_of (gap_nil ..)))]
    simp only [Bool.false_eq_true, if_false]
    have e : (do pure (!(← docEnd)) : LM Bool) (ld L (st k pre [] [])) = (.ok false, ld L (st k pre [] [])) := by
      rw [bind_ok (docEnd_eq ..)]; rfl
    rw [bind_ok e]
    simp only [Bool.false_eq_true, if_false]
    rw [bind_ok (docEnd_eq ..)]
    rfl
  · have happ : taken ++ left = E := by
      have e := gapLead_append E true
      simp only [gapSpec] at hg
      split at hg
      · simp at hg
      · simp only [Option.some.injEq, Prod.mk.injEq] at hg
        obtain ⟨_, rfl, rfl⟩ := hg
        rw [List.append_assoc, List.append_assoc, gapMore_append, List.take_append_drop, e]
    have hgap : ∀ pre, gap true (st k pre [] E) = (.ok t, st k pre taken left) := by
      intro pre; rw [gap_eq, hg]; simp
    by_cases hd : (left.isEmpty || docMark left) = true
    · refine ⟨k, taken, left, .inl rfl, happ, .inl fun L pre name => ?_⟩
      rw [nextItem, bind_ok (isOk_ok (lift_of (hgap pre)))]
      simp only [if_true]
      rw [bind_ok (pure_run ..)]
      simp only [Bool.false_eq_true, if_false]
      rw [bind_ok (docEnd_eq ..), hd]
      rfl
    · have hd' : (left.isEmpty || docMark left) = false := by simpa using hd
      have hpre : ∀ L pre name, nextItem level name (ld L (st k pre [] E)) =
          (do pure (!(← M.isOk (lift (ind level)))) : LM Bool) (ld L (st k pre taken left)) := by
        intro L pre name
        rw [nextItem, bind_ok (isOk_ok (lift_of (hgap pre)))]
        simp only [if_true]
        rw [bind_ok (pure_run ..)]
        simp only [Bool.false_eq_true, if_false]
        rw [bind_ok (docEnd_eq ..), hd']
        rfl
      rcases h with rfl | h | ⟨j, c, r, rfl, h2, h3⟩
      · simp at hd'
      · rw [h] at hd'; simp at hd'
      · rcases h3 with h3 | ⟨h3, rfl, h4⟩
        · refine ⟨k.at level, [], taken ++ (spaces j ++ c :: r), .inr ⟨rfl, .inr (by omega)⟩, by simpa using happ,
            .inl fun L pre name => ?_⟩
          rw [hpre, bind_ok (isOk_err (lift_of (ind_miss _ _ _ _ _
            (spaces_not_prefix (by omega) h2 r))))]
          rfl
        · refine ⟨k.at level, taken ++ spaces j, c :: r, .inr ⟨rfl, .inl h3⟩, by simpa using happ,
            .inr ⟨h3, ⟨c, r, rfl, h2, h4⟩, fun L pre name => ?_⟩⟩
          subst hw
          rw [hpre, bind_ok (isOk_ok (lift_of (ind_hit ..)))]
          rfl

/-- Rejecting the item of a line that is none. -/
theorem dash_no {r : Bytes} (h : ∃ c r', r = c :: r' ∧ (c = 0x2D → headIn b!":{}[] ,\n\r" r' = false)) :
    (∃ s, sym 0x2D (st k pre mid r) = (.err .mismatch, s) ∧ s = st k pre [] (mid ++ r)) ∨
    (∃ r', r = 0x2D :: r' ∧ sym 0x2D (st k pre mid r) = (.ok (), st k pre (mid ++ [0x2D]) r') ∧
      bound (st k pre (mid ++ [0x2D]) r') = (.err .mismatch, st k pre [] (mid ++ r))) := by
  obtain ⟨c, r', rfl, hc⟩ := h
  by_cases h : c = 0x2D
  · subst h
    right
    refine ⟨r', rfl, sym_hit .., ?_⟩
    rw [bound_eq, hc rfl]; simp
  · left
    exact ⟨_, sym_miss _ _ _ _ _ _ h, rfl⟩

/-! ## The first item -/

/-- Nothing in front of the first item. -/
theorem firstItem_inline {c : UInt8} {r : Bytes} (hc : tokHead c = true) (level : Nat) :
    firstItem level false (ld L (st k pre mid (c :: r))) = (.ok (), ld L (st k pre mid (c :: r))) := by
  simp only [firstItem, Bool.false_eq_true, if_false, gapThenInd]
  rw [bind_ok (isOk_err (lift_of (gap_tok _ _ _ hc r)))]
  rfl

/-- A gap and the indentation in front of the first item. -/
theorem firstItem_gap {G : Bytes} (hG : GapText G) {level τ : Nat} (hw : k.want level = τ) {c : UInt8}
    {r : Bytes} (hc : tokHead c = true) :
    firstItem level false (ld L (st k pre mid (G ++ (spaces τ ++ c :: r)))) =
      (.ok (), ld L (st (k.at level) pre (mid ++ (G ++ spaces τ)) (c :: r))) := by
  subst hw
  obtain ⟨t, ht⟩ := hG.gap k pre mid (j := k.want level) (r := r) hc
  simp only [firstItem, Bool.false_eq_true, if_false, gapThenInd]
  rw [bind_ok (isOk_ok (lift_of ht))]
  simp only [if_true]
  rw [lift_of (ind_hit ..)]
  simp

/-- The indentation table after `ind_define` at `p + 1`. -/
def Ctx.push (k : Ctx) (p w : Nat) : Ctx := { k with indent := indentFor p k.indent ++ [w] }

@[simp] theorem Ctx.push_len (k : Ctx) (p w : Nat) : (k.push p w).indent.length = p + 2 := by
  simp [Ctx.push]

theorem indentFor_append (p : Nat) (l : List Nat) (m : List Nat) :
    indentFor p (indentFor p l ++ m) = indentFor p l := by
  have hlen := indentFor_len p l
  rw [indentFor, if_neg (by simp; omega)]
  rw [List.take_append_of_le_length (by omega), List.take_of_length_le (by omega)]

theorem Ctx.push_at (k : Ctx) (p w : Nat) : (k.push p w).at p = k.at p := by
  simp [Ctx.push, Ctx.at, indentFor_append]

theorem Ctx.push_at_succ (k : Ctx) (p w : Nat) : (k.push p w).at (p + 1) = k.push p w := by
  have : indentFor (p + 1) (indentFor p k.indent ++ [w]) = indentFor p k.indent ++ [w] := by
    rw [indentFor, if_neg (by simp)]
    exact List.take_of_length_le (by simp)
  simp [Ctx.push, Ctx.at, this]

theorem Ctx.push_want (k : Ctx) (p w : Nat) : (k.push p w).want (p + 1) = k.want p + w := by
  have : indentFor (p + 1) (indentFor p k.indent ++ [w]) = indentFor p k.indent ++ [w] := by
    rw [indentFor, if_neg (by simp)]
    exact List.take_of_length_le (by simp)
  simp [Ctx.push, Ctx.want, this]

@[simp] theorem Ctx.push_push (k : Ctx) (p w w' : Nat) : (k.push p w).push p w' = k.push p w' := by
  simp [Ctx.push, indentFor_append]

theorem spaces_add (a b : Nat) : spaces (a + b) = spaces a ++ spaces b := by
  simp [spaces, List.replicate_append_replicate]

theorem indDefine_read {p w : Nat} {c : UInt8} {r : Bytes} (hc : tokHead c = true) :
    indDefine (p + 1) (st k pre mid (spaces (k.want p + w) ++ c :: r)) =
      (.ok (), st (k.push p w) pre (mid ++ spaces (k.want p + w)) (c :: r)) := by
  have hcw : isAsciiWs c = false := by
    simp only [tokHead, Bool.and_eq_true] at hc; simpa using hc.1
  have t := takeWhile_all (f := isAsciiWs) (d := spaces w) (by
    intro x hx; simp [spaces] at hx; rw [hx.2]; decide) (c :: r) (by rintro _ _ ⟨⟩; exact hcw)
  rw [indDefine]
  simp only [show decide (p + 1 > 0) = true by simp, runIf_true, Nat.add_sub_cancel]
  rw [spaces_add, List.append_assoc, bind_ok (ind_hit ..), bind_ok (count_more0 ..), t.1, t.2,
    bind_ok (get_run _)]
  have e1 : p + 1 = (st (k.at p) pre (mid ++ spaces (k.want p) ++ spaces w) (c :: r)).indent.length := by
    simp
  have e2 : (spaces w).length = w := by simp [spaces]
  rw [if_pos e1, e2]
  simp only [modify_run]
  simp [st, Ctx.push, Ctx.at]

/-- The first item of a collection that is a map value. -/
theorem firstItem_value {G : Bytes} (hG : GapText G) {p w : Nat} {c : UInt8} {r : Bytes}
    (hc : tokHead c = true) :
    firstItem (p + 1) true (ld L (st k pre mid (G ++ (spaces (k.want p + w) ++ c :: r)))) =
      (.ok (), ld L (st (k.push p w) pre (mid ++ (G ++ spaces (k.want p + w))) (c :: r))) := by
  obtain ⟨t, ht⟩ := hG.gap k pre mid (j := k.want p + w) (r := r) hc
  simp only [firstItem, if_true]
  rw [bind_ok (lift_of ht), lift_of (indDefine_read _ _ _ hc)]
  simp

end YamlPeg
