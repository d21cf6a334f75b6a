import Verif.Proof.Mismatch
import Verif.Proof.RunsQ
import Verif.Spec.Written
/-! # Numbers are read from the mark -/

namespace YamlPeg
open M
open Props (Exact exact_fresh moved atMark)

/-- The cursor is on the mark, or at the end of the text. -/
def Fr (s : Parser) : Prop := s.pos = s.eaten ∨ s.pos = s.doc.length

theorem fr_st (k : Ctx) (pre post : Bytes) : Fr (st k pre [] post) := .inl (by simp)
theorem fr_end (k : Ctx) (pre mid : Bytes) : Fr (st k pre mid []) := .inr (by simp)

theorem numPrefix_end (k : Ctx) (pre mid : Bytes) : numPrefix (st k pre mid []) = numPrefix (st k pre [] mid) ∨
    numPrefix (st k pre mid []) = (.err .mismatch, st k pre [] mid) := by
  have h1 : orDefault () (sym 0x2D) (st k pre mid []) = (.ok (), st k pre [] mid) := by
    rw [orDefault_err (sym_nil ..)]
  rw [numPrefix, bind_ok h1]
  match mid with
  | [] => left; rw [bind_ok (x := orDefault () (sym 0x2D)) (by rw [orDefault_err (sym_nil ..)])]
  | c :: r =>
    by_cases hc : c = 0x2D
    · subst hc
      right
      rw [takeWhile_more1, if_pos (by simp [isDigit])]
      simp
    · left
      rw [bind_ok (x := orDefault () (sym 0x2D)) (by rw [orDefault_err (sym_miss _ _ _ _ _ _ hc)])]; simp

theorem after_num {α : Type} {x : PM α} {f : Unit → PM α} (hx : x = numPrefix >>= f) (k : Ctx) (pre mid : Bytes) :
    x (st k pre mid []) = x (st k pre [] mid) ∨ x (st k pre mid []) = (.err .mismatch, st k pre [] mid) := by
  subst hx
  rcases numPrefix_end k pre mid with h | h
  · left; simp only [bind_run, h]
  · right; rw [bind_err h]

/-- With the cursor on the mark, or at the end: a number is read from the mark on. -/
theorem number_read {x : PM Bytes} {f : Unit → PM Bytes} {L : Bytes → Bytes → Bytes → Prop} (hx : x = numPrefix >>= f)
    (hL : ∀ s : Parser, s.pos ≤ s.doc.length → s.eaten = s.pos → Exact x L s s) {s : Parser} (h1 : s.eaten ≤ s.pos)
    (h2 : s.pos ≤ s.doc.length) (hs : Fr s) :
    (∃ t r a, s.doc.drop s.eaten = t ++ r ∧ L t r a ∧ x s = (.ok a, moved (atMark s) t.length)) ∨
      x s = (.err .mismatch, atMark s) := by
  have key : x s = x (atMark s) ∨ x s = (.err .mismatch, atMark s) := by
    rcases hs with hs | hs
    · left
      have : atMark s = s := by rcases s with ⟨doc, ind, con, vc, tag, pos, eaten⟩; simp only at hs; subst hs; rfl
      rw [this]
    · obtain ⟨k, pre, mid, post, rfl⟩ := exists_st s h1 h2
      have hp : post = [] := by
        simp only [st_pos, st_doc, List.length_append] at hs
        exact List.eq_nil_of_length_eq_zero (by omega)
      subst hp
      rw [Props.atMark_st, List.append_nil]
      exact after_num hx k pre mid
  rcases key with h | h
  · have e := hL (atMark s) (by simp only [atMark]; omega) rfl
    by_cases hh : ∃ t r a, s.doc.drop s.eaten = t ++ r ∧ L t r a
    · obtain ⟨t, r, a, g1, g2⟩ := hh
      exact .inl ⟨t, r, a, g1, g2, by rw [h]; exact e.1 t r a g1 g2⟩
    · right
      rw [h]
      exact e.2 fun t r a g1 g2 => hh ⟨t, r, a, g1, g2⟩
  · exact .inr h

/-! ## Where a mismatch leaves the cursor -/

section
variable {c : PCfg} {α : Type} {s s' : Parser} {e : PErr}

theorem sym_fr {x : UInt8} (hs : PWF c s) (h : sym x s = (.err e, s')) : Fr s' := by
  obtain ⟨k, pre, mid, post, rfl⟩ := PWF.exists_st hs
  cases post with
  | nil => rw [sym_nil] at h; cases h; exact fr_st ..
  | cons y r =>
    by_cases hy : y = x
    · subst hy; rw [sym_hit] at h; cases h
    · rw [sym_miss _ _ _ _ _ _ hy] at h; cases h; exact fr_st ..

theorem bound_fr (hs : PWF c s) (h : bound s = (.err e, s')) : Fr s' := by
  obtain ⟨k, pre, mid, post, rfl⟩ := PWF.exists_st hs
  rw [bound_eq] at h
  split at h
  · cases h
  · cases h; exact fr_st ..

theorem ind_fr {level : Nat} (hs : PWF c s) (h : ind level s = (.err e, s')) : Fr s' := by
  obtain ⟨k, pre, mid, post, rfl⟩ := PWF.exists_st hs
  rw [ind_eq] at h
  split at h
  · cases h
  · cases h; exact fr_st ..

theorem indDefine_fr {level : Nat} (hs : PWF c s) (h : indDefine level s = (.err .mismatch, s')) : Fr s' := by
  obtain ⟨k, pre, mid, post, rfl⟩ := PWF.exists_st hs
  have tail : ∀ k pre mid post, (do
      let n ← count (takeWhile isAsciiWs (.more 0))
      let s ← M.get
      if level = s.indent.length then
        M.modify fun s => { s with indent := s.indent ++ [n] }
      else if level < s.indent.length then
        M.modify fun s => { s with indent := s.indent.set level n }
      else M.panic .index : PM Unit) (st k pre mid post) ≠ (.err .mismatch, s') := by
    intro k pre mid post h
    rw [bind_ok (count_more0 ..), bind_ok (get_run _)] at h
    split at h
    · cases h
    · split at h
      · cases h
      · cases h
  rw [indDefine] at h
  by_cases hl : level > 0
  · rw [decide_eq_true hl, runIf_true, bind_run] at h
    rw [ind_eq] at h
    split at h
    · rename_i h'
      split at h'
      · cases h'
        exact (tail _ _ _ _ h).elim
      · cases h'
    · rename_i h'
      split at h'
      · cases h'
      · cases h'; cases h; exact fr_st ..
    · rename_i h'; split at h' <;> cases h'
    · rename_i h'; split at h' <;> cases h'
  · rw [decide_eq_false hl, runIf_false, bind_ok (pure_run ..)] at h
    exact (tail _ _ _ _ h).elim

theorem cmtSkip_end (post : Bytes) (h : nlLen (cmtSkip post).2 = 0) : (cmtSkip post).1 = [] ∨ (cmtSkip post).2 = [] := by
  unfold cmtSkip at h ⊢
  split
  · rename_i r hr
    right
    rw [hr] at h
    simp only at h ⊢
    rw [nlLen_zero_iff] at h
    cases hd : r.dropWhile (notIn b!"\n\r") with
    | nil => rfl
    | cons c q =>
      have := h c q hd
      have hn := List.head_dropWhile_not (p := notIn b!"\n\r") (l := r) (by rw [hd]; simp)
      simp only [hd, List.head_cons] at hn
      simp [notIn, this.1, this.2] at hn
  · exact .inl rfl

theorem gap_fr (hs : PWF c s) (hf : s.pos = s.eaten) (h : gap true s = (.err e, s')) : Fr s' := by
  obtain ⟨k, pre, mid, post, rfl⟩ := PWF.exists_st hs
  have hm : mid = [] := by simpa using hf
  subst hm
  rw [gap_eq] at h
  split at h
  · cases h
  · rename_i hg
    cases h
    have h0 : nlLen (gapLead true post).2 = 0 := by
      unfold gapSpec at hg
      by_cases h0 : nlLen (gapLead true post).2 = 0
      · exact h0
      · simp [h0] at hg
    rcases cmtSkip_end post (by simpa [gapLead] using h0) with h | h
    · simp only [gapLead, if_true, h]; exact fr_st ..
    · simp only [gapLead, if_true, h]; exact fr_end ..

end
end YamlPeg
