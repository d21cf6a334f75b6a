import Verif.Proof.Zip
/-! # Symbolic evaluation: sequences, newlines, gaps, indentation -/

set_option linter.unusedSimpArgs false

namespace YamlPeg
open M Frame

variable (k : Ctx) (pre mid post : Bytes)

theorem takeWhile_dropWhile_nil (f : UInt8 → Bool) (l : Bytes) :
    (l.dropWhile f).takeWhile f = [] := by
  induction l with
  | nil => rfl
  | cons x xs ih =>
    simp only [List.dropWhile]
    cases h : f x
    · simp [h]
    · simpa using ih

theorem dropWhile_idem (f : UInt8 → Bool) (l : Bytes) :
    (l.dropWhile f).dropWhile f = l.dropWhile f := by
  induction l with
  | nil => rfl
  | cons x xs ih =>
    simp only [List.dropWhile]
    cases h : f x
    · simp [h]
    · simpa using ih

theorem symSeq_eq (l : Bytes) : symSeq l (st k pre mid post) =
    if l.isPrefixOf post then (.ok (), st k pre (mid ++ l) (post.drop l.length))
    else (.err .mismatch, st k pre [] (mid ++ post)) := by
  induction l generalizing mid post with
  | nil => simp [symSeq]
  | cons c cs ih =>
    cases post with
    | nil => simp [symSeq, bind_run]
    | cons x xs =>
      simp only [symSeq, bind_run, sym_cons]
      by_cases h : x = c
      · subst h
        simp [ih]
      · simp [h, Ne.symm h]

@[simp] theorem symSeq_hit (l : Bytes) :
    symSeq l (st k pre mid (l ++ post)) = (.ok (), st k pre (mid ++ l) post) := by
  rw [symSeq_eq]; simp [List.isPrefixOf_iff_prefix]

theorem symSeq_miss (l : Bytes) (h : l.isPrefixOf post = false) :
    symSeq l (st k pre mid post) = (.err .mismatch, st k pre [] (mid ++ post)) := by
  rw [symSeq_eq, h]; simp

/-- Length of the line break at the front (0: none). -/
def nlLen : Bytes → Nat
  | 0x0D :: 0x0A :: _ => 2
  | 0x0A :: 0x0D :: _ => 2
  | 0x0A :: _ => 1
  | 0x0D :: _ => 1
  | _ => 0

theorem nlLen_le : nlLen post ≤ post.length := by
  unfold nlLen; split <;> simp

theorem nl_eq : nl (st k pre mid post) =
    if nlLen post = 0 then (.err .mismatch, st k pre mid post)
    else (.ok (), st k pre (mid ++ post.take (nlLen post)) (post.drop (nlLen post))) := by
  have key : ∀ (o : Out Unit) (m' post' : Bytes),
      (do
        if ← isOk (symSeq b!"\r\n") then pure ()
        else if ← isOk (symSeq b!"\n\r") then pure ()
        else if ← isOk (sym 0x0A) then pure ()
        else if ← isOk (sym 0x0D) then pure ()
        else mismatch : PM Unit) (st k (pre ++ mid) [] post) = (o, st k (pre ++ mid ++ []) m' post') →
      nl (st k pre mid post) = (o, st k pre (mid ++ ([] ++ m')) post') := by
    intro o m' post' h
    exact context_st h
  match post with
  | [] => rw [key (.err .mismatch) [] []] <;> simp [nlLen, bind_run, isOk, symSeq_eq, ite_run]
  | [x] =>
    by_cases h1 : x = 0x0A
    · subst h1
      rw [key (.ok ()) [0x0A] []] <;> simp [nlLen, bind_run, isOk, symSeq_eq, ite_run]
    · by_cases h2 : x = 0x0D
      · subst h2
        rw [key (.ok ()) [0x0D] []] <;> simp [nlLen, bind_run, isOk, symSeq_eq, ite_run, sym_miss]
      · have : nlLen [x] = 0 := by unfold nlLen; split <;> simp_all
        rw [key (.err .mismatch) [] [x]] <;>
          simp [this, bind_run, isOk, symSeq_eq, ite_run, sym_cons, h1, h2, Ne.symm h1, Ne.symm h2]
  | x :: y :: r =>
    by_cases h1 : x = 0x0A
    · subst h1
      by_cases h3 : y = 0x0D
      · subst h3
        rw [key (.ok ()) [0x0A, 0x0D] r] <;> simp [nlLen, bind_run, isOk, symSeq_eq, ite_run]
      · have : nlLen (0x0A :: y :: r) = 1 := by unfold nlLen; split <;> simp_all
        rw [key (.ok ()) [0x0A] (y :: r)] <;>
          simp [this, bind_run, isOk, symSeq_eq, ite_run, Ne.symm h3]
    · by_cases h2 : x = 0x0D
      · subst h2
        by_cases h3 : y = 0x0A
        · subst h3
          rw [key (.ok ()) [0x0D, 0x0A] r] <;> simp [nlLen, bind_run, isOk, symSeq_eq, ite_run]
        · have : nlLen (0x0D :: y :: r) = 1 := by unfold nlLen; split <;> simp_all
          rw [key (.ok ()) [0x0D] (y :: r)] <;>
            simp [this, bind_run, isOk, symSeq_eq, ite_run, Ne.symm h3, sym_miss]
      · have : nlLen (x :: y :: r) = 0 := by unfold nlLen; split <;> simp_all
        rw [key (.err .mismatch) [] (x :: y :: r)] <;>
          simp [this, bind_run, isOk, symSeq_eq, ite_run, sym_cons, h1, h2, Ne.symm h1, Ne.symm h2]

/-- White space inside a line, the bytes `ws` takes. -/
def isBlank (c : UInt8) : Bool := isAsciiWs c && c != 0x0A && c != 0x0D

@[simp] theorem ws_st : ws (.more 0) (st k pre mid post) =
    (.ok (), st k pre (mid ++ post.takeWhile isBlank) (post.dropWhile isBlank)) :=
  takeWhile_more0 k pre mid post isBlank

@[simp] theorem inv_st : inv (.more 0) (st k pre mid post) =
    (.ok (), st k pre (mid ++ post.takeWhile isAsciiWs) (post.dropWhile isAsciiWs)) :=
  takeWhile_more0 k pre mid post isAsciiWs

/-- A comment at the front, after blanks: what is skipped, and what is left. -/
def cmtSkip (post : Bytes) : Bytes × Bytes :=
  match post.dropWhile isBlank with
  | 0x23 :: r => (post.takeWhile isBlank ++ 0x23 :: r.takeWhile (notIn b!"\n\r"),
      r.dropWhile (notIn b!"\n\r"))
  | _ => ([], post)

theorem cmtSkip_append : (cmtSkip post).1 ++ (cmtSkip post).2 = post := by
  simp only [cmtSkip]
  split
  · rename_i r h
    simp only [List.append_assoc, List.cons_append, List.takeWhile_append_dropWhile]
    rw [← h, List.takeWhile_append_dropWhile]
  · simp

theorem comment_st (m' : Bytes) : ∃ o k', orDefault () comment (st k pre m' post) =
      (.ok (), if (post.dropWhile isBlank).head? = some 0x23 then
        st k pre (m' ++ (cmtSkip post).1) (cmtSkip post).2 else st k pre [] (m' ++ post)) ∧
      o = (0 : Nat) ∧ k' = k := by
  refine ⟨0, k, ?_, rfl, rfl⟩
  simp only [cmtSkip]
  rcases hr : post.dropWhile isBlank with _ | ⟨x, r⟩
  · have hp : post.takeWhile isBlank = post := by
      have := List.takeWhile_append_dropWhile (p := isBlank) (l := post)
      rw [hr] at this; simpa using this
    rw [orDefault_err (e := .mismatch) (s' := st k pre [] (m' ++ post))]
    · simp
    · simp [comment, bind_run, hr, hp]
  · by_cases hx : x = 0x23
    · subst hx
      rw [orDefault_ok (a := ()) (s' := st k pre (m' ++ (post.takeWhile isBlank ++
        0x23 :: r.takeWhile (notIn b!"\n\r"))) (r.dropWhile (notIn b!"\n\r")))]
      · simp
      · simp [comment, bind_run, hr]
    · have hp : post.takeWhile isBlank ++ x :: r = post := by
        have := List.takeWhile_append_dropWhile (p := isBlank) (l := post)
        rw [hr] at this; exact this
      rw [orDefault_err (e := .mismatch) (s' := st k pre [] (m' ++ post))]
      · simp [hx]
      · simp [comment, bind_run, hr, sym_miss, hx, hp]

theorem comment_st0 : orDefault () comment (st k pre [] post) =
      (.ok (), st k pre (cmtSkip post).1 (cmtSkip post).2) := by
  obtain ⟨_, _, h, _, _⟩ := comment_st k pre post []
  rw [h]
  split
  · simp
  · rename_i hh
    have : cmtSkip post = ([], post) := by
      simp only [cmtSkip]; split
      · rename_i r h'; simp [h'] at hh
      · rfl
    simp [this]

/-- What `gap` may skip in front of the first line break. -/
def gapLead (cmt : Bool) (post : Bytes) : Bytes × Bytes :=
  if cmt then cmtSkip post else ([], post)

/-- What `gap` may skip in front of a further line break. -/
def gapLine (cmt : Bool) (post : Bytes) : Bytes × Bytes :=
  if cmt then cmtSkip post else (post.takeWhile isBlank, post.dropWhile isBlank)

theorem gapLine_append (cmt : Bool) : (gapLine cmt post).1 ++ (gapLine cmt post).2 = post := by
  simp only [gapLine]; split
  · exact cmtSkip_append post
  · simp

theorem gapLead_append (cmt : Bool) : (gapLead cmt post).1 ++ (gapLead cmt post).2 = post := by
  simp only [gapLead]; split
  · exact cmtSkip_append post
  · simp

/-- The further lines a gap swallows: how many, which bytes, what is left. -/
def gapMore (cmt : Bool) : Nat → Bytes → Nat × Bytes × Bytes
  | 0, post => (0, [], post)
  | n + 1, post =>
    let r := (gapLine cmt post).2
    if nlLen r = 0 then (0, [], post)
    else
      let q := gapMore cmt n (r.drop (nlLen r))
      (q.1 + 1, (gapLine cmt post).1 ++ (r.take (nlLen r) ++ q.2.1), q.2.2)

theorem gapMore_append (cmt : Bool) (n : Nat) :
    (gapMore cmt n post).2.1 ++ (gapMore cmt n post).2.2 = post := by
  induction n generalizing post with
  | zero => simp [gapMore]
  | succ n ih =>
    simp only [gapMore]
    split
    · simp
    · simp only [List.append_assoc, ih, List.take_append_drop, gapLine_append]

theorem gapLoop_st (cmt : Bool) (n t : Nat) (hn : post.length < n) :
    gapLoop cmt n t (st k pre mid post) =
      (.ok (t + (gapMore cmt n post).1),
        st k (pre ++ (mid ++ (gapMore cmt n post).2.1)) [] (gapMore cmt n post).2.2) := by
  induction n generalizing t pre mid post with
  | zero => omega
  | succ n ih =>
    have hline : ∀ (kk : PM Nat), (do
          ws (.more 0)
          runIf cmt (orDefault () comment)
          kk) (st k (pre ++ mid) [] post) =
        kk (st k (pre ++ mid) (gapLine cmt post).1 (gapLine cmt post).2) := by
      intro kk
      cases cmt with
      | false => simp [bind_run, gapLine]
      | true =>
        simp only [bind_run, ws_st, runIf_true, List.nil_append]
        obtain ⟨_, _, h, _, _⟩ := comment_st k (pre ++ mid) (post.dropWhile isBlank)
          (post.takeWhile isBlank)
        rw [h]
        have hdd : List.dropWhile isBlank (List.dropWhile isBlank post) =
            List.dropWhile isBlank post := by
          exact dropWhile_idem isBlank post
        have htt : List.takeWhile isBlank (List.dropWhile isBlank post) = [] := by
          exact takeWhile_dropWhile_nil isBlank post
        simp only [gapLine, cmtSkip, hdd, htt, if_true]
        rcases hr : post.dropWhile isBlank with _ | ⟨x, r⟩
        · have hp : post.takeWhile isBlank = post := by
            have := List.takeWhile_append_dropWhile (p := isBlank) (l := post)
            rw [hr] at this; simpa using this
          simp [hp]
        · by_cases hx : x = 0x23
          · subst hx; simp
          · have hp : post.takeWhile isBlank ++ x :: r = post := by
              have := List.takeWhile_append_dropWhile (p := isBlank) (l := post)
              rw [hr] at this; exact this
            simp [hx, hp]
    rw [gapLoop, bind_ok (forward_st k pre mid post)]
    rw [hline, bind_run]
    have happ := gapLine_append post cmt
    by_cases h0 : nlLen (gapLine cmt post).2 = 0
    · rw [isOk_err (e := .mismatch) (s' := st k (pre ++ mid) (gapLine cmt post).1 (gapLine cmt post).2)]
      · simp [bind_run, gapMore, h0, happ]
      · rw [nl_eq]; simp [h0]
    · rw [isOk_ok (a := ()) (s' := st k (pre ++ mid) ((gapLine cmt post).1 ++
        (gapLine cmt post).2.take (nlLen (gapLine cmt post).2))
        ((gapLine cmt post).2.drop (nlLen (gapLine cmt post).2)))]
      · simp only [if_true]
        rw [ih]
        · simp only [gapMore, h0, if_false, List.append_assoc]
          congr 2; omega
        · have : (gapLine cmt post).1.length + (gapLine cmt post).2.length = post.length := by
            rw [← List.length_append, happ]
          have := nlLen_le (gapLine cmt post).2
          simp only [List.length_drop]; omega
      · rw [nl_eq]; simp [h0]

/-- What a gap is: lines, bytes, what is left; `none` when there is no gap. -/
def gapSpec (cmt : Bool) (post : Bytes) : Option (Nat × Bytes × Bytes) :=
  let r := (gapLead cmt post).2
  if nlLen r = 0 then none
  else
    let q := gapMore cmt ((r.drop (nlLen r)).length + 1) (r.drop (nlLen r))
    some (q.1 + 1, (gapLead cmt post).1 ++ (r.take (nlLen r) ++ q.2.1), q.2.2)

theorem gap_eq (cmt : Bool) : gap cmt (st k pre mid post) =
    match gapSpec cmt post with
    | some (t, taken, left) => (.ok t, st k pre (mid ++ taken) left)
    | none => (.err .mismatch, st k pre (mid ++ (gapLead cmt post).1) (gapLead cmt post).2) := by
  have hl : ∀ (kk : PM Nat), (do
        runIf cmt (orDefault () comment)
        kk) (st k (pre ++ mid) [] post) =
      kk (st k (pre ++ mid) (gapLead cmt post).1 (gapLead cmt post).2) := by
    intro kk
    cases cmt with
    | false => simp [bind_run, gapLead]
    | true => simp [bind_run, comment_st0, gapLead]
  unfold gapSpec
  by_cases h0 : nlLen (gapLead cmt post).2 = 0
  · simp only [h0, if_true]
    rw [gap, context_st (o := .err .mismatch) (p' := []) (m' := (gapLead cmt post).1)
      (post' := (gapLead cmt post).2) (k' := k)]
    · simp
    · rw [hl, bind_run, nl_eq]; simp [h0]
  · simp only [h0, if_false]
    rw [gap]
    have key := fun p' m' post' o => context_st (α := Nat) (k := k) (k' := k) (pre := pre)
      (mid := mid) (post := post) (p' := p') (m' := m') (post' := post') (o := o) (f := do
        runIf cmt (orDefault () comment)
        nl
        let s ← M.get
        gapLoop cmt (List.length s.rest + 1) 1)
    simp only [hl, bind_run, nl_eq, h0, if_false, get_run, st_rest] at key
    rw [gapLoop_st _ _ _ _ _ _ _ (Nat.lt_succ_self _)] at key
    refine (key _ [] _ _ rfl).trans ?_
    simp [Nat.add_comm]

end YamlPeg
