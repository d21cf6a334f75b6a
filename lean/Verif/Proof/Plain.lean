import Verif.Proof.Eval
/-! # Symbolic evaluation of plain scalars -/

namespace YamlPeg
open M

variable (k : Ctx) (pre mid post : Bytes)

theorem notIn_false {l : Bytes} {c : UInt8} : notIn l c = false ↔ c ∈ l := by simp [notIn]

/-- The byte after a colon that makes it a key separator. -/
def colonStop : Bytes → Bool
  | c :: _ => c == 0x20 || c == 0x0A || c == 0x0D
  | [] => false

/-- A plain scalar ends here. -/
def stopB : Bytes → Bool
  | [] => true
  | 0x3A :: r => colonStop r
  | 0x20 :: 0x23 :: _ => true
  | _ => false

theorem nlLen_zero_iff (r : Bytes) : nlLen r = 0 ↔ ∀ c s, r = c :: s → c ≠ 0x0A ∧ c ≠ 0x0D := by
  unfold nlLen
  split
  · simp
  · simp
  · simp
  · simp
  · rename_i h1 h2 h3 h4
    simp only [true_iff]
    rintro c s rfl
    exact ⟨by rintro rfl; exact h3 s rfl, by rintro rfl; exact h4 s rfl⟩

theorem plainStop_eq : ∃ m r, m ++ r = post ∧ (stopB post = false → m = []) ∧
    plainStop (st k pre [] post) = (.ok (stopB post), st k pre m r) := by
  match post with
  | [] =>
    refine ⟨[], [], rfl, by simp, ?_⟩
    rw [plainStop, bind_ok (food_st ..)]; rfl
  | c :: r =>
    by_cases hc : c = 0x3A
    · subst hc
      match r with
      | [] =>
        refine ⟨[], _, rfl, by simp, ?_⟩
        rw [plainStop, bind_ok (food_st ..)]
        simp only [List.isEmpty_cons, Bool.false_eq_true, if_false]
        rw [bind_ok (isOk_err (symSeq_miss _ _ _ _ _ (by rfl)))]
        simp only [Bool.false_eq_true, if_false]
        have : (do if ← isOk (sym 0x3A) then isOk nl else pure false : PM Bool) (st k pre [] [0x3A])
            = (.ok false, st k pre [0x3A] []) := by
          rw [bind_ok (isOk_ok (sym_hit ..))]
          simp only [if_true]
          rw [isOk_err (by rw [nl_eq, if_pos (by rfl)])]
          simp
        simp only [List.nil_append]
        rw [bind_ok this]
        simp only [Bool.false_eq_true, if_false]
        rw [isOk_err (symSeq_miss _ _ _ _ _ (by rfl))]
        rfl
      | d :: r' =>
        by_cases hd : d = 0x20
        · subst hd
          refine ⟨[0x3A, 0x20], r', rfl, by simp [stopB, colonStop], ?_⟩
          rw [plainStop, bind_ok (food_st ..)]
          simp only [List.isEmpty_cons, Bool.false_eq_true, if_false]
          rw [bind_ok (isOk_ok (show symSeq b!": " (st k pre [] (0x3A :: 0x20 :: r')) = _ from
            symSeq_hit k pre [] r' b!": "))]
          rfl
        · have hmiss : (b!": ").isPrefixOf (0x3A :: d :: r') = false := by
            simp [List.isPrefixOf, Ne.symm hd]
          by_cases hn : d = 0x0A ∨ d = 0x0D
          · have hs : stopB (0x3A :: d :: r') = true := by
              simp only [stopB, colonStop]
              rcases hn with rfl | rfl <;> rfl
            have hnl : nlLen (d :: r') ≠ 0 := by
              rw [Ne, nlLen_zero_iff]; intro h; have := h d r' rfl; rcases hn with rfl | rfl <;> simp at this
            refine ⟨[0x3A] ++ (d :: r').take (nlLen (d :: r')), (d :: r').drop (nlLen (d :: r')), ?_, ?_, ?_⟩
            · simp
            · rw [hs]; simp
            · rw [plainStop, bind_ok (food_st ..)]
              simp only [List.isEmpty_cons, Bool.false_eq_true, if_false]
              rw [bind_ok (isOk_err (symSeq_miss _ _ _ _ _ hmiss))]
              simp only [Bool.false_eq_true, if_false]
              have : (do if ← isOk (sym 0x3A) then isOk nl else pure false : PM Bool)
                  (st k pre [] (0x3A :: d :: r'))
                  = (.ok true, st k pre ([0x3A] ++ (d :: r').take (nlLen (d :: r')))
                    ((d :: r').drop (nlLen (d :: r')))) := by
                rw [bind_ok (isOk_ok (sym_hit ..))]
                simp only [if_true]
                rw [isOk_ok (by rw [nl_eq, if_neg hnl])]
                simp
              simp only [List.nil_append]
              rw [bind_ok this, hs]
              rfl
          · have hs : stopB (0x3A :: d :: r') = false := by
              simp [stopB, colonStop, hd]; simpa using hn
            refine ⟨[], _, rfl, by simp, ?_⟩
            rw [plainStop, bind_ok (food_st ..)]
            simp only [List.isEmpty_cons, Bool.false_eq_true, if_false]
            rw [bind_ok (isOk_err (symSeq_miss _ _ _ _ _ hmiss))]
            simp only [Bool.false_eq_true, if_false]
            have : (do if ← isOk (sym 0x3A) then isOk nl else pure false : PM Bool)
                (st k pre [] (0x3A :: d :: r')) = (.ok false, st k pre [0x3A] (d :: r')) := by
              rw [bind_ok (isOk_ok (sym_hit ..))]
              simp only [if_true]
              rw [isOk_err (by rw [nl_eq, if_pos]; rw [nlLen_zero_iff]; rintro _ _ ⟨⟩; simpa using hn)]
              simp
            simp only [List.nil_append]
            rw [bind_ok this, hs]
            simp only [Bool.false_eq_true, if_false]
            rw [isOk_err (symSeq_miss _ _ _ _ _ ?_)]
            · simp
            · simp [List.isPrefixOf, Ne.symm hd]
    · have hmiss : (b!": ").isPrefixOf (c :: r) = false := by
        simp [List.isPrefixOf, Ne.symm hc]
      have hcol : (do if ← isOk (sym 0x3A) then isOk nl else pure false : PM Bool)
          (st k pre [] (c :: r)) = (.ok false, st k pre [] (c :: r)) := by
        rw [bind_ok (isOk_err (sym_miss _ _ _ _ _ _ hc))]
        simp
      have hpl : plainStop (st k pre [] (c :: r)) = isOk (symSeq b!" #") (st k pre [] (c :: r)) := by
        rw [plainStop, bind_ok (food_st ..)]
        simp only [List.isEmpty_cons, Bool.false_eq_true, if_false]
        rw [bind_ok (isOk_err (symSeq_miss _ _ _ _ _ hmiss))]
        simp only [Bool.false_eq_true, if_false, List.nil_append]
        rw [bind_ok hcol]
        simp
      match c, r with
      | 0x20, 0x23 :: r' =>
        refine ⟨[0x20, 0x23], r', rfl, by simp [stopB], ?_⟩
        rw [hpl, isOk_ok (show symSeq b!" #" (st k pre [] (0x20 :: 0x23 :: r')) = _ from
          symSeq_hit k pre [] r' b!" #")]
        rfl
      | c, r =>
        by_cases hp : (b!" #").isPrefixOf (c :: r) = true
        · match r with
          | [] => simp [List.isPrefixOf] at hp
          | d :: r' =>
            simp [List.isPrefixOf] at hp
            obtain ⟨rfl, rfl⟩ := hp
            refine ⟨[0x20, 0x23], r', rfl, by simp [stopB], ?_⟩
            rw [hpl, isOk_ok (show symSeq b!" #" (st k pre [] (0x20 :: 0x23 :: r')) = _ from
          symSeq_hit k pre [] r' b!" #")]
            rfl
        · have hs : stopB (c :: r) = false := by
            unfold stopB
            split
            · simp_all
            · simp_all
            · simp_all [List.isPrefixOf]
            · rfl
          refine ⟨[], _, rfl, by simp, ?_⟩
          rw [hpl, isOk_err (symSeq_miss _ _ _ _ _ (Bool.eq_false_iff.2 hp)), hs]
          simp

/-! ## One round of the loop -/

section step
variable (level : Nat) (inner : Bool) (patt v : Bytes) (lead : Bool) (n : Nat)

/-- What happens in a round behind the chunk of ordinary bytes. -/
def plainRest (level : Nat) (inner : Bool) (patt : Bytes) (n : Nat) (v : Bytes) (lead : Bool) : PM Bytes := do
  if ← plainStop then do
    backward
    pure v
  else do
    forward
    if ← isOk (symSet b!": ") then do
      let t ← text
      let v := if lead && t == b!" " then trimEnd v else v
      plainLoop level inner patt n (v ++ t) lead
    else if ← (if !inner && !v.isEmpty then isOk (symSet b!"{}[]") else pure false) then do
      let t ← text
      plainLoop level inner patt n (v ++ t) false
    else if ← isOk (ind level) then
      plainLoop level inner patt n v lead
    else match ← try? (gap true) with
      | some t =>
        let v := plainBreak v t
        if ← isOk (ind level) then plainLoop level inner patt n v true
        else pure v
      | none => pure v

theorem plainLoop_chunk : plainLoop level inner patt (n + 1) v lead (st k pre mid post) =
    plainRest level inner patt n (v ++ lossy (post.takeWhile (notIn patt))) lead
      (st k (pre ++ mid ++ post.takeWhile (notIn patt)) [] (post.dropWhile (notIn patt))) := by
  rw [plainLoop, bind_ok (forward_st ..), bind_ok (takeWhile_more0 ..), bind_ok (text_st ..),
    bind_ok (forward_st ..), List.nil_append]
  rfl

theorem plainRest_stop (h : stopB post = true) :
    plainRest level inner patt n v lead (st k pre [] post) = (.ok v, st k pre [] post) := by
  obtain ⟨m, r, hm, _, e⟩ := plainStop_eq k pre post
  rw [plainRest, bind_ok e, h]
  simp only [if_true]
  rw [bind_ok (backward_st ..), hm]
  rfl

theorem plainRest_go (h : stopB post = false) :
    plainRest level inner patt n v lead (st k pre [] post) = (do
    if ← isOk (symSet b!": ") then do
      let t ← text
      let v := if lead && t == b!" " then trimEnd v else v
      plainLoop level inner patt n (v ++ t) lead
    else if ← (if !inner && !v.isEmpty then isOk (symSet b!"{}[]") else pure false) then do
      let t ← text
      plainLoop level inner patt n (v ++ t) false
    else if ← isOk (ind level) then
      plainLoop level inner patt n v lead
    else match ← try? (gap true) with
      | some t =>
        let v := plainBreak v t
        if ← isOk (ind level) then plainLoop level inner patt n v true
        else pure v
      | none => pure v : PM Bytes) (st k pre [] post) := by
  obtain ⟨m, r, hm, hm', e⟩ := plainStop_eq k pre post
  obtain rfl := hm' h
  simp only [List.nil_append] at hm
  subst hm
  rw [plainRest, bind_ok e, h]
  simp only [Bool.false_eq_true, if_false]
  rw [bind_ok (forward_st ..)]
  simp

theorem lossy_one {c : UInt8} (h : c < 0x80) : lossy [c] = [c] := lossy_ascii _ (by simpa using h)

/-- A colon or space inside the scalar. -/
theorem plainRest_colon (c : UInt8) (r : Bytes) (hs : stopB (c :: r) = false)
    (hc : c = 0x3A ∨ c = 0x20) :
    plainRest level inner patt n v false (st k pre [] (c :: r)) =
      plainLoop level inner patt n (v ++ [c]) false (st k pre [c] r) := by
  have hlt : c < 0x80 := by rcases hc with rfl | rfl <;> decide
  rw [plainRest_go _ _ _ _ _ _ _ _ _ hs, bind_ok (isOk_ok (symSet_hit _ _ _ _ _ _ ?_))]
  · simp only [if_true]
    rw [bind_ok (text_st ..)]
    simp [lossy_one hlt]
  · rcases hc with rfl | rfl <;> decide

/-- A bracket inside the scalar. -/
theorem plainRest_bracket (c : UInt8) (r : Bytes) (hc : c ∈ b!"{}[]") (hi : inner = false)
    (hv : v ≠ []) :
    plainRest level inner patt n v false (st k pre [] (c :: r)) =
      plainLoop level inner patt n (v ++ [c]) false (st k pre [c] r) := by
  have hlt : c < 0x80 := by simp at hc; rcases hc with rfl | rfl | rfl | rfl <;> decide
  have hn : c ∉ b!": " := by simp at hc; rcases hc with rfl | rfl | rfl | rfl <;> decide
  have hs : stopB (c :: r) = false := by
    simp at hc; rcases hc with rfl | rfl | rfl | rfl <;> rfl
  rw [plainRest_go _ _ _ _ _ _ _ _ _ hs, bind_ok (isOk_err (symSet_miss _ _ _ _ _ _ hn))]
  have : (!inner && !v.isEmpty) = true := by simp [hi, hv]
  simp only [Bool.false_eq_true, if_false, this, if_true, List.nil_append]
  rw [bind_ok (isOk_ok (symSet_hit _ _ _ _ _ _ hc))]
  simp only [if_true]
  rw [bind_ok (text_st ..)]
  simp [lossy_one hlt]

/-- The end at a line break: the next line is not indented enough. -/
theorem plainRest_line (t : Nat) (taken left : Bytes) (hnl : nlLen post ≠ 0)
    (hg : gapSpec true post = some (t, taken, left)) (hw : 0 < k.want level)
    (hl : (spaces (k.want level)).isPrefixOf left = false) :
    plainRest level inner patt n v lead (st k pre [] post) =
      (.ok (plainBreak v t), st (k.at level) pre [] post) := by
  obtain ⟨c, r, rfl, hc⟩ : ∃ c r, post = c :: r ∧ (c = 0x0A ∨ c = 0x0D) := by
    have : ¬ nlLen post = 0 := hnl
    rw [nlLen_zero_iff] at this
    simp only [Classical.not_forall] at this
    obtain ⟨c, r, h1, h2⟩ := this
    refine ⟨c, r, h1, ?_⟩
    by_cases h : c = 0x0A
    · exact .inl h
    · by_cases h' : c = 0x0D
      · exact .inr h'
      · exact absurd ⟨h, h'⟩ h2
  have hs : stopB (c :: r) = false := by rcases hc with rfl | rfl <;> rfl
  have h1 : c ∉ b!": " := by rcases hc with rfl | rfl <;> decide
  have h2 : c ∉ b!"{}[]" := by rcases hc with rfl | rfl <;> decide
  have h3 : c ≠ 0x20 := by rcases hc with rfl | rfl <;> decide
  have htl : taken ++ left = c :: r := by
    unfold gapSpec at hg
    simp only at hg
    split at hg
    · cases hg
    · simp only [Option.some.injEq, Prod.mk.injEq] at hg
      obtain ⟨_, rfl, rfl⟩ := hg
      simp only [List.append_assoc, gapMore_append, List.take_append_drop, gapLead_append]
  rw [plainRest_go _ _ _ _ _ _ _ _ _ hs, bind_ok (isOk_err (symSet_miss _ _ _ _ _ _ h1))]
  simp only [Bool.false_eq_true, if_false, List.nil_append]
  have hb : (if !inner && !v.isEmpty then isOk (symSet b!"{}[]") else pure false : PM Bool)
      (st k pre [] (c :: r)) = (.ok false, st k pre [] (c :: r)) := by
    split
    · rw [isOk_err (symSet_miss _ _ _ _ _ _ h2)]; simp
    · rfl
  rw [bind_ok hb]
  simp only [Bool.false_eq_true, if_false]
  rw [bind_ok (isOk_err (ind_miss _ _ _ _ _ (spaces_not_prefix_cons hw h3 r)))]
  simp only [Bool.false_eq_true, if_false, List.nil_append]
  rw [bind_ok (try_ok (by rw [gap_eq, hg]))]
  simp only [List.nil_append]
  rw [bind_ok (isOk_err (ind_miss _ _ _ _ _ (by simpa using hl)))]
  simp [htl]

/-- The end at a flow indicator. -/
theorem plainRest_flow (c : UInt8) (r : Bytes) (hc : c ∈ b!"[]{},") (hi : inner = true ∨ v = [])
    (hw : 0 < k.want level) :
    plainRest level inner patt n v lead (st k pre [] (c :: r)) =
      (.ok v, st (k.at level) pre [] (c :: r)) := by
  have hs : stopB (c :: r) = false := by
    simp at hc; rcases hc with rfl | rfl | rfl | rfl | rfl <;> rfl
  have h1 : c ∉ b!": " := by simp at hc; rcases hc with rfl | rfl | rfl | rfl | rfl <;> decide
  have h3 : c ≠ 0x20 := by simp at hc; rcases hc with rfl | rfl | rfl | rfl | rfl <;> decide
  have h4 : isBlank c = false := by simp at hc; rcases hc with rfl | rfl | rfl | rfl | rfl <;> decide
  have h5 : c ≠ 0x23 := by simp at hc; rcases hc with rfl | rfl | rfl | rfl | rfl <;> decide
  have h6 : c ≠ 0x0A ∧ c ≠ 0x0D := by
    simp at hc; rcases hc with rfl | rfl | rfl | rfl | rfl <;> decide
  have hgl : gapLead true (c :: r) = ([], c :: r) := by
    simp only [gapLead, cmtSkip, if_true, List.dropWhile, h4]
    split
    · simp_all
    · rfl
  have hg : gapSpec true (c :: r) = none := by
    simp only [gapSpec, hgl]
    rw [if_pos]
    rw [nlLen_zero_iff]; rintro _ _ ⟨⟩; exact h6
  rw [plainRest_go _ _ _ _ _ _ _ _ _ hs, bind_ok (isOk_err (symSet_miss _ _ _ _ _ _ h1))]
  simp only [Bool.false_eq_true, if_false, List.nil_append]
  have hb : (if !inner && !v.isEmpty then isOk (symSet b!"{}[]") else pure false : PM Bool)
      (st k pre [] (c :: r)) = (.ok false, st k pre [] (c :: r)) := by
    rw [if_neg]
    · rfl
    · rcases hi with rfl | rfl <;> simp
  rw [bind_ok hb]
  simp only [Bool.false_eq_true, if_false]
  rw [bind_ok (isOk_err (ind_miss _ _ _ _ _ (spaces_not_prefix_cons hw h3 r)))]
  simp only [Bool.false_eq_true, if_false, List.nil_append]
  rw [bind_ok (try_err (by rw [gap_eq, hg]))]
  simp [hgl]

end step

/-! ## The whole scalar -/

/-- The bytes of a plain scalar on one line, in front of the text `E`; the
Boolean says that some bytes came before. -/
def plainBody (inner : Bool) (E : Bytes) : Bool → Bytes → Bool
  | _, [] => true
  | ne, c :: s =>
    c != 0x0A && c != 0x0D && !(c == 0x3A && colonStop (s ++ E)) &&
    !(c == 0x20 && (s ++ E).head? == some 0x23) &&
    !((b!"[]{}").contains c && (inner || !ne)) && !(c == 0x2C && inner) && plainBody inner E true s

/-- How a plain scalar with text `T` ends. -/
inductive PlainEnd (k : Ctx) (level : Nat) (inner : Bool) (T : Bytes) : Bytes → Ctx → Bytes → Prop
  | stop {E : Bytes} : stopB E = true → PlainEnd k level inner T E k []
  | line {E : Bytes} {t : Nat} {taken left : Bytes} : nlLen E ≠ 0 →
      gapSpec true E = some (t, taken, left) → 0 < k.want level →
      (spaces (k.want level)).isPrefixOf left = false →
      PlainEnd k level inner T E (k.at level) (plainBreak [] t)
  | flow {c : UInt8} {r : Bytes} : c ∈ b!"[]{}," → (inner = true ∨ T = []) → 0 < k.want level →
      (c = 0x2C → inner = true) → PlainEnd k level inner T (c :: r) (k.at level) []

theorem plainBody_split {inner : Bool} {E : Bytes} {ne : Bool} {a s : Bytes}
    (h : plainBody inner E ne (a ++ s) = true) : plainBody inner E (ne || !a.isEmpty) s = true := by
  induction a generalizing ne with
  | nil => simpa using h
  | cons c a ih =>
    simp only [List.cons_append, plainBody, Bool.and_eq_true] at h
    simpa using ih h.2

theorem plainEnd_head {k : Ctx} {level : Nat} {inner : Bool} {T E : Bytes} {k' : Ctx} {tail : Bytes}
    (h : PlainEnd k level inner T E k' tail) : ∀ c r, E = c :: r → notIn (plainPatt inner) c = false := by
  cases h with
  | stop hs =>
    rintro c r rfl
    by_cases h1 : c = 0x3A
    · subst h1; cases inner <;> rfl
    · by_cases h2 : c = 0x20
      · subst h2; cases inner <;> rfl
      · exfalso
        unfold stopB at hs
        split at hs <;> simp_all
  | line hn _ _ _ =>
    rintro c r rfl
    rw [Ne, nlLen_zero_iff] at hn
    by_cases h1 : c = 0x0A
    · subst h1; cases inner <;> rfl
    · by_cases h2 : c = 0x0D
      · subst h2; cases inner <;> rfl
      · exfalso; apply hn; rintro _ _ ⟨⟩; exact ⟨h1, h2⟩
  | flow hc hi hw hcomma =>
    rintro _ _ ⟨⟩
    simp at hc
    rcases hc with rfl | rfl | rfl | rfl | rfl
    · cases inner <;> rfl
    · cases inner <;> rfl
    · cases inner <;> rfl
    · cases inner <;> rfl
    · rw [hcomma rfl]; rfl

theorem plainBreak_eq (v : Bytes) (t : Nat) : plainBreak v t = v ++ plainBreak [] t := by
  unfold plainBreak
  split <;> simp

theorem takeWhile_append_stop {f : UInt8 → Bool} {S E : Bytes}
    (hE : ∀ c r, E = c :: r → f c = false) :
    (S ++ E).takeWhile f = S.takeWhile f ∧ (S ++ E).dropWhile f = S.dropWhile f ++ E := by
  induction S with
  | nil =>
    cases E with
    | nil => exact ⟨rfl, rfl⟩
    | cons c r => simp [List.takeWhile, List.dropWhile, hE c r rfl]
  | cons x xs ih =>
    simp only [List.cons_append, List.takeWhile, List.dropWhile]
    cases f x
    · simp
    · simp [ih.1, ih.2]

theorem patt_ascii {inner : Bool} (x : UInt8) (h : notIn (plainPatt inner) x = false) : x < 0x80 := by
  cases inner
  · rw [notIn_false] at h; simp [plainPatt] at h
    rcases h with rfl | rfl | rfl | rfl | rfl | rfl | rfl | rfl <;> decide
  · rw [notIn_false] at h; simp [plainPatt] at h
    rcases h with rfl | rfl | rfl | rfl | rfl | rfl | rfl | rfl | rfl <;> decide

/-- The loop reads the whole scalar. -/
theorem plainLoop_read {level : Nat} {inner : Bool} {T E : Bytes} {k' : Ctx} {tail : Bytes}
    (hE : PlainEnd k level inner T E k' tail) (hB : plainBody inner E false T = true) :
    ∀ (n : Nat) (U S : Bytes) (pre mid : Bytes), T = U ++ S → Utf8 S → S.length < n →
    plainLoop level inner (plainPatt inner) n U false (st k pre mid (S ++ E)) =
      (.ok (T ++ tail), st k' (pre ++ mid ++ S) [] E) := by
  intro n
  induction n with
  | zero => intro U S pre mid _ _ hn; omega
  | succ n ih =>
    intro U S pre mid hT hu hn
    have hEh := plainEnd_head hE
    obtain ⟨e1, e2⟩ := takeWhile_append_stop (S := S) hEh
    have hsp := Utf8.span (f := notIn (plainPatt inner)) patt_ascii hu
    have hcat := List.takeWhile_append_dropWhile (p := notIn (plainPatt inner)) (l := S)
    rw [plainLoop_chunk, e1, e2, lossy_utf8 hsp.1]
    generalize hA : S.takeWhile (notIn (plainPatt inner)) = A at *
    rcases hR : S.dropWhile (notIn (plainPatt inner)) with _ | ⟨c, s⟩
    · rw [hR] at hcat
      simp only [List.append_nil] at hcat
      subst hcat
      simp only [List.nil_append, ← hT]
      cases hE with
      | stop hs => rw [plainRest_stop _ _ _ _ _ _ _ _ _ hs]; simp
      | line h1 h2 h3 h4 =>
        rw [plainRest_line _ _ _ _ _ _ _ _ _ _ _ _ h1 h2 h3 h4, plainBreak_eq]
      | flow h1 h2 h3 h4 =>
        rw [plainRest_flow _ _ _ _ _ _ _ _ _ _ h1 h2 h3]; simp
    · rw [hR] at hcat hsp
      have hc : notIn (plainPatt inner) c = false := by
        have := List.head?_dropWhile_not (p := notIn (plainPatt inner)) S
        rw [hR] at this; simpa using this
      have hT' : T = (U ++ A) ++ (c :: s) := by rw [hT, ← hcat, List.append_assoc]
      have hB' := hB
      rw [hT'] at hB'
      have hb := plainBody_split hB'
      simp only [plainBody, Bool.and_eq_true, Bool.not_eq_true', Bool.and_eq_false_iff] at hb
      obtain ⟨⟨⟨⟨⟨⟨b1, b2⟩, b3⟩, b4⟩, b5⟩, b6⟩, _⟩ := hb
      have hus : Utf8 s := (Utf8.cons_ascii (patt_ascii c hc)).1 hsp.2
      have hlen : s.length < n := by
        have := congrArg List.length hcat
        simp at this; omega
      have hgo : plainLoop level inner (plainPatt inner) n (U ++ A ++ [c]) false
          (st k (pre ++ mid ++ A) [c] (s ++ E)) = (.ok (T ++ tail), st k' (pre ++ mid ++ S) [] E) := by
        rw [ih (U ++ A ++ [c]) s (pre ++ mid ++ A) [c] (by rw [hT']; simp) hus hlen, ← hcat]
        simp
      simp only [List.cons_append]
      by_cases h1 : c = 0x3A ∨ c = 0x20
      · rw [plainRest_colon _ _ _ _ _ _ _ _ _ ?_ h1, hgo]
        rcases h1 with rfl | rfl
        · simpa [stopB] using b3
        · rcases hsE : s ++ E with _ | ⟨d, q⟩
          · rfl
          · rw [hsE] at b4
            simp at b4
            unfold stopB
            split <;> simp_all
      · have h2 : c ∈ b!"{}[]" ∨ c = 0x2C ∨ c = 0x0A ∨ c = 0x0D := by
          cases inner
          · rw [notIn_false] at hc; simp [plainPatt] at hc
            simp only [not_or] at h1
            simp
            rcases hc with rfl | rfl | rfl | rfl | rfl | rfl | rfl | rfl <;> simp_all
          · rw [notIn_false] at hc; simp [plainPatt] at hc
            simp only [not_or] at h1
            simp
            rcases hc with rfl | rfl | rfl | rfl | rfl | rfl | rfl | rfl | rfl <;> simp_all
        rcases h2 with h2 | rfl | rfl | rfl
        · have hq : (b!"[]{}").contains c = true := by
            simp at h2 ⊢; rcases h2 with rfl | rfl | rfl | rfl <;> simp
          rw [hq] at b5
          simp only [Bool.true_eq_false, false_or, Bool.or_eq_false_iff] at b5
          rw [plainRest_bracket _ _ _ _ _ _ _ _ _ h2 b5.1 ?_, hgo]
          simpa using b5.2
        · exfalso
          cases inner
          · revert hc; decide
          · simp at b6
        · exact absurd b1 (by decide)
        · exact absurd b2 (by decide)

theorem trimRev_ws {w s : Bytes} (h : ∀ x ∈ w, isWs1 x = true) : trimRev (w ++ s) = trimRev s := by
  induction w with
  | nil => rfl
  | cons c w ih =>
    rw [List.cons_append]
    conv => lhs; unfold trimRev
    rw [if_pos (h c (by simp))]
    exact ih fun x hx => h x (by simp [hx])

theorem trimEnd_ws {s w : Bytes} (h : ∀ x ∈ w, isWs1 x = true) : trimEnd (s ++ w) = trimEnd s := by
  unfold trimEnd
  rw [List.reverse_append, trimRev_ws (by simpa using h)]

theorem plainEnd_tail {k : Ctx} {level : Nat} {inner : Bool} {T E : Bytes} {k' : Ctx} {tail : Bytes}
    (h : PlainEnd k level inner T E k' tail) : ∀ x ∈ tail, isWs1 x = true := by
  cases h with
  | stop => simp
  | line =>
    intro x hx
    unfold plainBreak at hx
    split at hx
    · simp at hx
      rcases hx with rfl | ⟨_, rfl⟩ <;> decide
    · simp at hx; rw [hx.2]; decide
  | flow => simp

/-- `string_plain` reads exactly the scalar. -/
theorem stringPlain_read {level : Nat} {inner : Bool} {T E : Bytes} {k' : Ctx} {tail : Bytes}
    (hE : PlainEnd k level inner T E k' tail) (hB : plainBody inner E false T = true)
    (hu : Utf8 T) (hne : T ≠ []) (htrim : trimEnd T = T) (n : Nat) (hn : T.length < n) :
    stringPlain n level inner (st k pre mid (T ++ E)) = (.ok T, st k' pre (mid ++ T) E) := by
  have hl := plainLoop_read k hE hB n [] T (pre ++ mid) [] rfl hu hn
  have := context_st (k := k) (k' := k') (pre := pre) (mid := mid) (post := T ++ E) (p' := T)
    (m' := []) (post' := E) (o := .ok T) (f := do
      let v ← plainLoop level inner (plainPatt inner) n [] false
      let v := trimEnd v
      if v.isEmpty then mismatch else pure v) (by
        rw [bind_ok hl]
        simp only [trimEnd_ws (plainEnd_tail hE), htrim]
        have : T.isEmpty = false := by simpa using hne
        simp [this])
  rw [stringPlain, this]; simp

/-- `string_plain` does not match when the scalar would be empty. -/
theorem stringPlain_empty {level : Nat} {inner : Bool} {E : Bytes} {k' : Ctx} {tail : Bytes}
    (hE : PlainEnd k level inner [] E k' tail) (n : Nat) (hn : 0 < n) :
    stringPlain n level inner (st k pre mid E) = (.err .mismatch, st k' pre mid E) := by
  have hl := plainLoop_read k hE rfl n [] [] (pre ++ mid) [] rfl .nil hn
  have := context_st (k := k) (k' := k') (pre := pre) (mid := mid) (post := E) (p' := [])
    (m' := []) (post' := E) (o := .err .mismatch) (f := do
      let v ← plainLoop level inner (plainPatt inner) n [] false
      let v := trimEnd v
      if v.isEmpty then mismatch else pure v) (by
        rw [List.nil_append] at hl
        rw [bind_ok hl]
        have : trimEnd ([] ++ tail) = [] := by rw [trimEnd_ws (plainEnd_tail hE)]; rfl
        simp only [this]
        simp)
  rw [stringPlain, this]; simp

end YamlPeg
