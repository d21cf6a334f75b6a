import Verif.Proof.Leaf
import Verif.Proof.Utf8
/-!
# Node properties: identifiers, anchors, aliases and tags
-/

namespace YamlPeg
open M

/-- Check all 256 bytes. -/
theorem byte_forall {P : UInt8 → Bool} (h : (List.range 256).all (fun n => P (UInt8.ofNat n)) = true) (c : UInt8) :
    P c = true := by
  rw [List.all_eq_true] at h
  have := h c.toNat (List.mem_range.2 c.toNat_lt)
  simpa using this

/-! ## Identifiers -/

/-- A byte of an identifier behind its first one. -/
def idByte (c : UInt8) : Bool := isAlnum c || c == 0x2D

theorem takeWhile_one_cons (f : UInt8 → Bool) (k : Ctx) (pre mid : Bytes) (x : UInt8) (r : Bytes) :
    takeWhile f .one (st k pre mid (x :: r)) =
      if f x then (.ok (), st k pre (mid ++ [x]) r)
      else (.err .mismatch, st k pre [] (mid ++ x :: r)) := by
  simp only [takeWhile, st_le, if_true, st_rest, takeCount, TakeOpt.lo?]
  by_cases h : f x = true
  · simp [h, st, takeCount]; omega
  · simp [h, st]

theorem takeWhile_one_nil (f : UInt8 → Bool) (k : Ctx) (pre mid : Bytes) :
    takeWhile f .one (st k pre mid []) = (.err .mismatch, st k pre [] mid) := by
  simp only [takeWhile, st_le, if_true, st_rest, takeCount, TakeOpt.lo?]
  simp [st]

/-- The first byte exists and is alphanumeric. -/
def headAlnum : Bytes → Bool
  | [] => false
  | c :: _ => isAlnum c

/-- Exact behaviour of `identifier`. -/
theorem identifier_eq (k : Ctx) (pre mid post : Bytes) : identifier (st k pre mid post) =
    if headAlnum post then (.ok (), st k pre (mid ++ post.takeWhile idByte) (post.dropWhile idByte))
    else (.err .mismatch, st k pre [] (mid ++ post)) := by
  cases post with
  | nil => simp [identifier, bind_err (takeWhile_one_nil ..), headAlnum]
  | cons x r =>
    by_cases h : isAlnum x = true
    · rw [identifier, bind_ok (by rw [takeWhile_one_cons, if_pos h]), if_pos (show headAlnum (x :: r) = true from h)]
      have hx : idByte x = true := by simp [idByte, h]
      rw [show (fun c => isAlnum c || c == 0x2D) = idByte from rfl, takeWhile_more0]
      simp [List.takeWhile_cons, List.dropWhile_cons, hx]
    · rw [identifier, bind_err (by rw [takeWhile_one_cons, if_neg h]), if_neg (show ¬ headAlnum (x :: r) = true from h)]

/-- Exact behaviour of `anchor` behind `&`. -/
theorem anchor_eq (k : Ctx) (pre mid r : Bytes) : anchor (st k pre mid (0x26 :: r)) =
    if headAlnum r then
      (.ok (lossy (r.takeWhile idByte)), st k pre (mid ++ 0x26 :: r.takeWhile idByte) (r.dropWhile idByte))
    else (.err .mismatch, st k pre (mid ++ [0x26]) r) := by
  rw [anchor, bind_ok (sym_hit ..)]
  by_cases h : headAlnum r = true
  · rw [if_pos h, context_st (o := .ok (lossy (r.takeWhile idByte))) (p' := []) (m' := r.takeWhile idByte)
      (post' := r.dropWhile idByte) (k' := k)]
    · simp
    · rw [bind_ok (by rw [identifier_eq, if_pos h])]
      simp
  · rw [if_neg h, context_st (o := .err .mismatch) (p' := []) (m' := []) (post' := r) (k' := k)]
    · simp
    · rw [bind_err (by rw [identifier_eq, if_neg h])]
      simp


/-- An identifier: a letter or digit, then letters, digits and `-`. -/
def IsIdent (x : Bytes) : Prop := headAlnum x = true ∧ ∀ c ∈ x, idByte c = true

/-- Nothing that would prolong an identifier. -/
def IdEnd (E : Bytes) : Prop := ∀ c r, E = c :: r → idByte c = false

theorem isAlnum_ascii {c : UInt8} (h : isAlnum c = true) : c < 0x80 := by
  have := byte_forall (P := fun x => !(isAlnum x) || decide (x < 0x80)) (by decide +kernel) c
  simpa [h] using this

theorem idByte_ascii {c : UInt8} (h : idByte c = true) : c < 0x80 := by
  simp only [idByte, Bool.or_eq_true, beq_iff_eq] at h
  rcases h with h | rfl
  · exact isAlnum_ascii h
  · decide

theorem IsIdent.lossy {x : Bytes} (h : IsIdent x) : lossy x = x :=
  lossy_ascii _ fun c hc => idByte_ascii (h.2 c hc)

theorem IsIdent.ne {x : Bytes} (h : IsIdent x) : x ≠ [] := by rintro rfl; simp [IsIdent, headAlnum] at h

theorem IsIdent.split {x E : Bytes} (h : IsIdent x) (hE : IdEnd E) :
    (x ++ E).takeWhile idByte = x ∧ (x ++ E).dropWhile idByte = E := by
  replace h := h.2
  induction x with
  | nil =>
    cases E with
    | nil => simp
    | cons c r => simp [List.takeWhile, List.dropWhile, hE c r rfl]
  | cons c x ih =>
    have hc := h c (by simp)
    have := ih fun d hd => h d (by simp [hd])
    simp [List.takeWhile, List.dropWhile, hc, this]

theorem IsIdent.head {x : Bytes} (h : IsIdent x) (E : Bytes) : headAlnum (x ++ E) = true := by
  obtain ⟨h, _⟩ := h
  cases x with
  | nil => simp [headAlnum] at h
  | cons c r => exact h

theorem identifier_read {x E : Bytes} (hx : IsIdent x) (hE : IdEnd E) (k : Ctx) (pre mid : Bytes) :
    identifier (st k pre mid (x ++ E)) = (.ok (), st k pre (mid ++ x) E) := by
  rw [identifier_eq, if_pos (hx.head E), (hx.split hE).1, (hx.split hE).2]

theorem identifier_none {E : Bytes} (hE : IdEnd E) (k : Ctx) (pre mid : Bytes) :
    identifier (st k pre mid E) = (.err .mismatch, st k pre [] (mid ++ E)) := by
  rw [identifier_eq, if_neg]
  cases E with
  | nil => simp [headAlnum]
  | cons c r =>
    have := hE c r rfl
    simp only [idByte, Bool.or_eq_false_iff] at this
    simp [headAlnum, this.1]

/-! ## Anchors and aliases -/

theorem anchor_read {a E : Bytes} (ha : IsIdent a) (hE : IdEnd E) (k : Ctx) (pre mid : Bytes) :
    anchor (st k pre mid (0x26 :: (a ++ E))) = (.ok a, st k pre (mid ++ 0x26 :: a) E) := by
  rw [anchor_eq, if_pos (ha.head E), (ha.split hE).1, (ha.split hE).2, ha.lossy]

theorem anchorUse_read {a E : Bytes} (ha : IsIdent a) (hE : IdEnd E) (k : Ctx) (pre mid : Bytes) :
    anchorUse (st k pre mid (0x2A :: (a ++ E))) = (.ok a, st k pre (mid ++ 0x2A :: a) E) := by
  rw [anchorUse, bind_ok (sym_hit ..), context_st (o := .ok a) (p' := []) (m' := a) (post' := E) (k' := k)]
  · simp
  · rw [bind_ok (identifier_read ha hE ..)]
    simp [ha.lossy]

/-! ## Tags -/

/-- What a tag stands for, given the table of handles. -/
inductive TagText (tbl : List (Bytes × Bytes)) : Bytes → Bytes → Prop
  /-- `!x`: a local tag -/
  | local {x} : IsIdent x → TagText tbl (0x21 :: x) x
  /-- `!h!x`: the prefix of the handle, then `x` -/
  | named {h x p} : IsIdent h → IsIdent x → mapGet h tbl = some p → TagText tbl (0x21 :: (h ++ 0x21 :: x)) (p ++ x)
  /-- `!!x`: the prefix of the secondary handle, then `x` -/
  | second {x p} : IsIdent x → mapGet b!"!!" tbl = some p → TagText tbl (0x21 :: 0x21 :: x) (p ++ x)
  /-- `!<t>`: verbatim -/
  | verbatim {t} : t ≠ [] → Utf8 t → (∀ c ∈ t, c ∉ b!" <>\n\r") → TagText tbl (0x21 :: 0x3C :: (t ++ [0x3E])) t

/-- Behind a tag: no further byte of it. -/
def TagEnd (E : Bytes) : Prop := IdEnd E ∧ ∀ r, E ≠ 0x21 :: r

theorem tagSuffix_some {x E : Bytes} (hx : IsIdent x) (hE : IdEnd E) (k : Ctx) (pre mid : Bytes) :
    context (do if ← isOk identifier then text else pure [] : PM Bytes) (st k pre mid (x ++ E)) =
      (.ok x, st k pre (mid ++ x) E) := by
  rw [context_st (o := .ok x) (p' := []) (m' := x) (post' := E) (k' := k)]
  · simp
  · rw [bind_ok (isOk_ok (identifier_read hx hE ..))]
    simp [hx.lossy]

theorem tagSuffix_none {E : Bytes} (hE : IdEnd E) (k : Ctx) (pre mid : Bytes) :
    context (do if ← isOk identifier then text else pure [] : PM Bytes) (st k pre mid E) =
      (.ok [], st k pre mid E) := by
  rw [context_st (o := .ok []) (p' := []) (m' := []) (post' := E) (k' := k)]
  · simp
  · rw [bind_ok (isOk_err (identifier_none hE ..))]
    simp

theorem tagLookup_read {key p : Bytes} {k : Ctx} (h : mapGet key k.tag = some p) (pre mid post : Bytes) :
    tagLookup key (st k pre mid post) = (.ok p, st k pre mid post) := by
  have : mapGet key (st k pre mid post).tag = some p := h
  simp only [tagLookup, this]

theorem not_alnum (c : UInt8) (h : idByte c = false) (r : Bytes) : IdEnd (c :: r) := by
  rintro _ _ ⟨⟩; exact h

/-- The body of `tag`, behind the `!`. -/
theorem tagBody_read {tbl : List (Bytes × Bytes)} {tg t E : Bytes} (h : TagText tbl tg t) (hE : TagEnd E) {k : Ctx}
    (hk : k.tag = tbl) (pre : Bytes) : ∃ r, tg = 0x21 :: r ∧ (do
      orDefault () identifier
      let handle ← text
      let pre ← tagPrefixPart handle
      let doc ← context (do
        if ← isOk identifier then text else pure [])
      pure (pre ++ doc) : PM Bytes) (st k pre [] (r ++ E)) = (.ok t, st k pre r E) := by
  subst hk
  obtain ⟨hE, hE2⟩ := hE
  cases h with
  | «local» hx =>
    refine ⟨_, rfl, ?_⟩
    rw [bind_ok (orDefault_ok (identifier_read hx hE ..)), bind_ok (text_st ..)]
    simp only [List.nil_append, hx.lossy]
    rw [bind_ok (a := []) (s' := st k pre [] (t ++ E))]
    · rw [bind_ok (tagSuffix_some hx hE ..)]; simp
    · have hne : t.isEmpty = false := by simpa using hx.ne
      rw [tagPrefixPart]
      simp only [hne, Bool.not_false, if_true]
      rw [bind_ok (isOk_err (s' := st k pre [] (t ++ E)) (e := .mismatch) ?_)]
      · simp
      · cases E with
        | nil => simp
        | cons c r => exact sym_miss _ _ _ _ _ _ (by rintro rfl; exact hE2 r rfl)
  | @named h x p hh hx hp =>
    refine ⟨_, rfl, ?_⟩
    have h1 : IdEnd (0x21 :: (x ++ E)) := not_alnum _ (by decide) _
    rw [List.append_assoc, List.cons_append, bind_ok (orDefault_ok (identifier_read hh h1 ..)), bind_ok (text_st ..)]
    simp only [List.nil_append, hh.lossy]
    rw [bind_ok (a := p) (s' := st k pre (h ++ [0x21]) (x ++ E))]
    · rw [bind_ok (tagSuffix_some hx hE ..)]; simp
    · have hne : h.isEmpty = false := by simpa using hh.ne
      rw [tagPrefixPart]
      simp only [hne, Bool.not_false, if_true]
      rw [bind_ok (isOk_ok (sym_hit ..))]
      simp only [if_true]
      exact tagLookup_read hp ..
  | @second x p hx hp =>
    refine ⟨_, rfl, ?_⟩
    have h1 : IdEnd (0x21 :: (x ++ E)) := not_alnum _ (by decide) _
    rw [List.cons_append, bind_ok (orDefault_err (identifier_none h1 ..)), bind_ok (text_st ..)]
    simp only [List.nil_append, show lossy [] = [] from rfl]
    rw [bind_ok (a := p) (s' := st k pre [0x21] (x ++ E))]
    · rw [bind_ok (tagSuffix_some hx hE ..)]; simp
    · rw [tagPrefixPart]
      simp only [List.isEmpty_nil, Bool.not_true, Bool.false_eq_true, if_false]
      rw [bind_ok (isOk_err (sym_miss _ _ _ _ _ _ (by decide)))]
      simp only [Bool.false_eq_true, if_false]
      rw [List.nil_append, bind_ok (isOk_ok (sym_hit ..))]
      simp only [if_true]
      exact tagLookup_read hp ..
  | verbatim hne hu ht =>
    refine ⟨_, rfl, ?_⟩
    have h1 : IdEnd (0x3C :: (t ++ 0x3E :: E)) := not_alnum _ (by decide) _
    rw [List.cons_append, List.append_assoc, List.singleton_append, bind_ok (orDefault_err (identifier_none h1 ..)),
      bind_ok (text_st ..)]
    simp only [List.nil_append, show lossy [] = [] from rfl]
    have hw := takeWhile_all (f := notIn b!" <>\n\r") (d := t) (fun c hc => by simpa [notIn] using ht c hc) (0x3E :: E)
      (by rintro _ _ ⟨⟩; decide)
    rw [bind_ok (a := t) (s' := st k pre (0x3C :: (t ++ [0x3E])) E)]
    · rw [bind_ok (tagSuffix_none hE ..)]; simp
    · rw [tagPrefixPart]
      simp only [List.isEmpty_nil, Bool.not_true, Bool.false_eq_true, if_false]
      rw [bind_ok (isOk_ok (sym_hit ..))]
      simp only [if_true]
      rw [bind_ok (context_st (o := .ok t) (p' := []) (m' := t) (post' := 0x3E :: E) (k' := k) ?_)]
      · rw [bind_ok (sym_hit ..)]; simp
      · rw [bind_ok (by rw [takeWhile_more1, hw.1, hw.2, if_neg hne])]
        simp [lossy_utf8 hu]

theorem tag_read {tbl : List (Bytes × Bytes)} {tg t E : Bytes} (h : TagText tbl tg t) (hE : TagEnd E) {k : Ctx}
    (hk : k.tag = tbl) (pre mid : Bytes) : tag (st k pre mid (tg ++ E)) = (.ok t, st k pre (mid ++ tg) E) := by
  obtain ⟨r, rfl, hr⟩ := tagBody_read h hE hk (pre ++ (mid ++ [0x21]))
  rw [tag, List.cons_append, bind_ok (sym_hit ..), context_st (o := .ok t) (p' := []) (m' := r) (post' := E) (k' := k)]
  · simp
  · simpa using hr

end YamlPeg
