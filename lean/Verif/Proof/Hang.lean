import Verif.Proof.PlainHang
import Verif.Proof.Leaves
import Verif.Proof.Block
import Verif.Proof.Fuel
/-!
# Parses that never return

A quoted string (grammar.rs:82-125) whose closing quote is missing: at the end of the
input no alternative of the loop matches, and the loop starts over.
-/

namespace YamlPeg
open M

theorem gapSpec_append' {cmt : Bool} {E taken left : Bytes} {t : Nat} (hg : gapSpec cmt E = some (t, taken, left)) :
    taken ++ left = E := by
  have e := gapLead_append E cmt
  simp only [gapSpec] at hg
  split at hg
  · simp at hg
  · simp only [Option.some.injEq, Prod.mk.injEq] at hg
    obtain ⟨_, rfl, rfl⟩ := hg
    rw [List.append_assoc, List.append_assoc, gapMore_append, List.take_append_drop, e]

/-- The body of a quoted string has no closing quote: every quote is part of the
two-byte escape `a q` (`\'\'` or `\\"`). -/
def unclosed (a q : UInt8) : Bytes → Bool
  | [] => true
  | [c] => c != q
  | c :: d :: r => if c == a && d == q then unclosed a q r else c != q && unclosed a q (d :: r)

theorem unclosed_skip {a q x : UInt8} (ha : x ≠ a) (hq : x ≠ q) (r : Bytes) : unclosed a q (x :: r) = unclosed a q r := by
  cases r with
  | nil => simp [unclosed, hq]
  | cons d r => simp [unclosed, ha, hq]

theorem unclosed_drop {a q : UInt8} {p r : Bytes} (hp : ∀ x ∈ p, x ≠ a ∧ x ≠ q) :
    unclosed a q (p ++ r) = unclosed a q r := by
  induction p with
  | nil => rfl
  | cons x p ih =>
    rw [List.cons_append, unclosed_skip (hp x (by simp)).1 (hp x (by simp)).2]
    exact ih fun y hy => hp y (by simp [hy])

theorem nlTaken (r : Bytes) : ∀ x ∈ r.take (nlLen r), x = 0x0A ∨ x = 0x0D := by
  unfold nlLen
  split <;> simp

theorem gapMore_taken (n : Nat) (r : Bytes) : ∀ x ∈ (gapMore false n r).2.1, x = 0x0A ∨ x = 0x0D ∨ isBlank x = true := by
  induction n generalizing r with
  | zero => intro x hx; simp [gapMore] at hx
  | succ n ih =>
    intro x hx
    simp only [gapMore, gapLine, Bool.false_eq_true, if_false] at hx
    split at hx
    · simp at hx
    · simp only [List.mem_append] at hx
      rcases hx with hx | hx | hx
      · exact .inr (.inr (mem_takeWhile hx))
      · have := nlTaken _ x hx
        rcases this with h | h
        · exact .inl h
        · exact .inr (.inl h)
      · exact ih _ x hx

theorem quotedLoop_hangs {a q : UInt8} (haq : (a = 0x27 ∧ q = 0x27) ∨ (a = 0x5C ∧ q = 0x22)) :
    ∀ (n : Nat) (v : Bytes) (k : Ctx) (pre mid post : Bytes),
    unclosed a q post = true → (quotedLoop q [a, q] n v (st k pre mid post)).1 = .diverge := by
  intro n
  induction n with
  | zero => intros; rfl
  | succ n ih =>
    intro v k pre mid post hq
    rw [quotedLoop, bind_ok (forward_st ..), bind_ok (takeWhile_more0 ..)]
    have hr : unclosed a q (post.dropWhile (notIn [0x0A, 0x0D, 0x5C, q])) = true := by
      rw [← hq]
      conv => rhs; rw [← List.takeWhile_append_dropWhile (p := notIn [0x0A, 0x0D, 0x5C, q]) (l := post)]
      rw [unclosed_drop]
      intro x hx
      have := mem_takeWhile hx
      simp [notIn] at this
      obtain ⟨-, -, h1, h2⟩ := this
      rcases haq with ⟨rfl, rfl⟩ | ⟨rfl, rfl⟩
      · exact ⟨h2, h2⟩
      · exact ⟨h1, h2⟩
    generalize post.dropWhile (notIn [0x0A, 0x0D, 0x5C, q]) = r at hr
    rw [bind_ok (text_st ..)]
    simp only
    rw [bind_ok (forward_st ..)]
    by_cases h1 : [a, q].isPrefixOf r = true
    · rw [bind_ok (isOk_ok (by rw [symSeq_eq, if_pos h1]))]
      simp only [if_true]
      obtain ⟨s, rfl⟩ := List.isPrefixOf_iff_prefix.mp h1
      refine ih _ _ _ _ _ ?_
      simpa [unclosed] using hr
    · rw [bind_ok (isOk_err (by rw [symSeq_eq, if_neg h1]))]
      simp only [Bool.false_eq_true, if_false]
      have hws : ∀ x : UInt8, x = 0x0A ∨ x = 0x0D ∨ isBlank x = true → x ≠ a ∧ x ≠ q := by
        intro x hx
        rcases haq with ⟨rfl, rfl⟩ | ⟨rfl, rfl⟩ <;> rcases hx with rfl | rfl | hx <;>
          first
          | decide
          | (constructor <;> (rintro rfl; revert hx; decide))
      cases hg : gapSpec false ([] ++ r) with
      | some x =>
        obtain ⟨t, taken, left⟩ := x
        have hl : taken ++ left = r := gapSpec_append' hg
        rw [bind_ok (try_ok (by rw [gap_eq, hg]))]
        simp only
        rw [ws, bind_ok (takeWhile_more0 ..)]
        refine ih _ _ _ _ _ ?_
        have htk : ∀ x ∈ taken, x = 0x0A ∨ x = 0x0D ∨ isBlank x = true := by
          simp only [gapSpec, gapLead, Bool.false_eq_true, if_false] at hg
          split at hg
          · simp at hg
          · simp only [Option.some.injEq, Prod.mk.injEq] at hg
            obtain ⟨-, rfl, -⟩ := hg
            intro x hx
            simp only [List.nil_append, List.mem_append] at hx
            rcases hx with hx | hx
            · rcases nlTaken _ x hx with h | h
              · exact .inl h
              · exact .inr (.inl h)
            · exact gapMore_taken _ _ x hx
        rw [← hl, unclosed_drop fun x hx => hws x (htk x hx)] at hr
        rw [← hr]
        conv => rhs; rw [← List.takeWhile_append_dropWhile (p := isBlank) (l := left)]
        rw [unclosed_drop fun x hx => hws x (.inr (.inr (mem_takeWhile hx)))]
        rfl
      | none =>
        rw [bind_ok (try_err (by rw [gap_eq, hg]))]
        simp only [gapLead, Bool.false_eq_true, if_false, List.nil_append, List.append_nil]
        cases r with
        | nil =>
          rw [bind_ok (isOk_err (sym_nil ..))]
          simp only [Bool.false_eq_true, if_false]
          rw [bind_ok (isOk_err (sym_nil ..))]
          exact ih _ _ _ _ _ (by simp [unclosed])
        | cons x r =>
          have hxq : x ≠ q := by
            rintro rfl
            cases r with
            | nil => simp [unclosed] at hr
            | cons d r =>
              simp only [List.isPrefixOf, Bool.and_eq_true, beq_iff_eq, List.isPrefixOf_nil_left, and_true] at h1
              unfold unclosed at hr
              split at hr
              · rename_i h; simp only [Bool.and_eq_true, beq_iff_eq] at h; exact h1 ⟨h.1.symm, h.2.symm⟩
              · simp at hr
          have hnext : unclosed a q r = true := by
            cases r with
            | nil => rfl
            | cons d r =>
              simp only [List.isPrefixOf, Bool.and_eq_true, beq_iff_eq, List.isPrefixOf_nil_left, and_true] at h1
              unfold unclosed at hr
              split at hr
              · rename_i h; simp only [Bool.and_eq_true, beq_iff_eq] at h; exact absurd ⟨h.1.symm, h.2.symm⟩ h1
              · simp only [Bool.and_eq_true] at hr; exact hr.2
          by_cases hx : x = 0x5C
          · subst hx
            rw [bind_ok (isOk_ok (sym_hit ..))]
            exact ih _ _ _ _ _ hnext
          · rw [bind_ok (isOk_err (sym_miss _ _ _ _ _ _ hx))]
            simp only [Bool.false_eq_true, if_false, List.nil_append]
            rw [bind_ok (isOk_err (sym_miss _ _ _ _ _ _ hxq))]
            exact ih _ _ _ _ _ (by simpa using hr)

theorem stringQuoted_hangs {a q : UInt8} (haq : (a = 0x27 ∧ q = 0x27) ∨ (a = 0x5C ∧ q = 0x22)) {body : Bytes}
    (hq : unclosed a q body = true) (n : Nat) (k : Ctx) (pre mid : Bytes) :
    (stringQuoted n q [a, q] (st k pre mid (q :: body))).1 = .diverge := by
  rw [stringQuoted]
  refine context_div _ _ _ _ ?_
  rw [bind_ok (sym_hit ..), bind_ok (forward_st ..), ws, bind_ok (takeWhile_more0 ..), bind_ok (text_st ..)]
  refine quotedLoop_hangs haq _ _ _ _ _ _ ?_
  rw [← hq]
  conv => rhs; rw [← List.takeWhile_append_dropWhile (p := isBlank) (l := body)]
  rw [unclosed_drop]
  · rfl
  intro x hx
  have hx := mem_takeWhile hx
  rcases haq with ⟨rfl, rfl⟩ | ⟨rfl, rfl⟩ <;> constructor <;> (rintro rfl; revert hx; decide)

/-! ## From the scalar to the document -/

theorem lift_div {α : Type} {x : PM α} {l : Loader} (h : (x l.parser).1 = .diverge) : (lift x l).1 = .diverge := h

/-- A scalar that is tried where a value begins. -/
def valueHead (c : UInt8) : Bool :=
  tokHead c && c != 0x7C && c != 0x3E && c != 0x2D && c != 0x3F && c != 0x26 && c != 0x21

theorem scalarNode_div {f : LM Yaml} {k : Ctx} {L : Loader} {pre post : Bytes} (h : noProps post = true)
    (hf : (f (ld L (st k pre [] post))).1 = .diverge) : (scalarNode f (ld L (st k pre [] post))).1 = .diverge := by
  rw [scalarNode, bind_ok (nodeProps_none _ _ _ _ h)]
  simp only
  rw [bind_ok (get_run _)]
  exact bind_div hf

theorem scalarTerm_div {sc : ScalarCall} {n d level : Nat} {flow : Bool} {l : Loader}
    (h : (scalarAtom n level flow l).1 = .diverge) : (scalarTerm sc n d level flow l).1 = .diverge := by
  cases d with
  | zero => rfl
  | succ d => rw [scalarTerm, scalarTermWith]; exact bind_div h

/-- A value at level 0 whose first scalar never ends. -/
theorem scalar_div {n : Nat} {flow : Bool} {k : Ctx} {L : Loader} {pre r : Bytes} {c : UInt8} (hc : valueHead c = true)
    (h : ∀ n, (scalarAtom n 1 flow (ld L (st k pre [] (c :: r)))).1 = .diverge) :
    (scalar n 0 false flow (ld L (st k pre [] (c :: r)))).1 = .diverge := by
  simp only [valueHead, Bool.and_eq_true, bne_iff_ne, ne_eq] at hc
  obtain ⟨⟨⟨⟨⟨⟨ht, h7c⟩, h3e⟩, h2d⟩, h3f⟩, h26⟩, h21⟩ := hc
  have hnp : noProps (c :: r) = true := by simp [noProps, h26, h21]
  cases n with
  | zero => rfl
  | succ n =>
    rw [scalar]
    refine scalarNode_div hnp ?_
    rw [scalarBody]
    have hlit : ∀ (x : UInt8) (f : Unit → PM Bytes), c ≠ x →
        try? (lift (sym x >>= f)) (ld L (st k pre [] (c :: r))) = (.ok none, ld L (st k pre [] (c :: r))) := by
      intro x f hx
      rw [try_err (lift_of (s' := st k pre [] (c :: r)) (o := .err .mismatch) ?_)]
      rw [bind_err (sym_no _ _ _ _ (by rintro _ ⟨⟩; exact hx rfl))]
    rw [stringLiteral, bind_ok (hlit _ _ h7c)]
    simp only
    rw [stringFolded, bind_ok (hlit _ _ h3e)]
    simp only
    refine orElse_div ?_
    have hfirst := firstItem_inline k L pre [] ht (r := r) 0
    have hfw : lift forward (ld L (st k pre [] (c :: r))) = (.ok (), ld L (st k pre [] (c :: r))) := by
      rw [lift_of (forward_st ..)]; simp
    cases n with
    | zero => rfl
    | succ n =>
      have hseq : seq (scalar (n + 1)) (n + 1) 0 false (ld L (st k pre [] (c :: r))) = (.err .mismatch, ld L (st k pre [] (c :: r))) := by
        rw [seq, seqLoop]
        refine bind_err ?_
        rw [bind_ok hfw]
        refine bind_err ?_
        simp only [List.isEmpty_nil, if_true]
        rw [bind_ok hfirst]
        refine bind_err (lift_of ?_)
        exact sym_no _ _ _ _ (by rintro _ ⟨⟩; exact h2d rfl)
      have hmap : (YamlPeg.map (scalar (n + 1)) (n + 1) 0 false flow (ld L (st k pre [] (c :: r)))).1 = .diverge := by
        rw [YamlPeg.map, mapLoop]
        refine bind_div ?_
        rw [mapStep, bind_ok hfw]
        simp only [List.isEmpty_nil, if_true]
        rw [bind_ok hfirst, bind_ok hfw]
        refine bind_div ?_
        have hcm : complexMapping (st k pre [] (c :: r)) = (.err .mismatch, st k pre [] (c :: r)) := by
          rw [complexMapping, bind_err (sym_no _ _ _ _ (by rintro _ ⟨⟩; exact h3f rfl))]
        rw [bind_ok (isOk_err (lift_of hcm))]
        simp only [Bool.false_eq_true, if_false]
        rw [scalarFlow]
        exact scalarNode_div hnp (scalarTerm_div (h _))
      unfold orElseMismatch
      rw [hseq]
      simp only
      rcases hm : YamlPeg.map (scalar (n + 1)) (n + 1) 0 false flow (ld L (st k pre [] (c :: r))) with ⟨o, l'⟩
      rw [hm] at hmap
      simp only at hmap
      subst hmap
      rfl

/-- A document whose first scalar never ends. -/
theorem doc_div {n : Nat} {k : Ctx} {L : Loader} {pre mid r : Bytes} {c : UInt8} (hc : valueHead c = true)
    (hs : headIn b!":{}[] ,\n\r" (c :: r) = false)
    (h : ∀ n p L', (scalarAtom n 1 false (ld L' (st k p [] (c :: r)))).1 = .diverge) :
    (doc n (ld L (st k pre mid (c :: r)))).1 = .diverge := by
  have hb : context (orDefault () bound) (st k pre mid (c :: r)) = (.ok (), st k pre mid (c :: r)) := by
    rw [context_st (o := .ok ()) (p' := []) (m' := []) (post' := c :: r) (k' := k)]
    · simp
    · unfold orDefault
      rw [bound_eq, if_neg (by rw [hs]; simp)]; simp
  rw [doc, bind_ok (lift_of hb), bind_ok (lift_of (forward_st ..)), bind_ok (modify_run ..)]
  refine bind_div ?_
  exact scalar_div (L := { L with anchors := L.anchors ++ [[]] }) hc fun n => h n _ _

/-- A stream whose first scalar never ends. -/
theorem loaderParse_div {n : Nat} {k : Ctx} {L : Loader} {r : Bytes} {c : UInt8} (hc : valueHead c = true)
    (hs : headIn b!":{}[] ,\n\r" (c :: r) = false) (hp : c ≠ 0x25)
    (h : ∀ n p L', (scalarAtom n 1 false (ld L' (st k p [] (c :: r)))).1 = .diverge) :
    (loaderParse n (ld L (st k [] [] (c :: r)))).1 = .diverge := by
  cases n with
  | zero => rfl
  | succ n =>
    have ht : tokHead c = true := by
      simp only [valueHead, Bool.and_eq_true] at hc; exact hc.1.1.1.1.1.1
    have h2d : c ≠ 0x2D := by
      simp only [valueHead, Bool.and_eq_true, bne_iff_ne] at hc; exact hc.1.1.1.2
    have hd : directives (n + 1) (ld L (st k [] [] (c :: r))) = (.ok (), ld L (st k [] [] (c :: r))) := by
      have : context directive (st k [] [] (c :: r)) = (.err .mismatch, st k [] [] (c :: r)) := by
        rw [context_st (o := .err .mismatch) (p' := []) (m' := []) (post' := c :: r) (k' := k)]
        · simp
        · rw [directive, bind_err (sym_no _ _ _ _ (by rintro _ ⟨⟩; exact hp rfl))]; simp
      simp only [directives, lift_of this]
    rw [loaderParse, bind_ok hd, bind_ok (lift_of (orDefault_err (gap_tok _ _ _ ht _)))]
    have hm : symSeq b!"---" (st k [] [] (c :: r)) = (.err .mismatch, st k [] [] (c :: r)) := by
      rw [symSeq_eq, if_neg (by simp [List.isPrefixOf, Ne.symm h2d])]; simp
    rw [bind_ok (lift_of (orDefault_err hm))]
    exact bind_div (doc_div hc hs h)

theorem scalarAtom_single_div {body : Bytes} (hq : unclosed 0x27 0x27 body = true) (n level : Nat) (flow : Bool) (k : Ctx) (L : Loader) (pre : Bytes) :
    (scalarAtom n level flow (ld L (st k pre [] (0x27 :: body)))).1 = .diverge := by
  have hnn : NotNum (0x27 :: body) := .inl (by simp [unsigned, isDigit])
  rw [scalarAtom, bind_ok (try_err (lift_of (float_no _ _ _ hnn)))]
  simp only
  rw [bind_ok (try_err (lift_of (sciFloat_no _ _ _ hnn)))]
  simp only
  rw [bind_ok (try_err (lift_of (int_no _ _ _ hnn)))]
  simp only
  rw [bind_ok (try_err (lift_of (anchorUse_no _ _ _ (by simp))))]
  simp only
  exact bind_div (try_div (lift_div (stringQuoted_hangs (.inl ⟨rfl, rfl⟩) hq _ _ _ _)))

theorem scalarAtom_double_div {body : Bytes} (hq : unclosed 0x5C 0x22 body = true) (n level : Nat) (flow : Bool) (k : Ctx) (L : Loader) (pre : Bytes) :
    (scalarAtom n level flow (ld L (st k pre [] (0x22 :: body)))).1 = .diverge := by
  have hnn : NotNum (0x22 :: body) := .inl (by simp [unsigned, isDigit])
  rw [scalarAtom, bind_ok (try_err (lift_of (float_no _ _ _ hnn)))]
  simp only
  rw [bind_ok (try_err (lift_of (sciFloat_no _ _ _ hnn)))]
  simp only
  rw [bind_ok (try_err (lift_of (int_no _ _ _ hnn)))]
  simp only
  rw [bind_ok (try_err (lift_of (anchorUse_no _ _ _ (by simp))))]
  simp only
  rw [bind_ok (try_err (lift_of (stringQuoted_no _ _ _ _ _ _ (by simp))))]
  simp only
  exact bind_div (try_div (lift_div (stringQuoted_hangs (.inr ⟨rfl, rfl⟩) hq _ _ _ _)))

/-- A document whose first scalar, behind a space, never ends. -/
theorem doc_div_space {n : Nat} {k : Ctx} {L : Loader} {pre mid r : Bytes} {c : UInt8} (hc : valueHead c = true)
    (h : ∀ n p L', (scalarAtom n 1 false (ld L' (st k p [] (c :: r)))).1 = .diverge) :
    (doc n (ld L (st k pre mid (0x20 :: c :: r)))).1 = .diverge := by
  have hcb : isBlank c = false := by
    simp only [valueHead, Bool.and_eq_true] at hc
    exact tokHead_blank hc.1.1.1.1.1.1
  have hb : context (orDefault () bound) (st k pre mid (0x20 :: c :: r)) = (.ok (), st k pre (mid ++ [0x20]) (c :: r)) := by
    rw [context_st (o := .ok ()) (p' := []) (m' := [0x20]) (post' := c :: r) (k' := k)]
    · simp
    · unfold orDefault
      rw [bound_eq, if_pos (by rfl)]
      simp [List.takeWhile_cons, List.dropWhile_cons, hcb, show isBlank 0x20 = true by decide]
  rw [doc, bind_ok (lift_of hb), bind_ok (lift_of (forward_st ..)), bind_ok (modify_run ..)]
  refine bind_div ?_
  exact scalar_div (L := { L with anchors := L.anchors ++ [[]] }) hc fun n => h n _ _

/-- A call with stable outcomes that hangs for large bounds hangs. -/
theorem hangs_of_large {α : Type} {f : Nat → Out α} (hf : ∀ n m, n ≤ m → f n ≠ .diverge → f m = f n) {N : Nat}
    (h : ∀ n, N ≤ n → f n = .diverge) (n : Nat) : f n = .diverge := by
  apply Classical.byContradiction
  intro hn
  have := hf n (max N n) (by omega) hn
  rw [h _ (by omega)] at this
  exact hn this.symm

/-- The first document of a stream. -/
def firstDoc (n : Nat) : LM Node := do
  directives n
  let _ ← lift (orDefault 0 (gap true))
  lift (orDefault () (symSeq b!"---"))
  doc n

theorem firstDoc_le {n m : Nat} (h : n ≤ m) : Le (firstDoc n) (firstDoc m) :=
  .bind (directives_le h) fun _ => .bind (.refl _) fun _ => .bind (.refl _) fun _ => doc_le h

theorem loaderParse_first (n : Nat) (l : Loader) : loaderParse n l = (firstDoc n >>= fun d => docsLoop n n [d]) l := by
  simp only [loaderParse, firstDoc, bind_run]
  rcases directives n l with ⟨r, l1⟩
  cases r <;> try rfl
  simp only
  rcases lift (orDefault 0 (gap true)) l1 with ⟨r, l2⟩
  cases r <;> try rfl
  simp only
  rcases lift (orDefault () (symSeq b!"---")) l2 with ⟨r, l3⟩
  cases r <;> try rfl

end YamlPeg
