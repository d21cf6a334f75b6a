import Verif.Proof.LoaderInv
/-! # The invariant at the level of documents and of `parse` -/

namespace YamlPeg
open M

/-- The invariant between documents. -/
structure L0 (c : LCfg) (l : Loader) : Prop where
  parser : PWF c.p l.parser
  cyc : l.cyclicMode = c.cyc
  hash : l.hash = c.hash
  anchors : l.anchors.length = l.docInd
  nodes : ∀ A ∈ l.anchors, ∀ k n, mapGet k A = some n → NodeOk c n
  ordered : ∀ A ∈ l.anchors, Ordered A

/-- Between documents: tables of finished documents do not change. -/
structure LRel0 (l l' : Loader) : Prop where
  docInd : l.docInd ≤ l'.docInd
  done : ∀ i, i < l.docInd → l'.anchors[i]? = l.anchors[i]?

/-- The frame between documents. -/
def LF0 (c : LCfg) : LFrame Loader where
  W := L0 c
  R := LRel0
  Em _ := True
  T m := ∃ p, p ≤ c.doc.length ∧ indicatedMsg c.doc p = some m
  X := LPanic c
  D := True
  refl l _ := ⟨Nat.le_refl _, fun _ _ => rfl⟩
  trans a b d h1 h2 := ⟨Nat.le_trans h1.docInd h2.docInd, fun i hi => by
    rw [h2.done i (Nat.lt_of_lt_of_le hi h1.docInd), h1.done i hi]⟩

section
variable {c : LCfg} {α : Type}

theorem lift_l0 {x : PM α} {V : α → Prop} (h : (PF c.p).Holds x V) : (LF0 c).Holds (lift x) V := by
  intro l hl
  obtain ⟨h1, h2, h3⟩ := h l.parser hl.parser
  simp only [lift]
  rcases hx : x l.parser with ⟨r, p⟩
  rw [hx] at h1 h2 h3
  have w : L0 c { l with parser := p } := ⟨h1, hl.cyc, hl.hash, hl.anchors, hl.nodes, hl.ordered⟩
  have r' : LRel0 l { l with parser := p } := ⟨Nat.le_refl _, fun _ _ => rfl⟩
  cases r with
  | ok a => exact ⟨w, r', h3⟩
  | err e =>
    cases e with
    | mismatch => exact ⟨w, r', trivial⟩
    | terminate n m => exact h3
  | panic p => exact .inl h3
  | diverge => trivial

open LFrame

/-- One document: its table is added to the finished ones. -/
theorem doc_l0 {n : Nat} {l : Loader} (hl : L0 c l) :
    (match doc n l with
    | (.ok r, l') => L0 c l' ∧ LRel0 l l' ∧ l'.docInd = l.docInd + 1 ∧ NodeOk c r
    | (.err .mismatch, _) => True
    | (.err (.terminate _ m), _) => (LF0 c).T m
    | (.panic p, _) => LPanic c p
    | (.diverge, _) => True) := by
  have hd : doc n = (do
      lift (context (orDefault () bound))
      lift forward
      modify fun l => { l with anchors := l.anchors ++ [[]] }
      let ret ← scalar n 0 false false
      let _ ← lift (orDefault 0 (gap true))
      lift (orDefault () (symSeq b!"..."))
      lift forward
      modify fun l => { l with docInd := l.docInd + 1 }
      pure ret) := rfl
  rw [hd]
  -- before the table is opened
  have hA : (LF0 c).Good (fun _ => True) l ((do
      lift (context (orDefault () bound))
      lift forward) l) :=
    Holds.bind (lift_l0 (pk_pf (context_pk (pk_pf (Frame.Holds.orDefault bound_pk trivial)))))
      (fun _ _ => lift_l0 forward_pf) l hl
  rw [show (do
      lift (context (orDefault () bound))
      lift forward
      modify fun l => { l with anchors := l.anchors ++ [[]] }
      let ret ← scalar n 0 false false
      let _ ← lift (orDefault 0 (gap true))
      lift (orDefault () (symSeq b!"..."))
      lift forward
      modify fun l => { l with docInd := l.docInd + 1 }
      pure ret) = ((do
      lift (context (orDefault () bound))
      lift forward) >>= fun _ => (do
      modify fun l => { l with anchors := l.anchors ++ [[]] }
      let ret ← scalar n 0 false false
      let _ ← lift (orDefault 0 (gap true))
      lift (orDefault () (symSeq b!"..."))
      lift forward
      modify fun l => { l with docInd := l.docInd + 1 }
      pure ret : LM Node)) from by
    funext s
    simp only [bind_run]
    rcases lift (context (orDefault () bound)) s with ⟨r, s'⟩
    cases r <;> rfl]
  have hdi : ∀ l1, ((do
      lift (context (orDefault () bound))
      lift forward : LM Unit) l) = (.ok (), l1) → l1.docInd = l.docInd ∧ l1.anchors = l.anchors := by
    intro l1 h1
    obtain ⟨_, l2, h2, h3⟩ := bind_ok_inv h1
    simp only [lift, Prod.mk.injEq] at h2 h3
    rw [← h3.2, ← h2.2]; exact ⟨rfl, rfl⟩
  rcases hx : (do
      lift (context (orDefault () bound))
      lift forward : LM Unit) l with ⟨r, l1⟩
  rw [hx] at hA
  cases r with
  | err e =>
    rw [bind_err hx]
    cases e with
    | mismatch => trivial
    | terminate n m => exact hA
  | panic p => rw [bind_panic hx]; exact hA
  | diverge => rw [bind_diverge hx]; exact hA
  | ok u =>
    rw [bind_ok hx, bind_ok (modify_run _ _)]
    obtain ⟨w1, r1, -⟩ := hA
    have w1 : L0 c l1 := w1
    obtain ⟨hi1, ha1⟩ := hdi l1 hx
    -- inside the document
    have hB : (LF c).Good (NodeOk c) { l1 with anchors := l1.anchors ++ [[]] } ((do
        let ret ← scalar n 0 false false
        let _ ← lift (orDefault 0 (gap true))
        lift (orDefault () (symSeq b!"..."))
        lift forward
        pure ret) { l1 with anchors := l1.anchors ++ [[]] }) := by
      refine Holds.bind (scalar_lf n 0 false false) (fun r hr => ?_) _ ?_
      · exact Holds.bind (orDefault_lf gap_pk) fun _ _ => Holds.bind (orDefault_lf symSeq_pk) fun _ _ =>
          Holds.bind forward_lf fun _ _ => Holds.pure hr
      · refine ⟨w1.parser, w1.cyc, w1.hash, by simp [w1.anchors], ?_, ?_⟩
        · intro A hA k m hm
          rcases List.mem_append.1 hA with hA | hA
          · exact w1.nodes A hA k m hm
          · simp at hA; subst hA; simp [mapGet] at hm
        · intro A hA
          rcases List.mem_append.1 hA with hA | hA
          · exact w1.ordered A hA
          · simp at hA; subst hA; simp [Ordered]
    rw [show (do
      let ret ← scalar n 0 false false
      let _ ← lift (orDefault 0 (gap true))
      lift (orDefault () (symSeq b!"..."))
      lift forward
      modify fun l => { l with docInd := l.docInd + 1 }
      pure ret) = ((do
      let ret ← scalar n 0 false false
      let _ ← lift (orDefault 0 (gap true))
      lift (orDefault () (symSeq b!"..."))
      lift forward
      pure ret) >>= fun ret => (do
      modify fun l => { l with docInd := l.docInd + 1 }
      pure ret : LM Node)) from by
      funext s
      simp only [bind_run]
      rcases scalar n 0 false false s with ⟨r, s'⟩
      cases r with
      | ok a =>
        dsimp only
        rcases lift (orDefault 0 (gap true)) s' with ⟨r, s'⟩
        cases r with
        | ok a =>
          dsimp only
          rcases lift (orDefault () (symSeq b!"...")) s' with ⟨r, s'⟩
          cases r <;> rfl
        | _ => rfl
      | _ => rfl]
    rcases hy : (do
        let ret ← scalar n 0 false false
        let _ ← lift (orDefault 0 (gap true))
        lift (orDefault () (symSeq b!"..."))
        lift forward
        pure ret : LM Node) { l1 with anchors := l1.anchors ++ [[]] } with ⟨r, l2⟩
    rw [hy] at hB
    cases r with
    | err e =>
      rw [bind_err hy]
      cases e with
      | mismatch => trivial
      | terminate n m => exact hB
    | panic p => rw [bind_panic hy]; exact hB
    | diverge => rw [bind_diverge hy]; exact hB
    | ok ret =>
      rw [bind_ok hy]
      obtain ⟨w2, r2, hret⟩ := hB
      have w2 : LWF c l2 := w2
      have r2 : LRel { l1 with anchors := l1.anchors ++ [[]] } l2 := r2
      have hi2 : l2.docInd = l1.docInd := r2.docInd
      refine ⟨⟨w2.parser, w2.cyc, w2.hash, w2.anchors, w2.nodes, w2.ordered⟩, ⟨?_, fun i hi => ?_⟩, ?_, hret⟩
      · show l.docInd ≤ l2.docInd + 1
        omega
      · show l2.anchors[i]? = _
        rw [r2.others i (by show i ≠ l1.docInd; omega)]
        show (l1.anchors ++ [[]])[i]? = _
        rw [List.getElem?_append_left (by rw [w1.anchors]; omega), ha1]
      · show l2.docInd + 1 = l.docInd + 1
        omega

theorem directives_l0 {n : Nat} : (LF0 c).Holds (directives n) (fun _ => True) := by
  induction n with
  | zero => exact Holds.diverge trivial
  | succ n ih =>
    intro l hl
    have h := lift_l0 (c := c) (pk_pf (context_pk (pk_pf (directive_pk (.inl trivial))))) l hl
    simp only [directives]
    rcases hx : lift (context directive) l with ⟨r, l1⟩
    rw [hx] at h
    cases r with
    | ok a => exact Good.trans h.2.1 (ih l1 h.1)
    | err e =>
      cases e with
      | mismatch => exact ⟨h.1, h.2.1, trivial⟩
      | terminate n m => exact h
    | panic p => exact h
    | diverge => exact h

theorem directives_docInd (n : Nat) (l : Loader) : (directives n l).2.docInd = l.docInd := by
  induction n generalizing l with
  | zero => rfl
  | succ n ih =>
    simp only [directives]
    have hx0 : (lift (context directive) l).2.docInd = l.docInd := rfl
    rcases hx : lift (context directive) l with ⟨r, l1⟩
    rw [hx] at hx0
    cases r with
    | ok a => exact (ih l1).trans hx0
    | err e => cases e <;> exact hx0
    | panic p => exact hx0
    | diverge => exact hx0

/-- The result of a whole parse. -/
def TopGood (c : LCfg) (v0 : Nat) (r : Out (List Node) × Loader) : Prop :=
  match r with
  | (.ok v, l') => L0 c l' ∧ l'.docInd = v.length ∧ v0 ≤ v.length ∧ ∀ x ∈ v, NodeOk c x
  | (.err .mismatch, _) => True
  | (.err (.terminate _ m), _) => (LF0 c).T m
  | (.panic p, _) => LPanic c p
  | (.diverge, _) => True

theorem topGood_bind {x : LM α} {f : α → LM (List Node)} {V : α → Prop} {v0 : Nat} {l : Loader}
    (hx : (LF0 c).Good V l (x l))
    (hf : ∀ a l', x l = (.ok a, l') → L0 c l' → V a → TopGood c v0 (f a l')) :
    TopGood c v0 ((x >>= f) l) := by
  rcases hr : x l with ⟨r, s'⟩
  rw [hr] at hx
  cases r with
  | ok a => rw [bind_ok hr]; exact hf a s' hr hx.1 hx.2.2
  | err e =>
    rw [bind_err hr]
    cases e with
    | mismatch => trivial
    | terminate n m => exact hx
  | panic p => rw [bind_panic hr]; exact hx
  | diverge => rw [bind_diverge hr]; exact hx

theorem topGood_doc {n v0 : Nat} {f : Node → LM (List Node)} {l : Loader} (hl : L0 c l)
    (hf : ∀ a l', L0 c l' → l'.docInd = l.docInd + 1 → NodeOk c a → TopGood c v0 (f a l')) :
    TopGood c v0 ((doc n >>= f) l) := by
  have hx := doc_l0 (n := n) hl
  rcases hr : doc n l with ⟨r, s'⟩
  rw [hr] at hx
  cases r with
  | ok a => rw [bind_ok hr]; exact hf a s' hx.1 hx.2.2.1 hx.2.2.2
  | err e =>
    rw [bind_err hr]
    cases e with
    | mismatch => trivial
    | terminate n m => exact hx
  | panic p => rw [bind_panic hr]; exact hx
  | diverge => rw [bind_diverge hr]; exact hx

theorem docsLoop_top {n m : Nat} {v : List Node} {l : Loader} (hl : L0 c l) (hi : l.docInd = v.length)
    (hv : ∀ x ∈ v, NodeOk c x) : TopGood c v.length (docsLoop n m v l) := by
  induction m generalizing v l with
  | zero => exact trivial
  | succ m ih =>
    refine topGood_bind (V := fun _ => True)
      (lift_l0 (pk_pf (Frame.Holds.orDefault gap_pk trivial)) l hl) fun _ l1 h1 w1 _ => ?_
    have i1 : l1.docInd = v.length := by
      simp only [lift, Prod.mk.injEq] at h1; rw [← h1.2]; exact hi
    refine topGood_bind (lift_l0 (pk_pf food_pk) l1 w1) fun fd l2 h2 w2 _ => ?_
    have i2 : l2.docInd = v.length := by
      simp only [lift, Prod.mk.injEq] at h2; rw [← h2.2]; exact i1
    split
    · exact ⟨w2, i2, Nat.le_refl _, hv⟩
    rw [isOk_lift]
    refine topGood_bind (lift_l0 (pk_pf (isOk_pk symSeq_pk)) l2 w2) fun b l3 h3 w3 _ => ?_
    have i3 : l3.docInd = v.length := by
      simp only [lift, Prod.mk.injEq] at h3; rw [← h3.2]; exact i2
    split
    · refine topGood_doc w3 fun d l4 w4 i4 hd => ?_
      have := ih (v := v ++ [d]) w4 (by rw [i4, i3]; simp) (nodesOk_snoc hv hd)
      revert this
      unfold TopGood
      split
      · rintro ⟨a1, a2, a3, a4⟩
        exact ⟨a1, a2, by simp at a3; omega, a4⟩
      all_goals exact id
    · have h := lift_l0 (c := c) (V := fun _ => True) (pk_pf (errAt_pk (α := List Node)
        (name := "document splitter") (.inl trivial))) l3 w3
      unfold TopGood
      unfold lerr
      rcases hx : lift (errAt "document splitter" : PM (List Node)) l3 with ⟨r, l4⟩
      rw [hx] at h
      cases r with
      | ok a =>
        simp only [lift, errAt] at hx
        split at hx <;> simp at hx
      | err e => cases e with
        | mismatch => trivial
        | terminate n m => exact h
      | panic p => exact h
      | diverge => exact h

/-- The state a parse starts in. -/
def startLoader (c : LCfg) : Loader := { Loader.new c.hash c.doc with cyclicMode := c.cyc }

theorem start_l0 : L0 c (startLoader c) := by
  refine ⟨⟨rfl, fun _ => rfl, Nat.le_refl _, Nat.le_refl _, Nat.zero_le _, ?_, ?_, ?_⟩, rfl, rfl, rfl, ?_, ?_⟩
  · show [0] ≠ []; simp
  · show (mapGet b!"!" (mapInsert b!"!!" tagPrefix (mapInsert b!"!" [] []))).isSome = true
    simp [mapGet_mapInsert]
  · show (mapGet b!"!!" (mapInsert b!"!!" tagPrefix (mapInsert b!"!" [] []))).isSome = true
    simp [mapGet_mapInsert]
  · intro A hA; exact absurd hA (by simp [startLoader, Loader.new])
  · intro A hA; exact absurd hA (by simp [startLoader, Loader.new])

theorem loaderParse_top (c : LCfg) (n : Nat) : TopGood c 1 (loaderParse n (startLoader c)) := by
  refine topGood_bind (directives_l0 _ start_l0) fun _ l1 h1 w1 _ => ?_
  have i1 : l1.docInd = 0 := by
    have := directives_docInd n (startLoader c)
    rw [h1] at this; exact this
  refine topGood_bind (V := fun _ => True)
    (lift_l0 (pk_pf (Frame.Holds.orDefault gap_pk trivial)) l1 w1) fun _ l2 h2 w2 _ => ?_
  have i2 : l2.docInd = 0 := by
    simp only [lift, Prod.mk.injEq] at h2; rw [← h2.2]; exact i1
  refine topGood_bind (V := fun _ => True)
    (lift_l0 (pk_pf (Frame.Holds.orDefault symSeq_pk trivial)) l2 w2) fun _ l3 h3 w3 _ => ?_
  have i3 : l3.docInd = 0 := by
    simp only [lift, Prod.mk.injEq] at h3; rw [← h3.2]; exact i2
  refine topGood_doc w3 fun d l4 w4 i4 hd => ?_
  exact docsLoop_top (v := [d]) w4 (by rw [i4, i3]; rfl) (by simpa using hd)

end
end YamlPeg
