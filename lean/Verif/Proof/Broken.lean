import Verif.Proof.Faults
import Verif.Proof.OpenFlow
import Verif.Proof.RunsQ
/-!
# Texts that cannot be read

Here a text is a node together with all that follows it.  Each lemma says that the
parser stops inside the text, with which kind of error, and where.
-/

namespace YamlPeg
open M

/-- The error `name` at the position `p` of `doc`. -/
def Bang (doc : Bytes) (name : String) (p : Nat) : Crash → Prop :=
  (· = .terminate name ((indicatedMsg doc p).getD []))

/-- A property that is not followed by a boundary: the anchor or the tag at `o`. -/
inductive Loose : Bytes → Nat → Prop
  | anchor {a R : Bytes} : IsIdent a → IdEnd R → headIn bnd R = false → Loose (0x26 :: (a ++ R)) 0
  | tag {x R : Bytes} : IsIdent x → TagEnd R → headIn bnd R = false → Loose (0x21 :: (x ++ R)) 0
  | anchorTag {a sp x R : Bytes} : IsIdent a → SepOK sp (0x21 :: (x ++ R)) → IsIdent x → TagEnd R → headIn bnd R = false →
      Loose (0x26 :: (a ++ (sp ++ 0x21 :: (x ++ R)))) (1 + a.length + sp.length)
  | tagAnchor {x sp a R : Bytes} : IsIdent x → SepOK sp (0x26 :: (a ++ R)) → IsIdent a → IdEnd R → headIn bnd R = false →
      Loose (0x21 :: (x ++ (sp ++ 0x26 :: (a ++ R)))) (1 + x.length + sp.length)

/-- Two anchors in front of a node; the error is behind the second one. -/
inductive TwoAnchors : Bytes → Nat → Prop
  | mk {a sp b R : Bytes} : IsIdent a → SepOK sp (0x26 :: (b ++ R)) → IsIdent b → IdEnd R →
      TwoAnchors (0x26 :: (a ++ (sp ++ 0x26 :: (b ++ R)))) (1 + a.length + sp.length + 1 + b.length)
  | tag {a sp x sp' b R : Bytes} : IsIdent a → SepOK sp (0x21 :: (x ++ (sp' ++ 0x26 :: (b ++ R)))) → IsIdent x →
      SepOK sp' (0x26 :: (b ++ R)) → IsIdent b → IdEnd R →
      TwoAnchors (0x26 :: (a ++ (sp ++ 0x21 :: (x ++ (sp' ++ 0x26 :: (b ++ R))))))
        (1 + a.length + sp.length + 1 + x.length + sp'.length + 1 + b.length)

theorem bound_loose {R : Bytes} (h : headIn bnd R = false) (k : Ctx) (L : Loader) (pre mid : Bytes) :
    lift bound (ld L (st k pre mid R)) = (.err .mismatch, ld L (st k pre [] (mid ++ R))) := by
  refine lift_of ?_
  rw [bound_eq, if_neg]
  simpa [bnd] using h

theorem SepOK.idEnd {sp X : Bytes} (h : SepOK sp X) : IdEnd (sp ++ X) := h.tagEnd.1

theorem SepOK.bound {sp X : Bytes} (h : SepOK sp X) (k : Ctx) (L : Loader) (pre mid : Bytes) :
    lift YamlPeg.bound (ld L (st k pre mid (sp ++ X))) = (.ok (), ld L (st k pre (mid ++ sp) X)) :=
  lift_of (bound_sep _ _ _ h)

section
variable (k : Ctx) (L : Loader) (pre : Bytes)

theorem lift_anchor_read {a R : Bytes} (ha : IsIdent a) (hR : IdEnd R) :
    lift (orDefault [] anchor) (ld L (st k pre [] (0x26 :: (a ++ R)))) = (.ok a, ld L (st k pre (0x26 :: a) R)) := by
  rw [lift_of (orDefault_ok (anchor_read ha hR ..))]; simp

theorem lift_anchor_no {r : Bytes} (h : ∀ q, r ≠ 0x26 :: q) :
    lift (orDefault [] anchor) (ld L (st k pre [] r)) = (.ok [], ld L (st k pre [] r)) := lift_of (anchor_no _ _ _ h)

theorem lift_tag_read {x R : Bytes} (hx : IsIdent x) (hR : TagEnd R) :
    lift (orDefault [] tag) (ld L (st k pre [] (0x21 :: (x ++ R)))) = (.ok x, ld L (st k pre (0x21 :: x) R)) := by
  have := tag_read (E := R) (TagText.local (tbl := k.tag) hx) hR rfl pre []
  rw [List.cons_append] at this
  rw [lift_of (orDefault_ok this)]; simp

theorem lift_tag_no {r : Bytes} (h : ∀ q, r ≠ 0x21 :: q) :
    lift (orDefault [] tag) (ld L (st k pre [] r)) = (.ok [], ld L (st k pre [] r)) := by
  refine lift_of ?_
  rw [orDefault_err]
  rw [tag, bind_err (sym_no _ _ _ _ h)]

end

/-- A node with a loose property does not match; the cursor is at that property. -/
theorem Loose.node {T : Bytes} {o : Nat} (h : Loose T o) (f : LM Yaml) (k : Ctx) (L : Loader) (pre : Bytes) :
    scalarNode f (ld L (st k pre [] T)) = (.err .mismatch, ld L (st k (pre ++ T.take o) [] (T.drop o))) := by
  rw [scalarNode, bind_err]
  cases h with
  | anchor ha hR hb =>
    rw [nodeProps, bind_ok (lift_anchor_read _ _ _ ha hR)]
    simp only [isEmpty_of_ne ha.ne, Bool.not_false, runIf_true]
    rw [bind_err (bound_loose hb ..)]
    simp
  | tag hx hR hb =>
    rw [nodeProps, bind_ok (lift_anchor_no _ _ _ (by simp))]
    simp only [List.isEmpty_nil, Bool.not_true, runIf_false]
    rw [bind_ok (pure_run ..), bind_ok (lift_forward ..), bind_ok (lift_tag_read _ _ _ hx hR)]
    simp only [isEmpty_of_ne hx.ne, Bool.not_false, runIf_true]
    rw [bind_err (bound_loose hb ..)]
    simp
  | @anchorTag a sp x R ha hs hx hR hb =>
    rw [nodeProps, bind_ok (lift_anchor_read _ _ _ ha hs.idEnd)]
    simp only [isEmpty_of_ne ha.ne, Bool.not_false, runIf_true]
    rw [bind_ok (hs.bound ..), bind_ok (lift_forward ..), bind_ok (lift_tag_read _ _ _ hx hR)]
    simp only [isEmpty_of_ne hx.ne, Bool.not_false, runIf_true]
    rw [bind_err (bound_loose hb ..)]
    have e : 0x26 :: (a ++ (sp ++ 0x21 :: (x ++ R))) = (0x26 :: a ++ sp) ++ (0x21 :: x ++ R) := by simp
    have hl : 1 + a.length + sp.length = (0x26 :: a ++ sp).length := by simp; omega
    rw [e, hl, List.take_left', List.drop_left'] <;> rfl
  | @tagAnchor x sp a R hx hs ha hR hb =>
    rw [nodeProps, bind_ok (lift_anchor_no _ _ _ (by simp))]
    simp only [List.isEmpty_nil, Bool.not_true, runIf_false]
    rw [bind_ok (pure_run ..), bind_ok (lift_forward ..), bind_ok (lift_tag_read _ _ _ hx hs.tagEnd)]
    simp only [isEmpty_of_ne hx.ne, Bool.not_false, runIf_true]
    rw [bind_ok (hs.bound ..), bind_ok (lift_forward ..), bind_ok (lift_anchor_read _ _ _ ha hR)]
    simp only [isEmpty_of_ne ha.ne, Bool.not_false, if_true, List.isEmpty_nil]
    rw [bind_err]
    rw [bind_err (bound_loose hb ..)]
    have e : 0x21 :: (x ++ (sp ++ 0x26 :: (a ++ R))) = (0x21 :: x ++ sp) ++ (0x26 :: a ++ R) := by simp
    have hl : 1 + x.length + sp.length = (0x21 :: x ++ sp).length := by simp; omega
    rw [e, hl, List.take_left', List.drop_left']
    · simp
    · rfl
    · rfl

theorem TwoAnchors.node {T : Bytes} {o : Nat} (h : TwoAnchors T o) (f : LM Yaml) {k : Ctx} (hk : k.consumed = 0) (L : Loader) (pre : Bytes) :
    Fails (Bang (pre ++ T) "duplicated anchor definition" (pre.length + o)) (scalarNode f) (ld L (st k pre [] T)) := by
  rw [scalarNode]
  refine Fails.bind ?_ _
  cases h with
  | @mk a sp b R ha hs hb hR =>
    rw [nodeProps]
    refine .after (lift_anchor_read _ _ _ ha hs.idEnd) ?_
    simp only [isEmpty_of_ne ha.ne, Bool.not_false, runIf_true]
    refine .after (hs.bound ..) (.after (lift_forward ..) (.after (lift_tag_no _ _ _ (by simp)) ?_))
    simp only [List.isEmpty_nil, Bool.not_true, runIf_false]
    refine .after (pure_run ..) (.after (lift_forward ..) ?_)
    rw [List.append_nil]
    refine .after (lift_anchor_read _ _ _ hb hR) ?_
    simp only [isEmpty_of_ne hb.ne, Bool.not_false, if_true, Bool.false_eq_true, if_false]
    refine Fails.bind ?_ _
    have := lerr_stuck (α := Bytes) hk "duplicated anchor definition" L (pre ++ (0x26 :: a ++ sp)) (0x26 :: b) R
    have hl : (pre ++ (0x26 :: a ++ sp)).length + (0x26 :: b).length = pre.length + (1 + a.length + sp.length + 1 + b.length) := by
      simp; omega
    rw [hl] at this
    unfold Bang; simpa using this
  | @tag a sp x sp' b R ha hs hx hs' hb hR =>
    rw [nodeProps]
    refine .after (lift_anchor_read _ _ _ ha hs.idEnd) ?_
    simp only [isEmpty_of_ne ha.ne, Bool.not_false, runIf_true]
    refine .after (hs.bound ..) (.after (lift_forward ..) (.after (lift_tag_read _ _ _ hx hs'.tagEnd) ?_))
    simp only [isEmpty_of_ne hx.ne, Bool.not_false, runIf_true]
    refine .after (hs'.bound ..) (.after (lift_forward ..) (.after (lift_anchor_read _ _ _ hb hR) ?_))
    simp only [isEmpty_of_ne hb.ne, Bool.not_false, if_true, Bool.false_eq_true, if_false]
    refine Fails.bind ?_ _
    have := lerr_stuck (α := Bytes) hk "duplicated anchor definition" L (pre ++ (0x26 :: a ++ sp) ++ (0x21 :: x ++ sp')) (0x26 :: b) R
    have hl : (pre ++ (0x26 :: a ++ sp) ++ (0x21 :: x ++ sp')).length + (0x26 :: b).length =
        pre.length + (1 + a.length + sp.length + 1 + x.length + sp'.length + 1 + b.length) := by
      simp; omega
    rw [hl] at this
    unfold Bang; simpa using this

theorem Loose.wrapped {T : Bytes} {o : Nat} (h : Loose T o) (f : LM Yaml) (wrap : String) {k : Ctx} (hk : k.consumed = 0) (L : Loader)
    (pre : Bytes) : Fails (Bang (pre ++ T) wrap (pre.length + o)) (orErr (scalarNode f) wrap) (ld L (st k pre [] T)) := by
  refine Fails.else (h.node f k L pre) ?_
  have := lerr_stuck (α := Node) hk wrap L (pre ++ T.take o) [] (T.drop o)
  have ho : o ≤ T.length := by
    cases h <;> simp <;> omega
  simp only [List.append_assoc, List.nil_append, List.take_append_drop, List.length_append, List.length_take, List.length_nil,
    Nat.add_zero, Nat.min_eq_left ho] at this
  exact this

theorem Loose.head {T : Bytes} {o : Nat} (h : Loose T o) : ∃ c r, T = c :: r ∧ (c = 0x26 ∨ c = 0x21) := by
  cases h <;> exact ⟨_, _, rfl, by simp⟩

theorem TwoAnchors.head {T : Bytes} {o : Nat} (h : TwoAnchors T o) : ∃ c r, T = c :: r ∧ (c = 0x26 ∨ c = 0x21) := by
  cases h <;> exact ⟨_, _, rfl, by simp⟩

/-! ## Flow collections -/

/-- The first byte of a node inside of a flow collection. -/
def FlowHead (T : Bytes) : Prop := ∃ c r, T = c :: r ∧ tokHead c = true ∧ c ≠ 0x5D ∧ c ≠ 0x7D

/-- A flow collection that cannot be read. -/
def TermBad (T : Bytes) (name : String) (o : Nat) : Prop :=
  (∃ r, T = 0x5B :: r ∨ T = 0x7B :: r) ∧ ∀ (k : Ctx) (level : Nat), 0 < k.want level → k.consumed = 0 →
    ∃ N, ∀ a n d flow, N ≤ a → N ≤ n → N ≤ d → ∀ L pre, L.Ready →
      Fails (Bang (pre ++ T) name (pre.length + o)) (scalarTerm (scalar a) n d level flow) (ld L (st k pre [] T))

/-- A node inside of a flow collection that cannot be read. -/
def FNodeBad (wrap : String) (T : Bytes) (name : String) (o : Nat) : Prop :=
  FlowHead T ∧ ∀ (k : Ctx) (level : Nat), 0 < k.want level → k.consumed = 0 →
    ∃ N, ∀ n, N ≤ n → ∀ L pre, L.Ready →
      Fails (Bang (pre ++ T) name (pre.length + o)) (orErr (scalar n (level + 1) false true) wrap) (ld L (st k pre [] T))

theorem TermBad.leaf {T : Bytes} {name : String} {o : Nat} (h : TermBad T name o) : LeafText T := by
  obtain ⟨⟨r, rfl | rfl⟩, _⟩ := h
  · exact ⟨_, _, rfl, by decide, by decide, by rintro (h | h) <;> cases h⟩
  · exact ⟨_, _, rfl, by decide, by decide, by rintro (h | h) <;> cases h⟩

theorem FlowHead.of_bracket {T : Bytes} (h : ∃ r, T = 0x5B :: r ∨ T = 0x7B :: r) : FlowHead T := by
  obtain ⟨r, rfl | rfl⟩ := h
  · exact ⟨_, _, rfl, by decide, by decide, by decide⟩
  · exact ⟨_, _, rfl, by decide, by decide, by decide⟩

theorem FlowHead.of_prop {T : Bytes} (h : ∃ c r, T = c :: r ∧ (c = 0x26 ∨ c = 0x21)) : FlowHead T := by
  obtain ⟨c, r, rfl, rfl | rfl⟩ := h
  · exact ⟨_, _, rfl, by decide, by decide, by decide⟩
  · exact ⟨_, _, rfl, by decide, by decide, by decide⟩

theorem TermBad.fnode {T : Bytes} {name : String} {o : Nat} (h : TermBad T name o) (wrap : String) : FNodeBad wrap T name o := by
  refine ⟨.of_bracket h.1, fun k level hw hk => ?_⟩
  obtain ⟨N, hN⟩ := h.2 k (level + 2) (Nat.lt_of_lt_of_le hw (want_le_two ..)) hk
  refine ⟨N + 2, fun n hn L pre hL => ?_⟩
  obtain ⟨i, rfl⟩ : ∃ i, n = i + 2 := ⟨n - 2, by omega⟩
  have := leaf_fail_of (lead := []) (E := []) h.leaf (q := level + 1) (k := k) (flow := true) (.inl rfl) rfl (i := i) (L := L) (pre := pre)
    (by simpa using hN (i + 1) (i + 1) (i + 1) true (by omega) (by omega) (by omega) L pre hL)
  exact Fails.orErr (by simpa using this) _

theorem Loose.fnode {T : Bytes} {o : Nat} (h : Loose T o) (wrap : String) : FNodeBad wrap T wrap o := by
  refine ⟨.of_prop h.head, fun k level hw hk => ⟨1, fun n hn L pre hL => ?_⟩⟩
  obtain ⟨n, rfl⟩ : ∃ i, n = i + 1 := ⟨n - 1, by omega⟩
  exact h.wrapped _ wrap hk L pre

theorem TwoAnchors.fnode {T : Bytes} {o : Nat} (h : TwoAnchors T o) (wrap : String) :
    FNodeBad wrap T "duplicated anchor definition" o := by
  refine ⟨.of_prop h.head, fun k level hw hk => ⟨1, fun n hn L pre hL => ?_⟩⟩
  obtain ⟨n, rfl⟩ : ∃ i, n = i + 1 := ⟨n - 1, by omega⟩
  exact (h.node _ hk L pre).orErr _

theorem FlowHead.notWs {T : Bytes} (h : FlowHead T) : ∀ c r, T = c :: r → isAsciiWs c = false := by
  obtain ⟨c, r, rfl, h1, _⟩ := h
  rintro _ _ ⟨⟩
  exact tokHead_ascii h1

theorem FlowHead.noClose {T : Bytes} (h : FlowHead T) : ∀ r, T ≠ 0x5D :: r ∧ T ≠ 0x7D :: r := by
  obtain ⟨c, r, rfl, _, h1, h2⟩ := h
  intro r; simp [h1, h2]

theorem Bang.at {doc doc' : Bytes} {name : String} {p p' : Nat} (hd : doc = doc') (hp : p = p') : Bang doc name p = Bang doc' name p' := by
  rw [hd, hp]

/-- The items in front of the one that cannot be read. -/
theorem bad_items {T : Bytes} {name : String} {o : Nat} (hT : FNodeBad "flow sequence item" T name o) :
    ∀ (xs : List FItem) (k : Ctx) (level : Nat), (∀ x ∈ xs, x.f.wf x.W ∧ x.f.known.still ∧ AllWs x.ws) → 0 < k.want level →
    k.consumed = 0 →
    ∃ N, ∀ a c, N ≤ a → N ≤ c → ∀ L pre mid ws v, AllWs ws → L.Ready →
      Fails (Bang (pre ++ (mid ++ (ws ++ (fitemsText xs ++ T)))) name
          (pre.length + mid.length + ws.length + (fitemsText xs).length + o))
        (seqFlowLoop (scalar a) level c v) (ld L (st k pre mid (ws ++ (fitemsText xs ++ T))))
  | [], k, level, _, hw, hk => by
    obtain ⟨N, hN⟩ := hT.2 k level hw hk
    refine ⟨N + 1, fun a c ha hc L pre mid ws v hws hL => ?_⟩
    obtain ⟨c, rfl⟩ : ∃ i, c = i + 1 := ⟨c - 1, by omega⟩
    simp only [fitemsText, List.flatMap_nil, List.nil_append]
    rw [seqFlowLoop]
    refine .after (inv_read hws hT.1.notWs ..) (.after (lift_of (forward_st ..)) ?_)
    refine .after (isOk_err (lift_of (sym_no _ _ _ _ fun r => (hT.1.noClose r).1))) ?_
    simp only [Bool.false_eq_true, if_false]
    refine .after (lift_of (forward_st ..)) ?_
    rw [List.append_nil]
    have := hN a (by omega) L (pre ++ (mid ++ ws)) hL
    refine Fails.bind ?_ _
    rw [Bang.at (doc' := pre ++ (mid ++ ws) ++ T) (p' := (pre ++ (mid ++ ws)).length + o) (by simp) (by simp; omega)]
    exact this
  | x :: xs, k, level, hx, hw, hk => by
    obtain ⟨hwf, hst, hws2⟩ := hx x (by simp)
    have hW := Flow.wf_ws hwf
    have hw2 : 0 < k.want (level + 2) := Nat.lt_of_lt_of_le hw (want_le_two ..)
    have hstop : FlowStop (0x2C :: (x.ws ++ (fitemsText xs ++ T))) := ⟨_, _, rfl, by decide⟩
    obtain ⟨k1, u, w, hs, hk1, N, hN⟩ := Flow.read x.f x.W k (level + 2) true _ hwf hw2 (fun _ => ⟨rfl, hstop⟩)
    have hww : AllWs w := by rw [hs] at hW; exact hW.of_append.2
    have hk1' : k1.at level = k.at level := Ctx.at_of_at hk1 (by omega)
    obtain ⟨N2, hN2⟩ := bad_items hT xs k1 level (fun y hy => hx y (by simp [hy]))
      (by rw [Ctx.want_of_at hk1']; exact hw) ((Ctx.consumed_of_at hk1').trans hk)
    refine ⟨N + N2 + 4, fun a c ha hc L pre mid ws v hws hL => ?_⟩
    obtain ⟨c, rfl⟩ : ∃ i, c = i + 1 := ⟨c - 1, by omega⟩
    have hread := flow_node_still hwf hst hstop hs hN (n := a) (by omega) L (pre ++ (mid ++ ws)) hL
    have hl := hN2 a c (by omega) (by omega) L (pre ++ (mid ++ ws) ++ x.f.text ++ u) (w ++ [0x2C]) x.ws
      (v ++ [x.f.node (k.consumed + (pre ++ (mid ++ ws)).length) (envOf L k)])
      hws2 hL
    have htx : fitemsText (x :: xs) = x.f.text ++ (x.W ++ (0x2C :: (x.ws ++ fitemsText xs))) := by
      simp [fitemsText, FItem.text]
    rw [Bang.at (doc' := pre ++ (mid ++ (ws ++ (fitemsText (x :: xs) ++ T))))
      (p' := pre.length + mid.length + ws.length + (fitemsText (x :: xs)).length + o)
      (by rw [htx, hs]; simp) (by rw [htx, hs]; simp; omega)] at hl
    generalize hB : Bang (pre ++ (mid ++ (ws ++ (fitemsText (x :: xs) ++ T)))) name
      (pre.length + mid.length + ws.length + (fitemsText (x :: xs)).length + o) = B at hl ⊢
    rw [htx]
    simp only [List.append_assoc, List.cons_append]
    rw [seqFlowLoop]
    refine .after (inv_read hws (Flow.notWs hwf _) ..) (.after (lift_of (forward_st ..)) ?_)
    refine .after (isOk_err (lift_of (sym_no _ _ _ _ fun r => (Flow.noClose hwf _ r).1))) ?_
    simp only [Bool.false_eq_true, if_false]
    refine .after (lift_of (forward_st ..)) ?_
    rw [List.append_nil]
    refine .after (orErr_ok hread) ?_
    have hinv := inv_read hww (post := 0x2C :: (x.ws ++ (fitemsText xs ++ T))) (by rintro _ _ ⟨⟩; decide) k1 L
      (pre ++ (mid ++ ws) ++ x.f.text ++ u) []
    refine .after hinv ?_
    rw [List.nil_append]
    refine .after (isOk_ok (lift_of (sym_hit ..))) ?_
    simp only [if_true]
    exact hl

theorem termBad_seq {T : Bytes} {name : String} {o : Nat} (hT : FNodeBad "flow sequence item" T name o) {xs : List FItem} {ws : Bytes}
    (hws : AllWs ws) (hx : ∀ x ∈ xs, x.f.wf x.W ∧ x.f.known.still ∧ AllWs x.ws) :
    TermBad (0x5B :: (ws ++ (fitemsText xs ++ T))) name (1 + ws.length + (fitemsText xs).length + o) := by
  refine ⟨⟨_, .inl rfl⟩, fun k level hw hk => ?_⟩
  obtain ⟨N, hN⟩ := bad_items hT xs (k.at level) level hx (by simpa using hw) (by simpa using hk)
  refine ⟨N + 1, fun a n d flow ha hn hd L pre hL => ?_⟩
  obtain ⟨d, rfl⟩ : ∃ i, d = i + 1 := ⟨d - 1, by omega⟩
  have hl := hN a n (by omega) (by omega) L pre [0x5B] ws [] hws hL
  rw [scalarTerm, scalarTermWith]
  refine .after (scalarAtom_bracket (.inl rfl) hw flow L pre _ (by omega)) ?_
  simp only
  refine Fails.orElse (Fails.orElse ?_)
  rw [seqFlow]
  refine .after (lift_of (sym_hit ..)) ?_
  rw [show ([] : Bytes) ++ [0x5B] = [0x5B] from rfl]
  refine Fails.bind ?_ _
  rw [Bang.at (doc' := pre ++ ([0x5B] ++ (ws ++ (fitemsText xs ++ T))))
    (p' := pre.length + [(0x5B : UInt8)].length + ws.length + (fitemsText xs).length + o) (by simp) (by simp; omega)]
  exact hl

/-- What the loop of a flow map does behind its bracket, a comma, and white space. -/
def EntriesBad (T : Bytes) (name : String) (o : Nat) : Prop :=
  ∀ (k : Ctx) (level : Nat), 0 < k.want level → k.consumed = 0 →
    ∃ N, ∀ a n d c, N ≤ a → N ≤ n → N ≤ d → N ≤ c → ∀ L pre mid ws v, AllWs ws → L.Ready →
      Fails (Bang (pre ++ (mid ++ (ws ++ T))) name (pre.length + mid.length + ws.length + o))
        (mapFlowLoop (scalar a) (scalarNode (scalarTerm (scalar a) n d (level + 1) true)) level c v)
        (ld L (st k pre mid (ws ++ T)))

/-- The value of an entry cannot be read. -/
theorem entriesBad_value {K : Bytes} {ky : Yaml} {ksp : Bytes} (hK : FKeyOK K ky ksp) {T : Bytes} {name : String} {o : Nat}
    (hT : FNodeBad "flow map value" T name o) :
    EntriesBad (K ++ (0x3A :: (ksp ++ T))) name (K.length + 1 + ksp.length + o) := by
  intro k level hw hk
  have hw1 : 0 < k.want (level + 1) := Nat.lt_of_lt_of_le hw (Ctx.want_mono k level)
  obtain ⟨k1, hk1, N1, hN1⟩ := flowKey_read hK (k := k) (level := level) hw1 T
  have hk1' : k1.at level = k.at level := Ctx.at_of_at hk1 (by omega)
  obtain ⟨N, hN⟩ := hT.2 k1 level (by rw [Ctx.want_of_at hk1']; exact hw) ((Ctx.consumed_of_at hk1').trans hk)
  refine ⟨N + N1 + 4, fun a n d c ha hn hd hc L pre mid ws v hws hL => ?_⟩
  obtain ⟨c, rfl⟩ : ∃ i, c = i + 1 := ⟨c - 1, by omega⟩
  have hl := hN a (by omega) L (pre ++ (mid ++ ws) ++ K ++ ([0x3A] ++ ksp)) hL
  rw [Bang.at (doc' := pre ++ (mid ++ (ws ++ (K ++ (0x3A :: (ksp ++ T))))))
    (p' := pre.length + mid.length + ws.length + (K.length + 1 + ksp.length + o)) (by simp) (by simp; omega)] at hl
  rw [mapFlowLoop]
  refine .after (inv_read hws (hK.1.notWs _) ..) (.after (lift_of (forward_st ..)) ?_)
  refine .after (isOk_err (lift_of (sym_no _ _ _ _ fun r => (noClose_append hK.1 hK.2.1 _ r).2))) ?_
  simp only [Bool.false_eq_true, if_false]
  refine .after (lift_of (forward_st ..)) ?_
  rw [List.append_nil]
  refine .after (hN1 a n d (by omega) (by omega) L _) (.after (isOk_ok (lift_of (sym_hit ..))) ?_)
  simp only [if_true]
  obtain ⟨c, r, hc, h1, _⟩ := hT.1
  have := flowSep_read hK.2.2.1 (T := T) ⟨c, r, hc, h1⟩ [] k1 L (pre ++ (mid ++ ws) ++ K) ([] ++ [0x3A])
  rw [List.append_nil] at this
  refine .after this (.after (lift_of (forward_st ..)) ?_)
  exact Fails.bind (by simpa using hl) _

/-- The key has a loose property. -/
theorem entriesBad_key {T : Bytes} {o : Nat} (hT : Loose T o) : EntriesBad T "flow map key" o := by
  intro k level hw hk
  refine ⟨1, fun a n d c ha hn hd hc L pre mid ws v hws hL => ?_⟩
  obtain ⟨c, rfl⟩ : ∃ i, c = i + 1 := ⟨c - 1, by omega⟩
  have hh : FlowHead T := .of_prop hT.head
  have hl := hT.wrapped (scalarTerm (scalar a) n d (level + 1) true) "flow map key" hk L (pre ++ (mid ++ ws))
  rw [Bang.at (doc' := pre ++ (mid ++ (ws ++ T))) (p' := pre.length + mid.length + ws.length + o) (by simp) (by simp; omega)] at hl
  rw [mapFlowLoop]
  refine .after (inv_read hws hh.notWs ..) (.after (lift_of (forward_st ..)) ?_)
  refine .after (isOk_err (lift_of (sym_no _ _ _ _ fun r => (hh.noClose r).2))) ?_
  simp only [Bool.false_eq_true, if_false]
  refine .after (lift_of (forward_st ..)) ?_
  rw [List.append_nil]
  refine Fails.bind ?_ _
  refine .after (isOk_err (lift_of (complexMapping_no' _ _ ?_))) ?_
  · obtain ⟨c, r, rfl, rfl | rfl⟩ := hT.head <;> simp
  · simpa using hl

theorem entriesBad_key_twice {T : Bytes} {o : Nat} (hT : TwoAnchors T o) : EntriesBad T "duplicated anchor definition" o := by
  intro k level hw hk
  refine ⟨1, fun a n d c ha hn hd hc L pre mid ws v hws hL => ?_⟩
  obtain ⟨c, rfl⟩ : ∃ i, c = i + 1 := ⟨c - 1, by omega⟩
  have hh : FlowHead T := .of_prop hT.head
  have hl := hT.node (scalarTerm (scalar a) n d (level + 1) true) hk L (pre ++ (mid ++ ws))
  rw [Bang.at (doc' := pre ++ (mid ++ (ws ++ T))) (p' := pre.length + mid.length + ws.length + o) (by simp) (by simp; omega)] at hl
  rw [mapFlowLoop]
  refine .after (inv_read hws hh.notWs ..) (.after (lift_of (forward_st ..)) ?_)
  refine .after (isOk_err (lift_of (sym_no _ _ _ _ fun r => (hh.noClose r).2))) ?_
  simp only [Bool.false_eq_true, if_false]
  refine .after (lift_of (forward_st ..)) ?_
  rw [List.append_nil]
  refine Fails.bind ?_ _
  refine .after (isOk_err (lift_of (complexMapping_no' _ _ ?_))) ?_
  · obtain ⟨c, r, rfl, rfl | rfl⟩ := hT.head <;> simp
  · simpa using hl.orErr "flow map key"

/-- A key is there, and no colon behind it: from how the key is read. -/
theorem entriesBad_splitter {K E : Bytes} (hws : ∀ c r, K ++ E = c :: r → isAsciiWs c = false)
    (hc : ∀ r, K ++ E ≠ 0x7D :: r) (hq : ∀ r, K ++ E ≠ 0x3F :: r ∨ LeafText K) (hE : ∀ r, E ≠ 0x3A :: r) (hp : noProps (K ++ E) = true)
    (hread : ∀ (k : Ctx) (level : Nat), 0 < k.want level → ∃ k', k'.at level = k.at level ∧ ∃ N, ∀ a n d, N ≤ a → N ≤ n → N ≤ d →
      ∀ L pre, L.Ready → ∃ y p' m', p' ++ m' = pre ++ K ∧
        scalarTerm (scalar a) n d level true (ld L (st k pre [] (K ++ E))) = (.ok y, ld L (st k' p' m' E))) :
    EntriesBad (K ++ E) "flow map splitter" K.length := by
  intro k level hw hk
  obtain ⟨k', hk', N, hN⟩ := hread k (level + 1) (Nat.lt_of_lt_of_le hw (Ctx.want_mono k level))
  have hcon : k'.consumed = 0 := (Ctx.consumed_of_at hk').trans hk
  refine ⟨N + 1, fun a n d c ha hn hd hc' L pre mid ws v hws' hL => ?_⟩
  obtain ⟨c, rfl⟩ : ∃ i, c = i + 1 := ⟨c - 1, by omega⟩
  obtain ⟨y, p', m', hpm, hy⟩ := hN a n d (by omega) (by omega) (by omega) L (pre ++ (mid ++ ws)) hL
  have hnode := scalarNode_ok _ _ _ _ hp hy
  rw [hpm] at hnode
  rw [mapFlowLoop]
  refine .after (inv_read hws' hws ..) (.after (lift_of (forward_st ..)) ?_)
  refine .after (isOk_err (lift_of (sym_no _ _ _ _ hc))) ?_
  simp only [Bool.false_eq_true, if_false]
  refine .after (lift_of (forward_st ..)) ?_
  rw [List.append_nil]
  refine .after (a := .mk (k.consumed + (pre ++ (mid ++ ws)).length) [] y) (s' := ld L (st k' (pre ++ (mid ++ ws) ++ K) [] E)) ?_ ?_
  · have hcm : complexMapping (st k (pre ++ (mid ++ ws)) [] (K ++ E)) = (.err .mismatch, st k (pre ++ (mid ++ ws)) [] (K ++ E)) := by
      rcases hq [] with _ | h
      · by_cases h : LeafText K
        · exact complexMapping_no _ _ h
        · exact complexMapping_no' _ _ fun r => (hq r).resolve_right h
      · exact complexMapping_no _ _ h
    rw [bind_ok (isOk_err (lift_of hcm))]
    simp only [Bool.false_eq_true, if_false]
    exact orErr_ok hnode
  refine .after (isOk_err (lift_of (sym_no _ _ _ _ hE))) ?_
  simp only [Bool.false_eq_true, if_false]
  have := lerr_stuck (α := List (Node × Node)) hcon "flow map splitter" L (pre ++ (mid ++ ws) ++ K) [] E
  rw [Bang.at (doc' := pre ++ (mid ++ ws) ++ K ++ ([] ++ E)) (p' := (pre ++ (mid ++ ws) ++ K).length + ([] : Bytes).length)
    (by simp) (by simp; omega)]
  exact this

/-- A closed flow node as key, without a colon. -/
theorem entriesBad_flow {f : Flow} (hf : f.wf []) (hb : f.bare = true) (hst : f.known.still) {E : Bytes} (hE : FlowStop E) :
    EntriesBad (f.text ++ E) "flow map splitter" f.text.length := by
  have hcore := Flow.core_bare hb
  have hlt := Flow.first hf
  rw [hcore] at hlt
  have hnc := Flow.noClose hf E
  obtain ⟨c, r, rfl, hc⟩ := hE
  refine entriesBad_splitter (hlt.notWs _) (fun r => (hnc r).2) (fun _ => .inr hlt)
    (by rintro r ⟨⟩; revert hc; decide) ?_ fun k level hw => ?_
  · obtain ⟨c, r, hT, _, hc⟩ := hlt.head
    rw [hT]; exact noProps_of hc
  obtain ⟨k', u, w, hs, hk', N, hN⟩ := Flow.read f [] k level true (c :: r) hf hw (fun _ => ⟨rfl, ⟨_, _, rfl, hc⟩⟩)
  obtain ⟨rfl, rfl⟩ := List.append_eq_nil_iff.1 hs.symm
  refine ⟨k', hk', N, fun a n d ha hn hd L pre hL => ?_⟩
  rw [hcore] at hN
  obtain ⟨p', m', h1, h2⟩ := hN a n d ha hn hd L pre hL (hst.1 _ _)
  rw [show f.eff (k.consumed + pre.length) (envOf L k) = L.cur from hst.2 _ _, Loader.put_cur hL] at h2
  exact ⟨_, p', m', by simpa using h1, by simpa using h2⟩

/-- The last part of the input as key. -/
theorem entriesBad_open {P : Bytes → Prop} {T E : Bytes} (hT : OpenLast P T) (hP : P E) (hs : stopB E = true)
    (hE : ∀ r, E ≠ 0x3A :: r) : EntriesBad (T ++ E) "flow map splitter" T.length := by
  refine entriesBad_splitter (hT.1.notWs _) (fun r => (noClose_append hT.1 hT.2.1 E r).2) (fun _ => .inr hT.1) hE ?_
    fun k level hw => ?_
  · obtain ⟨c, r, hT, _, hc⟩ := hT.1.head
    rw [hT]; exact noProps_of hc
  obtain ⟨k', hk', N, hN⟩ := hT.2.2 k level E hw (.inr (.inr (.inr ⟨P, rfl, hP, hs⟩)))
  exact ⟨k', hk', N, hN⟩

/-- Nothing as key: at the end of the input, or in front of a comma or a `]`. -/
theorem entriesBad_empty {E : Bytes} (hE : E = [] ∨ ∃ r, E = 0x2C :: r ∨ E = 0x5D :: r) : EntriesBad E "flow map splitter" 0 := by
  have hh : ∀ c r, E = c :: r → c = 0x2C ∨ c = 0x5D := by
    rintro c r rfl
    rcases hE with h | ⟨_, h | h⟩ <;> cases h <;> simp
  have hne : ∀ x : UInt8, x ≠ 0x2C → x ≠ 0x5D → ∀ r, E ≠ x :: r := by
    intro x h1 h2 r he
    rcases hh _ _ he with h | h
    · exact h1 h
    · exact h2 h
  have := entriesBad_splitter (K := []) (E := E)
    (by intro c r he; rcases hh c r (by simpa using he) with rfl | rfl <;> decide)
    (by simpa using hne 0x7D (by decide) (by decide)) (fun r => .inl (by simpa using hne 0x3F (by decide) (by decide) r))
    (hne 0x3A (by decide) (by decide)) (by
      rcases hE with rfl | ⟨_, rfl | rfl⟩ <;> rfl) ?_
  · simpa using this
  intro k level hw
  obtain ⟨k', hk', tail, hend⟩ : ∃ k', (k' = k ∨ k' = k.at level) ∧ ∃ tail, PlainEnd k level true [] E k' tail := by
    rcases hE with rfl | ⟨r, rfl | rfl⟩
    · exact ⟨k, .inl rfl, [], .stop rfl⟩
    · exact ⟨_, .inr rfl, [], .flow (by decide) (.inl rfl) hw (fun _ => rfl)⟩
    · exact ⟨_, .inr rfl, [], .flow (by decide) (.inl rfl) hw (fun _ => rfl)⟩
  refine ⟨k', by rcases hk' with rfl | rfl <;> simp, 1, fun a n d ha hn hd L pre hL => ⟨.null, pre, [], by simp, ?_⟩⟩
  obtain ⟨d, rfl⟩ : ∃ i, d = i + 1 := ⟨d - 1, by omega⟩
  have h1 : NotNum E := by
    left; rcases hE with rfl | ⟨_, rfl | rfl⟩ <;> rfl
  have h2 : atomHead E = true := by
    rcases hE with rfl | ⟨_, rfl | rfl⟩ <;> rfl
  rw [List.nil_append, scalarTerm, scalarTermWith, bind_ok (scalarAtom_none _ _ _ h1 h2 hend n (by omega))]
  simp only
  rw [orElse_mismatch (s' := ld L (st k' pre [] E))]
  · rfl
  rw [orElse_mismatch (s' := ld L (st k' pre [] E))]
  · rw [bind_err (lift_of (sym_no _ _ _ _ (hne 0x7B (by decide) (by decide))))]
  · rw [seqFlow, bind_err (lift_of (sym_no _ _ _ _ (hne 0x5B (by decide) (by decide))))]

/-- The entries in front. -/
theorem entriesBad_more {T : Bytes} {name : String} {o : Nat} (hT : EntriesBad T name o) :
    ∀ (xs : List FEntry), (∀ x ∈ xs, FKeyOK x.T x.y x.sp ∧ x.v.wf [] ∧ x.v.known.still ∧ AllWs x.ws) →
    EntriesBad (fentriesText xs ++ T) name ((fentriesText xs).length + o)
  | [], _ => by simpa [fentriesText] using hT
  | x :: xs, hx => by
    obtain ⟨hxT, hv, hst, hws2⟩ := hx x (by simp)
    have ih := entriesBad_more hT xs (fun y hy => hx y (by simp [hy]))
    intro k level hw hk
    generalize hR : x.ws ++ (fentriesText xs ++ T) = R
    have hstop : FlowStop (0x2C :: R) := ⟨_, _, rfl, by decide⟩
    have hw1 : 0 < k.want (level + 1) := Nat.lt_of_lt_of_le hw (Ctx.want_mono k level)
    obtain ⟨k1, hk1, N1, hN1⟩ := flowKey_read hxT (k := k) (level := level) hw1 (x.v.text ++ (0x2C :: R))
    have hk1' : k1.at level = k.at level := Ctx.at_of_at hk1 (by omega)
    have hw2 : 0 < k1.want (level + 2) :=
      Nat.lt_of_lt_of_le (by rw [Ctx.want_of_at hk1]; exact hw1) (Ctx.want_mono k1 (level + 1))
    obtain ⟨k2, u, w, hs, hk2, N2, hN2⟩ := Flow.read x.v [] k1 (level + 2) true _ hv hw2 (fun _ => ⟨rfl, hstop⟩)
    obtain ⟨rfl, rfl⟩ := List.append_eq_nil_iff.1 hs.symm
    have hk2' : k2.at level = k.at level := (Ctx.at_of_at hk2 (by omega)).trans hk1'
    obtain ⟨N3, hN3⟩ := ih k2 level (by rw [Ctx.want_of_at hk2']; exact hw) ((Ctx.consumed_of_at hk2').trans hk)
    refine ⟨N1 + N2 + N3 + 4, fun a n d c ha hn hd hc L pre mid ws m hws hL => ?_⟩
    obtain ⟨c, rfl⟩ : ∃ i, c = i + 1 := ⟨c - 1, by omega⟩
    have hread := flow_node_still hv hst hstop rfl hN2 (n := a) (by omega) L (pre ++ (mid ++ ws) ++ x.T ++ ([0x3A] ++ x.sp)) hL
    simp only [List.nil_append, List.append_nil] at hread
    have htx : fentriesText (x :: xs) = x.T ++ (0x3A :: (x.sp ++ (x.v.text ++ (0x2C :: (x.ws ++ fentriesText xs))))) := by
      simp [fentriesText, FEntry.text]
    have hl := fun v => hN3 a n d c (by omega) (by omega) (by omega) (by omega) L
      (pre ++ (mid ++ ws) ++ x.T ++ ([0x3A] ++ x.sp) ++ x.v.text) [0x2C] x.ws v hws2 hL
    rw [Bang.at (doc' := pre ++ (mid ++ (ws ++ (fentriesText (x :: xs) ++ T))))
      (p' := pre.length + mid.length + ws.length + ((fentriesText (x :: xs)).length + o))
      (by rw [htx]; simp) (by rw [htx]; simp; omega)] at hl
    generalize hB : Bang (pre ++ (mid ++ (ws ++ (fentriesText (x :: xs) ++ T)))) name
      (pre.length + mid.length + ws.length + ((fentriesText (x :: xs)).length + o)) = B at hl ⊢
    rw [htx]
    simp only [List.append_assoc, List.cons_append]
    rw [hR] at hl ⊢
    rw [mapFlowLoop]
    refine .after (inv_read hws (hxT.1.notWs _) ..) (.after (lift_of (forward_st ..)) ?_)
    refine .after (isOk_err (lift_of (sym_no _ _ _ _ fun r => (noClose_append hxT.1 hxT.2.1 _ r).2))) ?_
    simp only [Bool.false_eq_true, if_false]
    refine .after (lift_of (forward_st ..)) ?_
    rw [List.append_nil]
    refine .after (hN1 a n d (by omega) (by omega) L _) (.after (isOk_ok (lift_of (sym_hit ..))) ?_)
    simp only [if_true]
    refine .after (flowSep_read hxT.2.2.1 (by obtain ⟨c, r, h1, h2, _⟩ := Flow.head hv; exact ⟨c, r, h1, h2⟩) ..)
      (.after (lift_of (forward_st ..)) ?_)
    rw [List.nil_append]
    refine .after (orErr_ok hread) (.after (isOk_ok (lift_of (sym_hit ..))) ?_)
    simp only [if_true, List.nil_append]
    exact hl _

theorem termBad_map {T : Bytes} {name : String} {o : Nat} (hT : EntriesBad T name o) {ws : Bytes} (hws : AllWs ws) :
    TermBad (0x7B :: (ws ++ T)) name (1 + ws.length + o) := by
  refine ⟨⟨_, .inr rfl⟩, fun k level hw hk => ?_⟩
  obtain ⟨N, hN⟩ := hT (k.at level) level (by simpa using hw) (by simpa using hk)
  refine ⟨N + 1, fun a n d flow ha hn hd L pre hL => ?_⟩
  obtain ⟨d, rfl⟩ : ∃ i, d = i + 1 := ⟨d - 1, by omega⟩
  have hl := hN a n d n (by omega) (by omega) (by omega) (by omega) L pre [0x7B] ws [] hws hL
  rw [Bang.at (doc' := pre ++ (0x7B :: (ws ++ T))) (p' := pre.length + (1 + ws.length + o)) (by simp) (by simp; omega)] at hl
  rw [scalarTerm, scalarTermWith]
  refine .after (scalarAtom_bracket (.inr rfl) hw flow L pre _ (by omega)) ?_
  simp only
  refine Fails.orElse (Fails.else (s' := ld L (st (k.at level) pre [] (0x7B :: (ws ++ T)))) ?_ ?_)
  · rw [seqFlow, bind_err (lift_of (sym_miss _ _ _ _ _ _ (by decide)))]
    simp
  · refine .after (lift_of (sym_hit ..)) ?_
    rw [show ([] : Bytes) ++ [0x7B] = [0x7B] from rfl]
    exact Fails.bind hl _

end YamlPeg
