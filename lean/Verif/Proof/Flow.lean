import Verif.Proof.FlowPlain
import Verif.Proof.Alias
/-! # Flow collections: layout trees and how they are read -/

namespace YamlPeg
open M

/-- What may stand between `:` and the value in a flow map. -/
def FlowSep (sp : Bytes) : Prop := ∃ r, sp = 0x20 :: r ∧ ∀ x ∈ r, isBlank x = true

/-- `T`, followed by the white space `W`, is read as the scalar `y` inside a flow collection. -/
def AtomOK (T : Bytes) (y : Env → Yaml) (pc : Env → Prop) (W : Bytes) : Prop :=
  LeafText T ∧ (∀ r, T ≠ 0x5D :: r ∧ T ≠ 0x7D :: r) ∧ AllWs W ∧
  ∀ (k : Ctx) (level : Nat) (E : Bytes), 0 < k.want level → FlowStop E →
    ∃ k' u w, W = u ++ w ∧ k'.at level = k.at level ∧ ∃ N, ∀ n, N ≤ n → ∀ L pre, L.Ready → pc (envOf L k) →
      scalarAtom n level true (ld L (st k pre [] (T ++ (W ++ E)))) =
        (.ok (some (y (envOf L k))), ld L (st k' pre (T ++ u) (w ++ E)))

/-- `T`, followed by `:` and `sp`, is read as the scalar `y` inside a flow map. -/
def FKeyOK (T : Bytes) (y : Yaml) (sp : Bytes) : Prop :=
  LeafText T ∧ (∀ r, T ≠ 0x5D :: r ∧ T ≠ 0x7D :: r) ∧ (sp = [] ∨ FlowSep sp) ∧
  ∀ (k : Ctx) (level : Nat) (R : Bytes), 0 < k.want level →
    ∃ k', k'.at level = k.at level ∧ ∃ N, ∀ n, N ≤ n → ∀ L pre,
      scalarAtom n level true (ld L (st k pre [] (T ++ (0x3A :: (sp ++ R))))) =
        (.ok (some y), ld L (st k' pre T (0x3A :: (sp ++ R))))

mutual
/-- A flow node: a scalar or an alias, a collection with white space behind its bracket, or
one of them with an anchor or a tag. -/
inductive Flow where
  | atom (T : Bytes) (y : Env → Yaml) (pc : Env → Prop)
  | seq (ws : Bytes) (its : FItems)
  | map (ws : Bytes) (es : FEnts)
  | prop (P : Form) (f : Flow)
/-- The items, each with the white space in front of the `,` or `]`, and behind the `,`. -/
inductive FItems where
  | nil
  | last (f : Flow) (W : Bytes)
  | cons (f : Flow) (W ws : Bytes) (rest : FItems)
inductive FEnts where
  | nil
  | last (T : Bytes) (y : Yaml) (sp : Bytes) (v : Flow) (W : Bytes)
  | cons (T : Bytes) (y : Yaml) (sp : Bytes) (v : Flow) (ws : Bytes) (rest : FEnts)
end

mutual
/-- The text of a flow node. -/
def Flow.text : Flow → Bytes
  | .atom T _ _ => T
  | .seq ws its => 0x5B :: (ws ++ its.text)
  | .map ws es => 0x7B :: (ws ++ es.text)
  | .prop P f => P.text ++ f.text
def FItems.text : FItems → Bytes
  | .nil => b!"]"
  | .last f W => f.text ++ (W ++ b!"]")
  | .cons f W ws rest => f.text ++ (W ++ (0x2C :: (ws ++ rest.text)))
def FEnts.text : FEnts → Bytes
  | .nil => b!"}"
  | .last T _ sp v W => T ++ (0x3A :: (sp ++ (v.text ++ (W ++ b!"}"))))
  | .cons T _ sp v ws rest => T ++ (0x3A :: (sp ++ (v.text ++ (0x2C :: (ws ++ rest.text)))))
end

/-- Where the node itself begins: behind its properties. -/
def Flow.off : Flow → Nat
  | .prop P _ => P.text.length
  | _ => 0
def Flow.tag : Flow → Bytes
  | .prop P _ => P.val
  | _ => []
/-- A flow node without properties. -/
def Flow.bare : Flow → Bool
  | .prop .. => false
  | _ => true
/-- A flow node without its properties. -/
def Flow.core : Flow → Flow
  | .prop _ f => f
  | f => f

mutual
/-- The data of a flow node at position `p`. -/
def Flow.data : Flow → Nat → Env → Yaml
  | .atom _ y _, _, e => y e
  | .seq ws its, p, e => .seq (its.nodes (p + 1 + ws.length) e)
  | .map ws es, p, e => .map (mapOf (es.pairs (p + 1 + ws.length) e))
  | .prop P f, p, e => f.data (p + P.text.length) e
def FItems.nodes : FItems → Nat → Env → List Node
  | .nil, _, _ => []
  | .last f _, p, e => [.mk (p + f.off) f.tag (f.data p e)]
  | .cons f W ws rest, p, e => .mk (p + f.off) f.tag (f.data p e) ::
      rest.nodes (p + f.text.length + W.length + 1 + ws.length) { e with anchors := f.eff p e }
def FEnts.pairs : FEnts → Nat → Env → List (Node × Node)
  | .nil, _, _ => []
  | .last T y sp v _, p, e =>
    [(.mk p [] y, .mk (p + T.length + 1 + sp.length + v.off) v.tag (v.data (p + T.length + 1 + sp.length) e))]
  | .cons T y sp v ws rest, p, e =>
    (.mk p [] y, .mk (p + T.length + 1 + sp.length + v.off) v.tag (v.data (p + T.length + 1 + sp.length) e)) ::
      rest.pairs (p + T.length + 1 + sp.length + v.text.length + 1 + ws.length)
        { e with anchors := v.eff (p + T.length + 1 + sp.length) e }
/-- The anchors known behind a flow node: an anchor is bound once its node is read. -/
def Flow.eff : Flow → Nat → Env → Anchors
  | .atom .., _, e => e.anchors
  | .seq ws its, p, e => its.eff (p + 1 + ws.length) e
  | .map ws es, p, e => es.eff (p + 1 + ws.length) e
  | .prop P f, p, e =>
    if P.name = [] then f.eff (p + P.text.length) e
    else mapInsert P.name (.mk (p + P.text.length) P.val (f.data (p + P.text.length) e)) (f.eff (p + P.text.length) e)
def FItems.eff : FItems → Nat → Env → Anchors
  | .nil, _, e => e.anchors
  | .last f _, p, e => f.eff p e
  | .cons f W ws rest, p, e =>
    rest.eff (p + f.text.length + W.length + 1 + ws.length) { e with anchors := f.eff p e }
def FEnts.eff : FEnts → Nat → Env → Anchors
  | .nil, _, e => e.anchors
  | .last T _ sp v _, p, e => v.eff (p + T.length + 1 + sp.length) e
  | .cons T _ sp v ws rest, p, e =>
    rest.eff (p + T.length + 1 + sp.length + v.text.length + 1 + ws.length)
      { e with anchors := v.eff (p + T.length + 1 + sp.length) e }
end

/-- The node of a flow node whose text begins at position `p`. -/
def Flow.node (f : Flow) (p : Nat) (e : Env) : Node := .mk (p + f.off) f.tag (f.data p e)

mutual
/-- The tags have their meaning, no anchor is bound twice, aliases are known. -/
def Flow.fine : Flow → Nat → Env → Prop
  | .atom _ _ pc, _, e => pc e
  | .seq ws its, p, e => its.fine (p + 1 + ws.length) e
  | .map ws es, p, e => es.fine (p + 1 + ws.length) e
  | .prop P f, p, e => P.fine e.tags ∧ f.fine (p + P.text.length) e ∧
      (P.name ≠ [] → mapGet P.name (f.eff (p + P.text.length) e) = none)
def FItems.fine : FItems → Nat → Env → Prop
  | .nil, _, _ => True
  | .last f _, p, e => f.fine p e
  | .cons f W ws rest, p, e => f.fine p e ∧
      rest.fine (p + f.text.length + W.length + 1 + ws.length) { e with anchors := f.eff p e }
def FEnts.fine : FEnts → Nat → Env → Prop
  | .nil, _, _ => True
  | .last T _ sp v _, p, e => v.fine (p + T.length + 1 + sp.length) e
  | .cons T _ sp v ws rest, p, e => v.fine (p + T.length + 1 + sp.length) e ∧
      rest.fine (p + T.length + 1 + sp.length + v.text.length + 1 + ws.length)
        { e with anchors := v.eff (p + T.length + 1 + sp.length) e }
end

mutual
/-- In front of the white space `W`. -/
def Flow.wf (W : Bytes) : Flow → Prop
  | .atom T y pc => AtomOK T y pc W
  | .seq ws its => AllWs ws ∧ its.wf ∧ AllWs W
  | .map ws es => AllWs ws ∧ es.wf ∧ AllWs W ∧ ∀ p e, GoodKeys ((es.pairs p e).map Prod.fst)
  | .prop P f => P.wf f.text ∧ f.bare = true ∧ f.wf W
def FItems.wf : FItems → Prop
  | .nil => True
  | .last f W => f.wf W
  | .cons f W ws rest => f.wf W ∧ AllWs ws ∧ rest.wf
def FEnts.wf : FEnts → Prop
  | .nil => True
  | .last T y sp v W => FKeyOK T y sp ∧ v.wf W
  | .cons T y sp v ws rest => FKeyOK T y sp ∧ v.wf [] ∧ AllWs ws ∧ rest.wf
end

/-- A scalar, an alias, or a node with properties. -/
def Flow.isAtom : Flow → Bool
  | .atom _ _ _ => true
  | .prop .. => true
  | _ => false

theorem Flow.core_bare {f : Flow} (h : f.bare = true) : f.core = f := by
  cases f <;> simp_all [Flow.bare, Flow.core]
theorem Flow.core_wf {W : Bytes} {f : Flow} (h : f.wf W) : f.core.wf W := by
  cases f <;> first | exact h | (rw [Flow.wf] at h; exact h.2.2)
theorem Flow.core_isBare {W : Bytes} {f : Flow} (h : f.wf W) : f.core.bare = true := by
  cases f <;> first | rfl | (rw [Flow.wf] at h; exact h.2.1)
theorem Flow.core_of_coll {f : Flow} (h : f.isAtom = false) : f.core = f := by
  cases f <;> simp_all [Flow.isAtom, Flow.core]

theorem Flow.wf_ws {W : Bytes} {f : Flow} (h : f.wf W) : AllWs W := by
  have hb := Flow.core_isBare h
  replace h := Flow.core_wf h
  generalize f.core = f at h hb
  cases f with
  | prop => simp [Flow.bare] at hb
  | atom => rw [Flow.wf] at h; exact h.2.2.1
  | seq => rw [Flow.wf] at h; exact h.2.2
  | map => rw [Flow.wf] at h; exact h.2.2.1

/-! ## Auxiliary facts -/

theorem sum_take_le (l : List Nat) : ∀ n, (l.take n).sum ≤ (l.take (n + 1)).sum := by
  induction l with
  | nil => simp
  | cons x l ih =>
    intro n
    cases n with
    | zero => simp
    | succ n => simp only [List.take_succ_cons, List.sum_cons]; have := ih n; omega

theorem Ctx.want_mono (k : Ctx) (p : Nat) : k.want p ≤ k.want (p + 1) := by
  by_cases h : k.indent.length ≤ p + 1
  · rw [Ctx.want_succ _ _ h]; omega
  · unfold Ctx.want indentFor
    rw [if_neg (by omega), if_neg (by omega)]
    exact sum_take_le ..

theorem tokHead_ascii {c : UInt8} (h : tokHead c = true) : isAsciiWs c = false := by
  simp only [tokHead, Bool.and_eq_true] at h
  simpa using h.1

theorem Flow.first {W : Bytes} {f : Flow} (h : f.wf W) : LeafText f.core.text := by
  have hb := Flow.core_isBare h
  replace h := Flow.core_wf h
  generalize f.core = f at h hb
  cases f with
  | atom T y pc => rw [Flow.wf] at h; exact h.1
  | seq ws its => exact ⟨0x5B, _, by rw [Flow.text], by decide, by decide, by simp⟩
  | map ws its => exact ⟨0x7B, _, by rw [Flow.text], by decide, by decide, by simp⟩
  | prop => simp [Flow.bare] at hb

theorem noClose_append {T : Bytes} (h : LeafText T) (hc : ∀ r, T ≠ 0x5D :: r ∧ T ≠ 0x7D :: r) (E : Bytes) :
    ∀ r, T ++ E ≠ 0x5D :: r ∧ T ++ E ≠ 0x7D :: r := by
  obtain ⟨c, r, rfl, _⟩ := h
  intro s
  have := hc r
  simp at this
  simp [this.1, this.2]

/-- The first byte of a flow node. -/
theorem Flow.head {W : Bytes} {f : Flow} (h : f.wf W) :
    ∃ c r, f.text = c :: r ∧ tokHead c = true ∧ c ≠ 0x5D ∧ c ≠ 0x7D := by
  cases f with
  | atom T y pc =>
    rw [Flow.wf] at h
    obtain ⟨c, r, rfl, h1, _⟩ := h.1
    have := h.2.1 r
    simp at this
    exact ⟨c, r, by rw [Flow.text], h1, this.1, this.2⟩
  | seq ws its => exact ⟨0x5B, _, by rw [Flow.text], by decide, by decide, by decide⟩
  | map ws its => exact ⟨0x7B, _, by rw [Flow.text], by decide, by decide, by decide⟩
  | prop P f =>
    rw [Flow.wf] at h
    obtain ⟨c, u, hc, hor⟩ := Form.text_head h.1
    rw [Flow.text, hc]
    exact ⟨c, _, rfl, by rcases hor with rfl | rfl <;> decide, by rcases hor with rfl | rfl <;> decide,
      by rcases hor with rfl | rfl <;> decide⟩

theorem Flow.noClose {W : Bytes} {f : Flow} (h : f.wf W) (E : Bytes) :
    ∀ r, f.text ++ E ≠ 0x5D :: r ∧ f.text ++ E ≠ 0x7D :: r := by
  obtain ⟨c, r, hc, _, h1, h2⟩ := Flow.head h
  rw [hc]
  intro s
  simp [h1, h2]

theorem Flow.notWs {W : Bytes} {f : Flow} (h : f.wf W) (E : Bytes) :
    ∀ c r, f.text ++ E = c :: r → isAsciiWs c = false := by
  obtain ⟨c, r, hc, h1, _⟩ := Flow.head h
  rw [hc]
  rintro _ _ ⟨⟩
  exact tokHead_ascii h1

theorem inv_read {ws : Bytes} (h : AllWs ws) {post : Bytes} (hp : ∀ c r, post = c :: r → isAsciiWs c = false)
    (k : Ctx) (L : Loader) (pre mid : Bytes) :
    lift (inv (.more 0)) (ld L (st k pre mid (ws ++ post))) = (.ok (), ld L (st k pre (mid ++ ws) post)) := by
  have := takeWhile_all h post hp
  rw [lift_of (inv_st ..), this.1, this.2]

theorem inv_nil {c : UInt8} {r : Bytes} (hc : isAsciiWs c = false) (k : Ctx) (L : Loader) (pre mid : Bytes) :
    lift (inv (.more 0)) (ld L (st k pre mid (c :: r))) = (.ok (), ld L (st k pre mid (c :: r))) := by
  have := inv_read (ws := []) (by simp [AllWs]) (post := c :: r) (by rintro _ _ ⟨⟩; exact hc) k L pre mid
  simpa using this

theorem LeafText.notWs {T : Bytes} (h : LeafText T) (E : Bytes) :
    ∀ c r, T ++ E = c :: r → isAsciiWs c = false := by
  obtain ⟨c, r, rfl, h1, _⟩ := h
  rintro _ _ ⟨⟩
  exact tokHead_ascii h1

theorem FlowStop.plain {E : Bytes} (h : FlowStop E) {k : Ctx} {level : Nat} (hw : 0 < k.want level) (T : Bytes) :
    PlainEnd k level true T E (k.at level) [] := by
  obtain ⟨c, r, rfl, hc⟩ := h
  refine .flow ?_ (.inl rfl) hw (fun _ => rfl)
  simp at hc; rcases hc with rfl | rfl | rfl <;> decide

/-- A collection is no scalar. -/
theorem scalarAtom_bracket {c : UInt8} (hc : c = 0x5B ∨ c = 0x7B) {k : Ctx} {level : Nat} (hw : 0 < k.want level)
    (flow : Bool) (L : Loader) (pre r : Bytes) {n : Nat} (hn : 0 < n) :
    scalarAtom n level flow (ld L (st k pre [] (c :: r))) = (.ok none, ld L (st (k.at level) pre [] (c :: r))) := by
  refine scalarAtom_none _ _ _ ?_ ?_ (tail := []) ?_ n hn
  · left; rcases hc with rfl | rfl <;> rfl
  · rcases hc with rfl | rfl <;> rfl
  · refine .flow ?_ (.inr rfl) hw ?_
    · rcases hc with rfl | rfl <;> decide
    · rcases hc with rfl | rfl <;> simp

/-- Behind white space, or at once, a closing byte. -/
theorem ws_stop_head {w E : Bytes} (hw : AllWs w) (hE : FlowStop E) : ∃ c r, w ++ E = c :: r ∧ c ≠ 0x3A := by
  cases w with
  | nil => obtain ⟨c, r, rfl, hc⟩ := hE; exact ⟨c, r, rfl, by rintro rfl; revert hc; decide⟩
  | cons x w => exact ⟨x, w ++ E, rfl, by rintro rfl; have := hw 0x3A (by simp); revert this; decide⟩

/-- From `scalar_term` to `scalar` with `flow` set. -/
theorem flow_node_of {T : Bytes} (hf : LeafText T) {k k' : Ctx} {level a : Nat} {F F' p' m' : Bytes} {D : Yaml} {L L' : Loader} {pre : Bytes}
    (hF : ∀ r, F' ≠ 0x3A :: r)
    (he : scalarTerm (scalar (a + 1)) (a + 1) (a + 1) (level + 2) true (ld L (st k pre [] (T ++ F))) =
      (.ok D, ld L' (st k' p' m' F'))) :
    scalar (a + 2) (level + 1) false true (ld L (st k pre [] (T ++ F))) =
      (.ok (.mk (k.consumed + pre.length) [] D), ld L' (st k' (p' ++ m') [] F')) := by
  obtain ⟨c, r, hc, h1, h2⟩ := hf.head
  have hcE : T ++ F = c :: (r ++ F) := by rw [hc]; rfl
  have hp : noProps (T ++ F) = true := by rw [hcE]; exact noProps_of h2
  have hfi : firstItem (level + 1) false (ld L (st k pre [] (T ++ F))) =
      (.ok (), ld L (st k pre [] (T ++ F))) := by
    rw [hcE]; exact firstItem_inline _ _ _ _ h1 _
  have hsf : scalarFlow (scalar (a + 1)) (a + 1) (level + 1 + 1) true (ld L (st k pre [] (T ++ F))) =
      (.ok (.mk (k.consumed + pre.length) [] D), ld L' (st k' (p' ++ m') [] F')) := by
    rw [scalarFlow, scalarNode_ok _ _ _ _ hp he]
  have hcolon : colonBound (ld L' (st k' (p' ++ m') [] F')) =
      (.ok false, ld L' (st k' (p' ++ m') [] F')) := by
    rw [colonBound, bind_ok (isOk_err (lift_of (sym_no _ _ _ _ hF)))]
    simp
  have hmap : YamlPeg.map (scalar (a + 1)) (a + 1) (level + 1) false true (ld L (st k pre [] (T ++ F))) =
      (.ok D, ld L' (st k' (p' ++ m') [] F')) := by
    rw [YamlPeg.map, mapLoop, bind_ok (a := MapStep.alone D)
      (s' := ld L' (st k' (p' ++ m') [] F'))]
    · rfl
    · rw [mapStep, bind_ok (lift_of (forward_st ..))]
      simp only [List.isEmpty_nil, if_true, List.append_nil]
      have hkey : (do
          if ← isOk (lift complexMapping) then complexKey (scalar (a + 1)) (level + 1) true true "map key"
          else scalarFlow (scalar (a + 1)) (a + 1) (level + 1 + 1) true : LM Node)
          (ld L (st k pre [] (T ++ F))) =
          (.ok (.mk (k.consumed + pre.length) [] D), ld L' (st k' (p' ++ m') [] F')) := by
        rw [bind_ok (isOk_err (lift_of (complexMapping_no _ _ hf)))]
        simp only [Bool.false_eq_true, if_false]
        exact hsf
      rw [bind_ok hfi, bind_ok (lift_of (forward_st ..)), List.append_nil, bind_ok hkey, bind_ok hcolon]
      simp [Node.yaml]
  have hseq := seq_no k L pre hf.keyHead (E := F) (lead := []) (σ := k.want (level + 1)) (level := level + 1)
    (.inl rfl) rfl (scalar (a + 1)) a
  simp only [List.nil_append, if_true] at hseq
  rw [scalar, scalarNode_ok _ _ _ _ hp (k' := k') (L' := L') (p' := p' ++ m') (m' := []) (post' := F')
    (y := D)]
  · simp
  · rw [hcE, scalarBody_skip _ _ _ h2, ← hcE, orElse_ok]
    rw [orElse_mismatch hseq, hmap]

theorem flow_node {f : Flow} {W : Bytes} (hf : f.wf W) {k k' : Ctx} {level : Nat} {u w E : Bytes} (hE : FlowStop E)
    (hs : W = u ++ w)
    {N : Nat} (hN : ∀ a n d, N ≤ a → N ≤ n → N ≤ d → ∀ L pre, L.Ready → f.core.fine (k.consumed + pre.length) (envOf L k) →
      ∃ p' m', p' ++ m' = pre ++ f.core.text ++ u ∧
        scalarTerm (scalar a) n d (level + 2) true (ld L (st k pre [] (f.core.text ++ (W ++ E)))) =
          (.ok (f.core.data (k.consumed + pre.length) (envOf L k)),
            ld (L.put (f.core.eff (k.consumed + pre.length) (envOf L k))) (st k' p' m' (w ++ E))))
    {n : Nat} (hn : N + 3 ≤ n) (L : Loader) (pre : Bytes) (hL : L.Ready)
    (hpc : f.fine (k.consumed + pre.length) (envOf L k)) :
    scalar n (level + 1) false true (ld L (st k pre [] (f.text ++ (W ++ E)))) =
      (.ok (f.node (k.consumed + pre.length) (envOf L k)),
        ld (L.put (f.eff (k.consumed + pre.length) (envOf L k))) (st k' (pre ++ f.text ++ u) [] (w ++ E))) := by
  obtain ⟨a, rfl⟩ : ∃ a, n = a + 2 := ⟨n - 2, by omega⟩
  have hww : AllWs w := by have hW := Flow.wf_ws hf; rw [hs] at hW; exact hW.of_append.2
  have hcol : ∀ r, w ++ E ≠ 0x3A :: r := by
    intro r h
    obtain ⟨x, q, hx, hne⟩ := ws_stop_head hww hE
    rw [hx] at h
    exact hne (by simp at h; exact h.1)
  have hlt := Flow.first hf
  have key : ∀ pre, f.core.fine (k.consumed + pre.length) (envOf L k) →
      scalar (a + 2) (level + 1) false true (ld L (st k pre [] (f.core.text ++ (W ++ E)))) =
      (.ok (.mk (k.consumed + pre.length) [] (f.core.data (k.consumed + pre.length) (envOf L k))),
        ld (L.put (f.core.eff (k.consumed + pre.length) (envOf L k))) (st k' (pre ++ f.core.text ++ u) [] (w ++ E))) := by
    intro pre hpc
    obtain ⟨p', m', hpm, he⟩ := hN (a + 1) (a + 1) (a + 1) (by omega) (by omega) (by omega) L pre hL hpc
    rw [flow_node_of hlt hcol he, hpm]
  by_cases hb : f.bare = true
  · rw [Flow.core_bare hb] at key
    have h1 : f.off = 0 := by cases f <;> simp_all [Flow.bare, Flow.off]
    have h2 : f.tag = [] := by cases f <;> simp_all [Flow.bare, Flow.tag]
    rw [Flow.node, h1, h2]
    exact key pre hpc
  · cases f with
    | prop P f =>
      rw [Flow.wf] at hf
      simp only [Flow.core] at key hlt
      rw [Flow.fine] at hpc
      have hpos : k.consumed + (pre ++ P.text).length = k.consumed + pre.length + P.text.length := by
        simp [Nat.add_assoc]
      have hk := key (pre ++ P.text) (by rw [hpos]; exact hpc.2.1)
      rw [hpos] at hk
      have hX : noProps (f.text ++ (W ++ E)) = true := by
        obtain ⟨c, r, hT, _, hc⟩ := hlt.head
        rw [hT]; exact noProps_of hc
      rw [scalar] at hk ⊢
      rw [Flow.text, List.append_assoc]
      rw [scalarNode_prop (Form.wf.append hf.1 _) hpc.1 hX hL hpc.2.2 hk]
      simp [Flow.node, Flow.off, Flow.tag, Flow.data, Flow.eff]
    | _ => simp [Flow.bare] at hb

theorem flowSep_read {sp : Bytes} (h : sp = [] ∨ FlowSep sp) {T : Bytes} (hT : ∃ c r, T = c :: r ∧ tokHead c = true) (E : Bytes) (k : Ctx) (L : Loader)
    (pre mid : Bytes) :
    lift (context (orDefault () bound)) (ld L (st k pre mid (sp ++ (T ++ E)))) =
      (.ok (), ld L (st k pre (mid ++ sp) (T ++ E))) := by
  obtain ⟨c, r, rfl, h1⟩ := hT
  rcases h with rfl | ⟨s, rfl, hs⟩
  · have hb : isBlank c = false := tokHead_blank h1
    have := context_st (f := orDefault () bound) (k := k) (k' := k) (pre := pre) (mid := mid) (post := c :: (r ++ E))
      (p' := []) (m' := []) (post' := c :: (r ++ E)) (o := .ok ()) (by
        have hbd := bound_eq k (pre ++ mid) [] (c :: (r ++ E))
        by_cases hh : headIn b!":{}[] ,\n\r" (c :: (r ++ E)) = true
        · rw [if_pos hh] at hbd
          simp only [List.takeWhile, List.dropWhile, hb] at hbd
          rw [orDefault, hbd]; simp
        · rw [if_neg hh] at hbd
          rw [orDefault, hbd]; simp)
    simp only [List.nil_append, List.cons_append, List.append_nil]
    rw [lift_of this]
    simp
  refine start_read (.inl ⟨?_, ⟨c, r ++ E, rfl, tokHead_blank h1⟩, .inl ⟨s, rfl⟩⟩) k L pre mid
  intro x hx
  simp only [List.mem_cons] at hx
  rcases hx with rfl | hx
  · decide
  · exact hs x hx

theorem envOf_at (L : Loader) {k k' : Ctx} {level : Nat} (h : k'.at level = k.at level) : envOf L k' = envOf L k :=
  envOf_ctx L (by have := congrArg Ctx.tag h; simpa [Ctx.at] using this)

/-! ## Reading -/

/-- A key of a flow map. -/
theorem FEnts.key {T : Bytes} {y : Yaml} {sp : Bytes} (hT : FKeyOK T y sp) {k : Ctx} {level : Nat}
    (hw : 0 < k.want level) (R : Bytes) :
    ∃ k', k'.at level = k.at level ∧ ∃ N, ∀ a n d, N ≤ n → N ≤ d → ∀ L pre,
      scalarNode (scalarTerm (scalar a) n d level true) (ld L (st k pre [] (T ++ (0x3A :: (sp ++ R))))) =
        (.ok (.mk (k.consumed + pre.length) [] y), ld L (st k' (pre ++ T) [] (0x3A :: (sp ++ R)))) := by
  obtain ⟨k', hk', N, hN⟩ := hT.2.2.2 k level R hw
  refine ⟨k', hk', N + 1, fun a n d hn hd L pre => ?_⟩
  obtain ⟨d, rfl⟩ : ∃ i, d = i + 1 := ⟨d - 1, by omega⟩
  obtain ⟨c, t, hc, h1, h2⟩ := hT.1.head
  rw [scalarNode_ok _ _ _ _ (by rw [hc]; exact noProps_of h2) (scalarTerm_atom _ (hN n (by omega) L pre))]

mutual
theorem Flow.read : ∀ (f : Flow) (W : Bytes) (k : Ctx) (level : Nat) (flow : Bool) (E : Bytes), f.wf W → 0 < k.want level →
    (f.core.isAtom = true → flow = true ∧ FlowStop E) →
    ∃ k' u w, W = u ++ w ∧ k'.at level = k.at level ∧ ∃ N, ∀ a n d, N ≤ a → N ≤ n → N ≤ d → ∀ L pre, L.Ready →
      f.core.fine (k.consumed + pre.length) (envOf L k) →
      ∃ p' m', p' ++ m' = pre ++ f.core.text ++ u ∧
        scalarTerm (scalar a) n d level flow (ld L (st k pre [] (f.core.text ++ (W ++ E)))) =
          (.ok (f.core.data (k.consumed + pre.length) (envOf L k)),
            ld (L.put (f.core.eff (k.consumed + pre.length) (envOf L k))) (st k' p' m' (w ++ E)))
  | .atom T y pc, W, k, level, flow, E, hwf, hw, hat => by
    obtain ⟨rfl, hE⟩ := hat rfl
    simp only [Flow.core]
    rw [Flow.wf] at hwf
    obtain ⟨k', u, w, hs, hk', N, hN⟩ := hwf.2.2.2 k level E hw hE
    refine ⟨k', u, w, hs, hk', N + 1, fun a n d ha hn hd L pre hL hpc => ⟨pre, T ++ u, by simp [Flow.text], ?_⟩⟩
    obtain ⟨d, rfl⟩ : ∃ i, d = i + 1 := ⟨d - 1, by omega⟩
    rw [Flow.eff, show (envOf L k).anchors = L.cur from rfl, Loader.put_cur hL]
    exact scalarTerm_atom _ (hN n (by omega) L pre hL (by rwa [Flow.fine] at hpc))
  | .prop P f, W, k, level, flow, E, hwf, hw, hat => by
    rw [Flow.wf] at hwf
    have := Flow.read f W k level flow E hwf.2.2 hw (by rw [Flow.core_bare hwf.2.1]; exact hat)
    rw [Flow.core_bare hwf.2.1] at this
    exact this
  | .seq ws its, W, k, level, flow, E, hwf, hw, _ => by
    simp only [Flow.core]
    rw [Flow.wf] at hwf
    obtain ⟨k', hk', N, hN⟩ := FItems.read its (k.at level) level (W ++ E) hwf.2.1 (by simpa using hw)
    refine ⟨k', [], W, rfl, by simpa using hk', N + 1, fun a n d ha hn hd L pre hL hpc => ?_⟩
    obtain ⟨d, rfl⟩ : ∃ i, d = i + 1 := ⟨d - 1, by omega⟩
    have hl := hN a n (by omega) (by omega) L pre [0x5B] ws [] hwf.1 hL (by
      rw [Flow.fine] at hpc; exact hpc)
    obtain ⟨p', m', hpm, hl⟩ := hl
    refine ⟨p' ++ m', [], by rw [hpm]; simp [Flow.text], ?_⟩
    simp only [Flow.text, Flow.data, Flow.eff, List.cons_append, List.append_assoc]
    rw [scalarTerm, scalarTermWith, bind_ok (scalarAtom_bracket (.inl rfl) hw flow L pre _ (by omega))]
    simp only
    rw [orElse_ok]
    rw [orElse_ok]
    rw [seqFlow, bind_ok (lift_of (sym_hit ..))]
    rw [show ([] : Bytes) ++ [0x5B] = [0x5B] from rfl, bind_ok hl, bind_ok (lift_of (forward_st ..))]
    rw [show envOf L (k.at level) = envOf L k from rfl]
    simp [Nat.add_assoc]
  | .map ws es, W, k, level, flow, E, hwf, hw, _ => by
    simp only [Flow.core]
    rw [Flow.wf] at hwf
    obtain ⟨k', hk', N, hN⟩ := FEnts.read es (k.at level) level (W ++ E) hwf.2.1 (by simpa using hw)
    refine ⟨k', [], W, rfl, by simpa using hk', N + 1, fun a n d ha hn hd L pre hL hpc => ?_⟩
    obtain ⟨d, rfl⟩ : ∃ i, d = i + 1 := ⟨d - 1, by omega⟩
    have hl := hN a n d n (by omega) (by omega) (by omega) (by omega) L pre [0x7B] ws [] hwf.1 hL (by
      rw [Flow.fine] at hpc; exact hpc)
    obtain ⟨p', m', hpm, hl⟩ := hl
    refine ⟨p' ++ m', [], by rw [hpm]; simp [Flow.text], ?_⟩
    have hgood := hwf.2.2.2 (k.consumed + pre.length + 1 + ws.length) (envOf L k)
    simp only [Flow.text, Flow.data, Flow.eff, List.cons_append, List.append_assoc]
    rw [scalarTerm, scalarTermWith, bind_ok (scalarAtom_bracket (.inr rfl) hw flow L pre _ (by omega))]
    simp only
    rw [orElse_ok]
    rw [orElse_mismatch (s' := ld L (st (k.at level) pre [] (0x7B :: (ws ++ (es.text ++ (W ++ E))))))]
    · rw [bind_ok (lift_of (sym_hit ..))]
      rw [show ([] : Bytes) ++ [0x7B] = [0x7B] from rfl, bind_ok hl, bind_ok (lift_of (forward_st ..)), collectMap]
      simp only [List.nil_append, List.length_singleton, Ctx.at_consumed]
      rw [show envOf L (k.at level) = envOf L k from rfl, entriesCollect_good hgood _ [] (by simp) (fun e he => List.mem_map_of_mem he)]
      simp [mapOf]
    · rw [seqFlow, bind_err (lift_of (sym_miss _ _ _ _ _ _ (by decide)))]
      simp
theorem FItems.read : ∀ (its : FItems) (k : Ctx) (level : Nat) (E : Bytes), its.wf → 0 < k.want level →
    ∃ k', k'.at level = k.at level ∧ ∃ N, ∀ a c, N ≤ a → N ≤ c → ∀ L pre mid ws v, AllWs ws → L.Ready →
      its.fine (k.consumed + pre.length + mid.length + ws.length) (envOf L k) →
      ∃ p' m', p' ++ m' = pre ++ mid ++ ws ++ its.text ∧
        seqFlowLoop (scalar a) level c v (ld L (st k pre mid (ws ++ (its.text ++ E)))) =
          (.ok (v ++ its.nodes (k.consumed + pre.length + mid.length + ws.length) (envOf L k)),
            ld (L.put (its.eff (k.consumed + pre.length + mid.length + ws.length) (envOf L k))) (st k' p' m' E))
  | .nil, k, level, E, hwf, hw => by
    refine ⟨k, rfl, 1, fun a c ha hc L pre mid ws v hws hL hpc => ?_⟩
    obtain ⟨c, rfl⟩ : ∃ i, c = i + 1 := ⟨c - 1, by omega⟩
    refine ⟨pre ++ (mid ++ ws), [0x5D], by simp [FItems.text], ?_⟩
    simp only [FItems.text, List.cons_append, List.nil_append]
    rw [seqFlowLoop, bind_ok (inv_read hws (by rintro _ _ ⟨⟩; decide) ..), bind_ok (lift_of (forward_st ..)),
      bind_ok (isOk_ok (lift_of (sym_hit ..)))]
    simp [FItems.nodes, FItems.eff, show (envOf L k).anchors = L.cur from rfl, Loader.put_cur hL]
  | .last f W, k, level, E, hwf, hw => by
    rw [FItems.wf] at hwf
    have hW := Flow.wf_ws hwf
    have hw2 : 0 < k.want (level + 2) :=
      Nat.lt_of_lt_of_le hw (Nat.le_trans (Ctx.want_mono k level) (Ctx.want_mono k (level + 1)))
    have hstop : FlowStop (0x5D :: E) := ⟨_, _, rfl, by decide⟩
    obtain ⟨k', u, w, hs, hk', N, hN⟩ := Flow.read f W k (level + 2) true (0x5D :: E) hwf hw2 (fun _ => ⟨rfl, hstop⟩)
    have hww : AllWs w := by rw [hs] at hW; exact hW.of_append.2
    refine ⟨k', Ctx.at_of_at hk' (by omega), N + 4, fun a c ha hc L pre mid ws v hws hL hpc => ?_⟩
    rw [FItems.fine] at hpc
    obtain ⟨c, rfl⟩ : ∃ i, c = i + 1 := ⟨c - 1, by omega⟩
    have hpos : k.consumed + (pre ++ (mid ++ ws)).length = k.consumed + pre.length + mid.length + ws.length := by
      simp [Nat.add_assoc]
    have hread := flow_node hwf hstop hs hN (n := a) (by omega) L (pre ++ (mid ++ ws)) hL (by rw [hpos]; exact hpc)
    rw [hpos] at hread
    refine ⟨pre ++ (mid ++ ws) ++ f.text ++ u, w ++ [0x5D], by simp [FItems.text, hs], ?_⟩
    simp only [FItems.text, FItems.nodes, FItems.eff, List.append_assoc, List.cons_append, List.nil_append]
    generalize L.put (f.eff (k.consumed + pre.length + mid.length + ws.length) (envOf L k)) = L1 at hread ⊢
    rw [seqFlowLoop, bind_ok (inv_read hws (Flow.notWs hwf _) ..), bind_ok (lift_of (forward_st ..))]
    rw [bind_ok (isOk_err (lift_of (sym_no _ _ _ _ fun r => (Flow.noClose hwf _ r).1)))]
    simp only [Bool.false_eq_true, if_false]
    rw [bind_ok (lift_of (forward_st ..)), List.append_nil, bind_ok (orErr_ok hread)]
    have hinv := inv_read hww (post := 0x5D :: E) (by rintro _ _ ⟨⟩; decide) k' L1 (pre ++ (mid ++ ws) ++ f.text ++ u) []
    rw [bind_ok hinv, List.nil_append, bind_ok (isOk_err (lift_of (sym_miss _ _ _ _ _ _ (by decide))))]
    simp only [Bool.false_eq_true, if_false]
    rw [bind_ok hinv, bind_ok (lift_of (sym_hit ..))]
    simp [Flow.node]
  | .cons f W ws2 rest, k, level, E, hwf, hw => by
    rw [FItems.wf] at hwf
    have hW := Flow.wf_ws hwf.1
    have hw2 : 0 < k.want (level + 2) :=
      Nat.lt_of_lt_of_le hw (Nat.le_trans (Ctx.want_mono k level) (Ctx.want_mono k (level + 1)))
    have hstop : FlowStop (0x2C :: (ws2 ++ (rest.text ++ E))) := ⟨_, _, rfl, by decide⟩
    obtain ⟨k1, u, w, hs, hk1, N, hN⟩ := Flow.read f W k (level + 2) true _ hwf.1 hw2 (fun _ => ⟨rfl, hstop⟩)
    have hww : AllWs w := by rw [hs] at hW; exact hW.of_append.2
    have hk1' : k1.at level = k.at level := Ctx.at_of_at hk1 (by omega)
    obtain ⟨k', hk', N2, hN2⟩ := FItems.read rest k1 level E hwf.2.2 (by rw [Ctx.want_of_at hk1']; exact hw)
    refine ⟨k', hk'.trans hk1', N + N2 + 4, fun a c ha hc L pre mid ws v hws hL hpc => ?_⟩
    rw [FItems.fine] at hpc
    obtain ⟨c, rfl⟩ : ∃ i, c = i + 1 := ⟨c - 1, by omega⟩
    have hpos : k.consumed + (pre ++ (mid ++ ws)).length = k.consumed + pre.length + mid.length + ws.length := by
      simp [Nat.add_assoc]
    have hread := flow_node hwf.1 hstop hs hN (n := a) (by omega) L (pre ++ (mid ++ ws)) hL (by rw [hpos]; exact hpc.1)
    rw [hpos] at hread
    generalize hp : k.consumed + pre.length + mid.length + ws.length = p at *
    have hee : envOf (L.put (f.eff p (envOf L k))) k1 = { envOf L k with anchors := f.eff p (envOf L k) } :=
      envOf_put hL (Ctx.tag_of_at hk1') _
    have hlen := congrArg List.length hs
    simp only [List.length_append] at hlen
    have hp2 : k1.consumed + (pre ++ (mid ++ ws) ++ f.text ++ u).length + (w ++ [0x2C]).length + ws2.length =
        p + f.text.length + W.length + 1 + ws2.length := by
      rw [Ctx.consumed_of_at hk1']
      simp only [List.length_append, List.length_singleton]
      omega
    obtain ⟨p', m', hpm, hl⟩ := hN2 a c (by omega) (by omega) (L.put (f.eff p (envOf L k)))
      (pre ++ (mid ++ ws) ++ f.text ++ u) (w ++ [0x2C]) ws2 (v ++ [f.node p (envOf L k)])
      hwf.2.1 (hL.put _) (by rw [hee, hp2]; exact hpc.2)
    rw [hee, hp2, Loader.put_put] at hl
    refine ⟨p', m', by rw [hpm]; simp [FItems.text, hs], ?_⟩
    simp only [FItems.text, FItems.nodes, FItems.eff, List.append_assoc, List.cons_append]
    rw [seqFlowLoop, bind_ok (inv_read hws (Flow.notWs hwf.1 _) ..), bind_ok (lift_of (forward_st ..))]
    rw [bind_ok (isOk_err (lift_of (sym_no _ _ _ _ fun r => (Flow.noClose hwf.1 _ r).1)))]
    simp only [Bool.false_eq_true, if_false]
    rw [bind_ok (lift_of (forward_st ..)), List.append_nil, bind_ok (orErr_ok hread)]
    have hinv := inv_read hww (post := 0x2C :: (ws2 ++ (rest.text ++ E))) (by rintro _ _ ⟨⟩; decide) k1
      (L.put (f.eff p (envOf L k))) (pre ++ (mid ++ ws) ++ f.text ++ u) []
    rw [bind_ok hinv, List.nil_append, bind_ok (isOk_ok (lift_of (sym_hit ..)))]
    simp only [if_true]
    rw [hl]
    simp [Flow.node]
theorem FEnts.read : ∀ (es : FEnts) (k : Ctx) (level : Nat) (E : Bytes), es.wf → 0 < k.want level →
    ∃ k', k'.at level = k.at level ∧ ∃ N, ∀ a n d c, N ≤ a → N ≤ n → N ≤ d → N ≤ c → ∀ L pre mid ws v, AllWs ws →
      L.Ready → es.fine (k.consumed + pre.length + mid.length + ws.length) (envOf L k) →
      ∃ p' m', p' ++ m' = pre ++ mid ++ ws ++ es.text ∧
        mapFlowLoop (scalar a) (scalarNode (scalarTerm (scalar a) n d (level + 1) true)) level c v
            (ld L (st k pre mid (ws ++ (es.text ++ E)))) =
          (.ok (v ++ es.pairs (k.consumed + pre.length + mid.length + ws.length) (envOf L k)),
            ld (L.put (es.eff (k.consumed + pre.length + mid.length + ws.length) (envOf L k))) (st k' p' m' E))
  | .nil, k, level, E, hwf, hw => by
    refine ⟨k, rfl, 1, fun a n d c ha hn hd hc L pre mid ws v hws hL hpc => ?_⟩
    obtain ⟨c, rfl⟩ : ∃ i, c = i + 1 := ⟨c - 1, by omega⟩
    refine ⟨pre ++ (mid ++ ws), [0x7D], by simp [FEnts.text], ?_⟩
    simp only [FEnts.text, List.cons_append, List.nil_append]
    rw [mapFlowLoop, bind_ok (inv_read hws (by rintro _ _ ⟨⟩; decide) ..), bind_ok (lift_of (forward_st ..)),
      bind_ok (isOk_ok (lift_of (sym_hit ..)))]
    simp [FEnts.pairs, FEnts.eff, show (envOf L k).anchors = L.cur from rfl, Loader.put_cur hL]
  | .last T y sp v W, k, level, E, hwf, hw => by
    rw [FEnts.wf] at hwf
    obtain ⟨hT, hv⟩ := hwf
    have hW := Flow.wf_ws hv
    have hstop : FlowStop (0x7D :: E) := ⟨_, _, rfl, by decide⟩
    have hw1 : 0 < k.want (level + 1) := Nat.lt_of_lt_of_le hw (Ctx.want_mono k level)
    obtain ⟨k1, hk1, N1, hN1⟩ := FEnts.key hT (k := k) (level := level + 1) hw1 (v.text ++ (W ++ (0x7D :: E)))
    have hk1' : k1.at level = k.at level := Ctx.at_of_at hk1 (by omega)
    have hw2 : 0 < k1.want (level + 2) :=
      Nat.lt_of_lt_of_le (by rw [Ctx.want_of_at hk1]; exact hw1) (Ctx.want_mono k1 (level + 1))
    obtain ⟨k2, u, w, hs, hk2, N2, hN2⟩ := Flow.read v W k1 (level + 2) true _ hv hw2 (fun _ => ⟨rfl, hstop⟩)
    have hww : AllWs w := by rw [hs] at hW; exact hW.of_append.2
    have hk2' : k2.at level = k.at level := (Ctx.at_of_at hk2 (by omega)).trans hk1'
    refine ⟨k2, hk2', N1 + N2 + 4, fun a n d c ha hn hd hc L pre mid ws m hws hL hpc => ?_⟩
    rw [FEnts.fine] at hpc
    have hee := envOf_at L hk1'
    obtain ⟨c, rfl⟩ : ∃ i, c = i + 1 := ⟨c - 1, by omega⟩
    have hhd : ∃ c r, v.text = c :: r ∧ tokHead c = true := by
      obtain ⟨c, r, h1, h2, _⟩ := Flow.head hv; exact ⟨c, r, h1, h2⟩
    have hpos : k1.consumed + (pre ++ (mid ++ ws) ++ T ++ ([0x3A] ++ sp)).length =
        k.consumed + pre.length + mid.length + ws.length + T.length + 1 + sp.length := by
      rw [Ctx.consumed_of_at hk1']
      simp only [List.length_append, List.length_singleton]
      omega
    have hpos0 : k.consumed + (pre ++ (mid ++ ws)).length = k.consumed + pre.length + mid.length + ws.length := by
      simp [Nat.add_assoc]
    have hkey := hN1 a n d (by omega) (by omega) L (pre ++ (mid ++ ws))
    have hread := flow_node hv hstop hs hN2 (n := a) (by omega) L (pre ++ (mid ++ ws) ++ T ++ ([0x3A] ++ sp)) hL
      (by rw [hee, hpos]; exact hpc)
    rw [hpos, hee] at hread
    rw [hpos0] at hkey
    generalize hp : k.consumed + pre.length + mid.length + ws.length = p at *
    refine ⟨pre ++ (mid ++ ws) ++ T ++ ([0x3A] ++ sp) ++ v.text ++ u, w ++ [0x7D], by simp [FEnts.text, hs], ?_⟩
    simp only [FEnts.text, FEnts.pairs, FEnts.eff, List.append_assoc, List.cons_append, List.nil_append]
    generalize hF : W ++ (0x7D :: E) = F at *
    generalize L.put (v.eff (p + T.length + 1 + sp.length) (envOf L k)) = L1 at hread ⊢
    simp only [List.append_assoc] at hkey
    rw [mapFlowLoop, bind_ok (inv_read hws (hT.1.notWs _) ..), bind_ok (lift_of (forward_st ..))]
    rw [bind_ok (isOk_err (lift_of (sym_no _ _ _ _ fun r => (noClose_append hT.1 hT.2.1 _ r).2)))]
    simp only [Bool.false_eq_true, if_false]
    rw [bind_ok (lift_of (forward_st ..)), List.append_nil]
    have hk : (do
        if ← isOk (lift complexMapping) then complexKey (scalar a) level false true "flow map key"
        else orErr (scalarNode (scalarTerm (scalar a) n d (level + 1) true)) "flow map key" : LM Node)
        (ld L (st k (pre ++ (mid ++ ws)) [] (T ++ 0x3A :: (sp ++ (v.text ++ F))))) =
        (.ok (.mk p [] y),
          ld L (st k1 (pre ++ (mid ++ ws) ++ T) [] (0x3A :: (sp ++ (v.text ++ F))))) := by
      rw [bind_ok (isOk_err (lift_of (complexMapping_no _ _ hT.1)))]
      simp only [Bool.false_eq_true, if_false]
      exact orErr_ok (by simpa using hkey)
    rw [bind_ok hk, bind_ok (isOk_ok (lift_of (sym_hit ..)))]
    simp only [if_true]
    rw [bind_ok (flowSep_read hT.2.2.1 hhd ..), bind_ok (lift_of (forward_st ..))]
    rw [bind_ok (orErr_ok (by simpa using hread))]
    obtain ⟨x, q, hx, hxne⟩ : ∃ x q, w ++ 0x7D :: E = x :: q ∧ x ≠ 0x2C := by
      cases w with
      | nil => exact ⟨_, _, rfl, by decide⟩
      | cons x w => exact ⟨x, _, rfl, by rintro rfl; have := hww 0x2C (by simp); revert this; decide⟩
    rw [hx, bind_ok (isOk_err (lift_of (sym_miss _ _ _ _ _ _ hxne))), ← hx]
    simp only [Bool.false_eq_true, if_false]
    rw [List.nil_append, bind_ok (inv_read hww (by rintro _ _ ⟨⟩; decide) ..), bind_ok (lift_of (sym_hit ..))]
    simp [Flow.node]
  | .cons T y sp v ws2 rest, k, level, E, hwf, hw => by
    rw [FEnts.wf] at hwf
    obtain ⟨hT, hv, hws2, hrest⟩ := hwf
    generalize hR : ws2 ++ (rest.text ++ E) = R
    have hstop : FlowStop (0x2C :: R) := ⟨_, _, rfl, by decide⟩
    have hw1 : 0 < k.want (level + 1) := Nat.lt_of_lt_of_le hw (Ctx.want_mono k level)
    obtain ⟨k1, hk1, N1, hN1⟩ := FEnts.key hT (k := k) (level := level + 1) hw1 (v.text ++ (0x2C :: R))
    have hk1' : k1.at level = k.at level := Ctx.at_of_at hk1 (by omega)
    have hw2 : 0 < k1.want (level + 2) :=
      Nat.lt_of_lt_of_le (by rw [Ctx.want_of_at hk1]; exact hw1) (Ctx.want_mono k1 (level + 1))
    obtain ⟨k2, u, w, hs, hk2, N2, hN2⟩ := Flow.read v [] k1 (level + 2) true _ hv hw2 (fun _ => ⟨rfl, hstop⟩)
    obtain ⟨rfl, rfl⟩ := List.append_eq_nil_iff.1 hs.symm
    have hk2' : k2.at level = k.at level := (Ctx.at_of_at hk2 (by omega)).trans hk1'
    obtain ⟨k', hk', N3, hN3⟩ := FEnts.read rest k2 level E hrest (by rw [Ctx.want_of_at hk2']; exact hw)
    refine ⟨k', hk'.trans hk2', N1 + N2 + N3 + 4, fun a n d c ha hn hd hc L pre mid ws m hws hL hpc => ?_⟩
    rw [FEnts.fine] at hpc
    have hee := envOf_at L hk1'
    obtain ⟨c, rfl⟩ : ∃ i, c = i + 1 := ⟨c - 1, by omega⟩
    have hhd : ∃ c r, v.text = c :: r ∧ tokHead c = true := by
      obtain ⟨c, r, h1, h2, _⟩ := Flow.head hv; exact ⟨c, r, h1, h2⟩
    have hpos : k1.consumed + (pre ++ (mid ++ ws) ++ T ++ ([0x3A] ++ sp)).length =
        k.consumed + pre.length + mid.length + ws.length + T.length + 1 + sp.length := by
      rw [Ctx.consumed_of_at hk1']
      simp only [List.length_append, List.length_singleton]
      omega
    have hpos0 : k.consumed + (pre ++ (mid ++ ws)).length = k.consumed + pre.length + mid.length + ws.length := by
      simp [Nat.add_assoc]
    have hkey := hN1 a n d (by omega) (by omega) L (pre ++ (mid ++ ws))
    have hread := flow_node hv hstop rfl hN2 (n := a) (by omega) L (pre ++ (mid ++ ws) ++ T ++ ([0x3A] ++ sp)) hL
      (by rw [hee, hpos]; exact hpc.1)
    simp only [List.nil_append, List.append_nil] at hread
    rw [hpos, hee] at hread
    rw [hpos0] at hkey
    generalize hp : k.consumed + pre.length + mid.length + ws.length = p at *
    generalize hA : v.eff (p + T.length + 1 + sp.length) (envOf L k) = A at *
    have hee2 : envOf (L.put A) k2 = { envOf L k with anchors := A } := envOf_put hL (Ctx.tag_of_at hk2') _
    have hp2 : k2.consumed + (pre ++ (mid ++ ws) ++ T ++ ([0x3A] ++ sp) ++ v.text).length + ([0x2C] : Bytes).length + ws2.length =
        p + T.length + 1 + sp.length + v.text.length + 1 + ws2.length := by
      rw [Ctx.consumed_of_at hk2']
      simp only [List.length_append, List.length_singleton]
      omega
    obtain ⟨p', m', hpm, hl⟩ := hN3 a n d c (by omega) (by omega) (by omega) (by omega) (L.put A)
      (pre ++ (mid ++ ws) ++ T ++ ([0x3A] ++ sp) ++ v.text) [0x2C] ws2
      (m ++ [(.mk p [] y, v.node (p + T.length + 1 + sp.length) (envOf L k))]) hws2 (hL.put _)
      (by rw [hee2, hp2]; exact hpc.2)
    rw [hee2, hp2, Loader.put_put] at hl
    refine ⟨p', m', by rw [hpm]; simp [FEnts.text], ?_⟩
    simp only [FEnts.text, FEnts.pairs, FEnts.eff, hA, List.append_assoc, List.cons_append]
    rw [hR] at hl ⊢
    simp only [List.append_assoc] at hkey
    rw [mapFlowLoop, bind_ok (inv_read hws (hT.1.notWs _) ..), bind_ok (lift_of (forward_st ..))]
    rw [bind_ok (isOk_err (lift_of (sym_no _ _ _ _ fun r => (noClose_append hT.1 hT.2.1 _ r).2)))]
    simp only [Bool.false_eq_true, if_false]
    rw [bind_ok (lift_of (forward_st ..)), List.append_nil]
    have hk : (do
        if ← isOk (lift complexMapping) then complexKey (scalar a) level false true "flow map key"
        else orErr (scalarNode (scalarTerm (scalar a) n d (level + 1) true)) "flow map key" : LM Node)
        (ld L (st k (pre ++ (mid ++ ws)) [] (T ++ 0x3A :: (sp ++ (v.text ++ 0x2C :: R))))) =
        (.ok (.mk p [] y),
          ld L (st k1 (pre ++ (mid ++ ws) ++ T) [] (0x3A :: (sp ++ (v.text ++ 0x2C :: R))))) := by
      rw [bind_ok (isOk_err (lift_of (complexMapping_no _ _ hT.1)))]
      simp only [Bool.false_eq_true, if_false]
      exact orErr_ok (by simpa using hkey)
    rw [bind_ok hk, bind_ok (isOk_ok (lift_of (sym_hit ..)))]
    simp only [if_true]
    rw [bind_ok (flowSep_read hT.2.2.1 hhd ..), bind_ok (lift_of (forward_st ..))]
    rw [bind_ok (orErr_ok (by simpa using hread))]
    rw [bind_ok (isOk_ok (lift_of (sym_hit ..)))]
    simp only [if_true, List.nil_append]
    simp only [List.append_assoc, List.cons_append, List.nil_append] at hl
    rw [hl]
    simp [Flow.node]
end

end YamlPeg
