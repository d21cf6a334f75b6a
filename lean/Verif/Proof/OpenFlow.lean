import Verif.Proof.ScalarText
import Verif.Proof.Layout
/-!
# Flow collections that are not closed

They are read as null; the parser goes on behind their last item.
-/

namespace YamlPeg
open M

/-- What follows a flow collection that is not closed: neither a colon nor, behind white space, a `,`, `]` or `}`. -/
def OpenRest (E : Bytes) : Prop :=
  (∀ r, E ≠ 0x3A :: r) ∧ ∀ r, E.dropWhile isAsciiWs ≠ 0x2C :: r ∧ E.dropWhile isAsciiWs ≠ 0x5D :: r ∧
    E.dropWhile isAsciiWs ≠ 0x7D :: r

/-- The last part of a flow collection that is not closed. -/
def OpenLast (P : Bytes → Prop) (T : Bytes) : Prop :=
  LeafText T ∧ (∀ r, T ≠ 0x5D :: r ∧ T ≠ 0x7D :: r) ∧
  ∀ (k : Ctx) (level : Nat) (E : Bytes), 0 < k.want level → LeafEnd (.only P) k level E →
    ∃ k', k'.at level = k.at level ∧ ∃ N, ∀ a n d, N ≤ a → N ≤ n → N ≤ d → ∀ L pre, L.Ready →
      ∃ y p' m', p' ++ m' = pre ++ T ∧
        scalarTerm (scalar a) n d level true (ld L (st k pre [] (T ++ E))) = (.ok y, ld L (st k' p' m' E))

/-! ## Ends -/

theorem isPrefixOf_spaces_mono {a b : Nat} (h : a ≤ b) {left : Bytes} (hl : (spaces a).isPrefixOf left = false) :
    (spaces b).isPrefixOf left = false := by
  cases hb : (spaces b).isPrefixOf left with
  | false => rfl
  | true =>
    obtain ⟨r, hr⟩ := List.isPrefixOf_iff_prefix.1 hb
    have : (spaces a).isPrefixOf left = true := by
      refine List.isPrefixOf_iff_prefix.2 ⟨spaces (b - a) ++ r, ?_⟩
      rw [← hr, ← List.append_assoc, spaces, spaces, spaces, List.replicate_append_replicate]
      congr 2; omega
    rw [this] at hl; simp at hl

theorem LeafEnd.mono {κ : EndKind} {k k' : Ctx} {level level' : Nat} {E : Bytes} (h : LeafEnd κ k level E)
    (hw : k.want level ≤ k'.want level') : LeafEnd κ k' level' E := by
  rcases h with h | ⟨h1, h2, t, taken, left, h3, h4, h5⟩ | h | h
  · exact .inl h
  · exact .inr (.inl ⟨h1, h2, t, taken, left, h3, by omega, isPrefixOf_spaces_mono hw h5⟩)
  · exact .inr (.inr (.inl h))
  · exact .inr (.inr (.inr h))

theorem LeafEnd.onlyP {P : Bytes → Prop} {k : Ctx} {level : Nat} {E : Bytes} (h : LeafEnd (.only P) k level E) : P E := by
  rcases h with ⟨h, _⟩ | ⟨h, _⟩ | ⟨h, _⟩ | ⟨Q, h, h', _⟩
  · exact absurd rfl (h _)
  · exact h _ rfl
  · simp at h
  · cases h; exact h'

theorem want_le_two (k : Ctx) (level : Nat) : k.want level ≤ k.want (level + 2) :=
  Nat.le_trans (Ctx.want_mono k level) (Ctx.want_mono k (level + 1))

/-- White space and something that is not the byte. -/
theorem inv_sym_no {c : UInt8} {E : Bytes} (hE : ∀ r, E.dropWhile isAsciiWs ≠ c :: r) (k : Ctx) (L : Loader) (pre : Bytes) :
    ∃ l, lift (inv (.more 0)) (ld L (st k pre [] E)) = (.ok (), l) ∧ lift (sym c) l = (.err .mismatch, ld L (st k pre [] E)) := by
  refine ⟨_, lift_of (inv_st ..), ?_⟩
  have hsplit : E.takeWhile isAsciiWs ++ E.dropWhile isAsciiWs = E := List.takeWhile_append_dropWhile
  cases hd : E.dropWhile isAsciiWs with
  | nil =>
    rw [hd, List.append_nil] at hsplit
    rw [hsplit, lift_of (sym_nil ..)]
    simp
  | cons x r =>
    rw [hd] at hsplit
    rw [lift_of (sym_miss _ _ _ _ _ _ (by rintro rfl; exact hE r hd)), List.nil_append, hsplit]

theorem LeafText.first {T : Bytes} (h : LeafText T) : ∃ c r, T = c :: r ∧ tokHead c = true := by
  obtain ⟨c, r, h1, h2, _⟩ := h; exact ⟨c, r, h1, h2⟩

/-- `flow_node` for a node without anchors and aliases. -/
theorem flow_node_still {f : Flow} {W : Bytes} (hf : f.wf W) (hst : f.known.still) {k k' : Ctx} {level : Nat} {u w E : Bytes}
    (hE : FlowStop E) (hs : W = u ++ w)
    {N : Nat} (hN : ∀ a n d, N ≤ a → N ≤ n → N ≤ d → ∀ L pre, L.Ready → f.core.fine (k.consumed + pre.length) (envOf L k) →
      ∃ p' m', p' ++ m' = pre ++ f.core.text ++ u ∧
        scalarTerm (scalar a) n d (level + 2) true (ld L (st k pre [] (f.core.text ++ (W ++ E)))) =
          (.ok (f.core.data (k.consumed + pre.length) (envOf L k)),
            ld (L.put (f.core.eff (k.consumed + pre.length) (envOf L k))) (st k' p' m' (w ++ E))))
    {n : Nat} (hn : N + 3 ≤ n) (L : Loader) (pre : Bytes) (hL : L.Ready) :
    scalar n (level + 1) false true (ld L (st k pre [] (f.text ++ (W ++ E)))) =
      (.ok (f.node (k.consumed + pre.length) (envOf L k)),
        ld L (st k' (pre ++ f.text ++ u) [] (w ++ E))) := by
  have := flow_node hf hE hs hN hn L pre hL (hst.1 _ _)
  rwa [show f.eff (k.consumed + pre.length) (envOf L k) = L.cur from hst.2 _ _, Loader.put_cur hL] at this

/-! ## Sequences -/

/-- An item with its comma, and the white space in front of the comma and behind it. -/
structure FItem where
  f : Flow
  W : Bytes
  ws : Bytes

def FItem.text (x : FItem) : Bytes := x.f.text ++ (x.W ++ (0x2C :: x.ws))

def fitemsText (xs : List FItem) : Bytes := xs.flatMap FItem.text

theorem open_items {P : Bytes → Prop} (hP : ∀ E, P E → OpenRest E) {T : Bytes} (hT : OpenLast P T) :
    ∀ (xs : List FItem) (k : Ctx) (level : Nat) (E : Bytes), (∀ x ∈ xs, x.f.wf x.W ∧ x.f.known.still ∧ AllWs x.ws) → 0 < k.want level →
    LeafEnd (.only P) k level E →
    ∃ k', k'.at level = k.at level ∧ ∃ N, ∀ a c, N ≤ a → N ≤ c → ∀ L pre mid ws v, AllWs ws → L.Ready →
      seqFlowLoop (scalar a) level c v (ld L (st k pre mid (ws ++ (fitemsText xs ++ (T ++ E))))) =
        (.err .mismatch, ld L (st k' (pre ++ mid ++ ws ++ (fitemsText xs ++ T)) [] E))
  | [], k, level, E, _, hw, hE => by
    have hO := hP E hE.onlyP
    obtain ⟨k', hk', N, hN⟩ := hT.2.2 k (level + 2) E (Nat.lt_of_lt_of_le hw (want_le_two ..)) (hE.mono (want_le_two ..))
    refine ⟨k', Ctx.at_of_at hk' (by omega), N + 4, fun a c ha hc L pre mid ws v hws hL => ?_⟩
    obtain ⟨c, rfl⟩ : ∃ i, c = i + 1 := ⟨c - 1, by omega⟩
    obtain ⟨a, rfl⟩ : ∃ i, a = i + 2 := ⟨a - 2, by omega⟩
    obtain ⟨y, p', m', hpm, he⟩ := hN (a + 1) (a + 1) (a + 1) (by omega) (by omega) (by omega) L (pre ++ (mid ++ ws)) hL
    have hread := flow_node_of hT.1 hO.1 he
    simp only [fitemsText, List.flatMap_nil, List.nil_append]
    rw [seqFlowLoop, bind_ok (inv_read hws (hT.1.notWs _) ..), bind_ok (lift_of (forward_st ..))]
    rw [bind_ok (isOk_err (lift_of (sym_no _ _ _ _ fun r => (noClose_append hT.1 hT.2.1 _ r).1)))]
    simp only [Bool.false_eq_true, if_false]
    rw [bind_ok (lift_of (forward_st ..)), List.append_nil, bind_ok (orErr_ok hread), hpm]
    obtain ⟨l, h1, h2⟩ := inv_sym_no (c := 0x2C) (fun r => (hO.2 r).1) k' L (pre ++ (mid ++ ws) ++ T)
    obtain ⟨l', h1', h2'⟩ := inv_sym_no (c := 0x5D) (fun r => (hO.2 r).2.1) k' L (pre ++ (mid ++ ws) ++ T)
    rw [bind_ok h1, bind_ok (isOk_err h2)]
    simp only [Bool.false_eq_true, if_false]
    rw [bind_ok h1', bind_err h2']
    simp
  | x :: xs, k, level, E, hx, hw, hE => by
    obtain ⟨hwf, hst, hws2⟩ := hx x (by simp)
    have hW := Flow.wf_ws hwf
    have hw2 : 0 < k.want (level + 2) := Nat.lt_of_lt_of_le hw (want_le_two ..)
    have hstop : FlowStop (0x2C :: (x.ws ++ (fitemsText xs ++ (T ++ E)))) := ⟨_, _, rfl, by decide⟩
    obtain ⟨k1, u, w, hs, hk1, N, hN⟩ := Flow.read x.f x.W k (level + 2) true _ hwf hw2 (fun _ => ⟨rfl, hstop⟩)
    have hww : AllWs w := by rw [hs] at hW; exact hW.of_append.2
    have hk1' : k1.at level = k.at level := Ctx.at_of_at hk1 (by omega)
    obtain ⟨k', hk', N2, hN2⟩ := open_items hP hT xs k1 level E (fun y hy => hx y (by simp [hy]))
      (by rw [Ctx.want_of_at hk1']; exact hw) (hE.mono (by rw [Ctx.want_of_at hk1']; exact Nat.le_refl _))
    refine ⟨k', hk'.trans hk1', N + N2 + 4, fun a c ha hc L pre mid ws v hws hL => ?_⟩
    obtain ⟨c, rfl⟩ : ∃ i, c = i + 1 := ⟨c - 1, by omega⟩
    have hread := flow_node_still hwf hst hstop hs hN (n := a) (by omega) L (pre ++ (mid ++ ws)) hL
    have hl := hN2 a c (by omega) (by omega) L (pre ++ (mid ++ ws) ++ x.f.text ++ u) (w ++ [0x2C]) x.ws
      (v ++ [x.f.node (k.consumed + (pre ++ (mid ++ ws)).length) (envOf L k)])
      hws2 hL
    have htx : fitemsText (x :: xs) = x.f.text ++ (x.W ++ (0x2C :: (x.ws ++ fitemsText xs))) := by
      simp [fitemsText, FItem.text]
    rw [htx]
    simp only [List.append_assoc, List.cons_append]
    rw [seqFlowLoop, bind_ok (inv_read hws (Flow.notWs hwf _) ..), bind_ok (lift_of (forward_st ..))]
    rw [bind_ok (isOk_err (lift_of (sym_no _ _ _ _ fun r => (Flow.noClose hwf _ r).1)))]
    simp only [Bool.false_eq_true, if_false]
    rw [bind_ok (lift_of (forward_st ..)), List.append_nil, bind_ok (orErr_ok hread)]
    have hinv := inv_read hww (post := 0x2C :: (x.ws ++ (fitemsText xs ++ (T ++ E)))) (by rintro _ _ ⟨⟩; decide) k1 L
      (pre ++ (mid ++ ws) ++ x.f.text ++ u) []
    rw [bind_ok hinv, List.nil_append, bind_ok (isOk_ok (lift_of (sym_hit ..)))]
    simp only [if_true]
    rw [hl, hs]
    simp

/-- A flow sequence that is not closed is null. -/
theorem open_seq {P : Bytes → Prop} (hP : ∀ E, P E → OpenRest E) {T : Bytes} (hT : OpenLast P T)
    {xs : List FItem} {ws : Bytes} (hws : AllWs ws) (hx : ∀ x ∈ xs, x.f.wf x.W ∧ x.f.known.still ∧ AllWs x.ws) {k : Ctx} {level : Nat} {E : Bytes}
    (hw : 0 < k.want level) (hE : LeafEnd (.only P) k level E) :
    ∃ k', k'.at level = k.at level ∧ ∃ N, ∀ a n d flow, N ≤ a → N ≤ n → N ≤ d → ∀ L pre, L.Ready →
      scalarTerm (scalar a) n d level flow (ld L (st k pre [] (0x5B :: (ws ++ (fitemsText xs ++ T)) ++ E))) =
        (.ok .null, ld L (st k' (pre ++ 0x5B :: (ws ++ (fitemsText xs ++ T))) [] E)) := by
  have hO := hP E hE.onlyP
  obtain ⟨k', hk', N, hN⟩ := open_items hP hT xs (k.at level) level E hx (by simpa using hw)
    (hE.mono (by simp))
  refine ⟨k', by simpa using hk', N + 1, fun a n d flow ha hn hd L pre hL => ?_⟩
  obtain ⟨d, rfl⟩ : ∃ i, d = i + 1 := ⟨d - 1, by omega⟩
  have hl := hN a n (by omega) (by omega) L pre [0x5B] ws [] hws hL
  have hbrace : ∀ r, E ≠ 0x7B :: r := by
    rintro r rfl
    have := hE.head _ _ rfl
    simp at this
  simp only [List.cons_append, List.append_assoc]
  rw [scalarTerm, scalarTermWith, bind_ok (scalarAtom_bracket (.inl rfl) hw flow L pre _ (by omega))]
  simp only
  rw [orElse_mismatch (s' := ld L (st k' (pre ++ 0x5B :: (ws ++ (fitemsText xs ++ T))) [] E))]
  · rfl
  rw [orElse_mismatch (s' := ld L (st k' (pre ++ 0x5B :: (ws ++ (fitemsText xs ++ T))) [] E))]
  · rw [bind_err (lift_of (sym_no _ _ _ _ hbrace))]
  · rw [seqFlow, bind_ok (lift_of (sym_hit ..))]
    rw [show ([] : Bytes) ++ [0x5B] = [0x5B] from rfl, bind_err hl]
    simp

/-! ## Maps -/

/-- An entry with its comma and the white space behind it. -/
structure FEntry where
  T : Bytes
  y : Yaml
  sp : Bytes
  v : Flow
  ws : Bytes

def FEntry.text (x : FEntry) : Bytes := x.T ++ (0x3A :: (x.sp ++ (x.v.text ++ (0x2C :: x.ws))))

def fentriesText (xs : List FEntry) : Bytes := xs.flatMap FEntry.text

/-- The key of an entry, and what is in front of the value. -/
theorem flowKey_read {T : Bytes} {y : Yaml} {sp : Bytes} (hT : FKeyOK T y sp) {k : Ctx} {level : Nat}
    (hw : 0 < k.want (level + 1)) (R : Bytes) :
    ∃ k1, k1.at (level + 1) = k.at (level + 1) ∧ ∃ N, ∀ a n d, N ≤ n → N ≤ d → ∀ L pre,
      (do
        if ← isOk (lift complexMapping) then complexKey (scalar a) level false true "flow map key"
        else orErr (scalarNode (scalarTerm (scalar a) n d (level + 1) true)) "flow map key" : LM Node)
        (ld L (st k pre [] (T ++ 0x3A :: (sp ++ R)))) =
        (.ok (.mk (k.consumed + pre.length) [] y), ld L (st k1 (pre ++ T) [] (0x3A :: (sp ++ R)))) := by
  obtain ⟨k1, hk1, N1, hN1⟩ := FEnts.key hT (k := k) (level := level + 1) hw R
  refine ⟨k1, hk1, N1, fun a n d hn hd L pre => ?_⟩
  rw [bind_ok (isOk_err (lift_of (complexMapping_no _ _ hT.1)))]
  simp only [Bool.false_eq_true, if_false]
  exact orErr_ok (hN1 a n d hn hd L pre)

theorem open_entries {P : Bytes → Prop} (hP : ∀ E, P E → OpenRest E) {K : Bytes} {ky : Yaml} {ksp : Bytes} (hK : FKeyOK K ky ksp)
    {T : Bytes} (hT : OpenLast P T) :
    ∀ (xs : List FEntry) (k : Ctx) (level : Nat) (E : Bytes), (∀ x ∈ xs, FKeyOK x.T x.y x.sp ∧ x.v.wf [] ∧ x.v.known.still ∧ AllWs x.ws) →
    0 < k.want level → LeafEnd (.only P) k level E →
    ∃ k', k'.at level = k.at level ∧ ∃ N, ∀ a n d c, N ≤ a → N ≤ n → N ≤ d → N ≤ c → ∀ L pre mid ws v, AllWs ws → L.Ready →
      mapFlowLoop (scalar a) (scalarNode (scalarTerm (scalar a) n d (level + 1) true)) level c v
          (ld L (st k pre mid (ws ++ (fentriesText xs ++ (K ++ (0x3A :: (ksp ++ (T ++ E)))))))) =
        (.err .mismatch, ld L (st k' (pre ++ mid ++ ws ++ (fentriesText xs ++ (K ++ (0x3A :: (ksp ++ T))))) [] E))
  | [], k, level, E, _, hw, hE => by
    have hO := hP E hE.onlyP
    have hw1 : 0 < k.want (level + 1) := Nat.lt_of_lt_of_le hw (Ctx.want_mono k level)
    obtain ⟨k1, hk1, N1, hN1⟩ := flowKey_read hK (k := k) (level := level) hw1 (T ++ E)
    have hk1' : k1.at level = k.at level := Ctx.at_of_at hk1 (by omega)
    have hle : k.want level ≤ k1.want (level + 2) := by
      rw [← Ctx.want_of_at hk1']; exact want_le_two ..
    obtain ⟨k', hk', N, hN⟩ := hT.2.2 k1 (level + 2) E (Nat.lt_of_lt_of_le hw hle) (hE.mono hle)
    refine ⟨k', (Ctx.at_of_at hk' (by omega)).trans hk1', N + N1 + 4, fun a n d c ha hn hd hc L pre mid ws v hws hL => ?_⟩
    obtain ⟨c, rfl⟩ : ∃ i, c = i + 1 := ⟨c - 1, by omega⟩
    obtain ⟨b, rfl⟩ : ∃ i, a = i + 2 := ⟨a - 2, by omega⟩
    obtain ⟨y, p', m', hpm, he⟩ := hN (b + 1) (b + 1) (b + 1) (by omega) (by omega) (by omega) L
      (pre ++ (mid ++ ws) ++ K ++ ([0x3A] ++ ksp)) hL
    have hread := flow_node_of hT.1 hO.1 he
    simp only [fentriesText, List.flatMap_nil, List.nil_append]
    rw [mapFlowLoop, bind_ok (inv_read hws (hK.1.notWs _) ..), bind_ok (lift_of (forward_st ..))]
    rw [bind_ok (isOk_err (lift_of (sym_no _ _ _ _ fun r => (noClose_append hK.1 hK.2.1 _ r).2)))]
    simp only [Bool.false_eq_true, if_false]
    rw [bind_ok (lift_of (forward_st ..)), List.append_nil, bind_ok (hN1 (b + 2) n d (by omega) (by omega) L _),
      bind_ok (isOk_ok (lift_of (sym_hit ..)))]
    simp only [if_true]
    rw [bind_ok (flowSep_read hK.2.2.1 hT.1.first ..), bind_ok (lift_of (forward_st ..))]
    rw [List.nil_append, bind_ok (orErr_ok hread), hpm]
    obtain ⟨l', h1', h2'⟩ := inv_sym_no (c := 0x7D) (fun r => (hO.2 r).2.2) k' L (pre ++ (mid ++ ws) ++ K ++ ([0x3A] ++ ksp) ++ T)
    have hcomma : ∀ r, E ≠ 0x2C :: r := by
      rintro r rfl
      have := hE.head _ _ rfl
      simp at this
    rw [bind_ok (isOk_err (lift_of (sym_no _ _ _ _ hcomma)))]
    simp only [Bool.false_eq_true, if_false]
    rw [bind_ok h1', bind_err h2']
    simp
  | x :: xs, k, level, E, hx, hw, hE => by
    obtain ⟨hxT, hv, hst, hws2⟩ := hx x (by simp)
    generalize hR : x.ws ++ (fentriesText xs ++ (K ++ (0x3A :: (ksp ++ (T ++ E))))) = R
    have hstop : FlowStop (0x2C :: R) := ⟨_, _, rfl, by decide⟩
    have hw1 : 0 < k.want (level + 1) := Nat.lt_of_lt_of_le hw (Ctx.want_mono k level)
    obtain ⟨k1, hk1, N1, hN1⟩ := flowKey_read hxT (k := k) (level := level) hw1 (x.v.text ++ (0x2C :: R))
    have hk1' : k1.at level = k.at level := Ctx.at_of_at hk1 (by omega)
    have hw2 : 0 < k1.want (level + 2) :=
      Nat.lt_of_lt_of_le (by rw [Ctx.want_of_at hk1]; exact hw1) (Ctx.want_mono k1 (level + 1))
    obtain ⟨k2, u, w, hs, hk2, N2, hN2⟩ := Flow.read x.v [] k1 (level + 2) true _ hv hw2 (fun _ => ⟨rfl, hstop⟩)
    obtain ⟨rfl, rfl⟩ := List.append_eq_nil_iff.1 hs.symm
    have hk2' : k2.at level = k.at level := (Ctx.at_of_at hk2 (by omega)).trans hk1'
    obtain ⟨k', hk', N3, hN3⟩ := open_entries hP hK hT xs k2 level E (fun y hy => hx y (by simp [hy]))
      (by rw [Ctx.want_of_at hk2']; exact hw) (hE.mono (by rw [Ctx.want_of_at hk2']; exact Nat.le_refl _))
    refine ⟨k', hk'.trans hk2', N1 + N2 + N3 + 4, fun a n d c ha hn hd hc L pre mid ws m hws hL => ?_⟩
    obtain ⟨c, rfl⟩ : ∃ i, c = i + 1 := ⟨c - 1, by omega⟩
    have hread := flow_node_still hv hst hstop rfl hN2 (n := a) (by omega) L (pre ++ (mid ++ ws) ++ x.T ++ ([0x3A] ++ x.sp)) hL
    simp only [List.nil_append, List.append_nil] at hread
    have hl := fun v => hN3 a n d c (by omega) (by omega) (by omega) (by omega) L
      (pre ++ (mid ++ ws) ++ x.T ++ ([0x3A] ++ x.sp) ++ x.v.text) [0x2C] x.ws v hws2 hL
    have htx : fentriesText (x :: xs) = x.T ++ (0x3A :: (x.sp ++ (x.v.text ++ (0x2C :: (x.ws ++ fentriesText xs))))) := by
      simp [fentriesText, FEntry.text]
    rw [htx]
    simp only [List.append_assoc, List.cons_append]
    rw [hR] at hl ⊢
    rw [mapFlowLoop, bind_ok (inv_read hws (hxT.1.notWs _) ..), bind_ok (lift_of (forward_st ..))]
    rw [bind_ok (isOk_err (lift_of (sym_no _ _ _ _ fun r => (noClose_append hxT.1 hxT.2.1 _ r).2)))]
    simp only [Bool.false_eq_true, if_false]
    rw [bind_ok (lift_of (forward_st ..)), List.append_nil, bind_ok (hN1 a n d (by omega) (by omega) L _),
      bind_ok (isOk_ok (lift_of (sym_hit ..)))]
    simp only [if_true]
    rw [bind_ok (flowSep_read hxT.2.2.1 (by obtain ⟨c, r, h1, h2, _⟩ := Flow.head hv; exact ⟨c, r, h1, h2⟩) ..), bind_ok (lift_of (forward_st ..)), List.nil_append]
    rw [bind_ok (orErr_ok hread)]
    rw [bind_ok (isOk_ok (lift_of (sym_hit ..)))]
    simp only [if_true, List.nil_append]
    rw [hl]
    simp

/-- A flow map that is not closed behind a value is null. -/
theorem open_map {P : Bytes → Prop} (hP : ∀ E, P E → OpenRest E) {K : Bytes} {ky : Yaml} {ksp : Bytes} (hK : FKeyOK K ky ksp)
    {T : Bytes} (hT : OpenLast P T)
    {xs : List FEntry} {ws : Bytes} (hws : AllWs ws) (hx : ∀ x ∈ xs, FKeyOK x.T x.y x.sp ∧ x.v.wf [] ∧ x.v.known.still ∧ AllWs x.ws)
    {k : Ctx} {level : Nat} {E : Bytes} (hw : 0 < k.want level) (hE : LeafEnd (.only P) k level E) :
    ∃ k', k'.at level = k.at level ∧ ∃ N, ∀ a n d flow, N ≤ a → N ≤ n → N ≤ d → ∀ L pre, L.Ready →
      scalarTerm (scalar a) n d level flow (ld L (st k pre []
          (0x7B :: (ws ++ (fentriesText xs ++ (K ++ (0x3A :: (ksp ++ T))))) ++ E))) =
        (.ok .null, ld L (st k' (pre ++ 0x7B :: (ws ++ (fentriesText xs ++ (K ++ (0x3A :: (ksp ++ T)))))) [] E)) := by
  obtain ⟨k', hk', N, hN⟩ := open_entries hP hK hT xs (k.at level) level E hx (by simpa using hw)
    (hE.mono (by simp))
  refine ⟨k', by simpa using hk', N + 1, fun a n d flow ha hn hd L pre hL => ?_⟩
  obtain ⟨d, rfl⟩ : ∃ i, d = i + 1 := ⟨d - 1, by omega⟩
  have hl := hN a n d n (by omega) (by omega) (by omega) (by omega) L pre [0x7B] ws [] hws hL
  simp only [List.cons_append, List.append_assoc]
  rw [scalarTerm, scalarTermWith, bind_ok (scalarAtom_bracket (.inr rfl) hw flow L pre _ (by omega))]
  simp only
  rw [orElse_mismatch (s' := ld L (st k' (pre ++ 0x7B :: (ws ++ (fentriesText xs ++ (K ++ (0x3A :: (ksp ++ T)))))) [] E))]
  · rfl
  rw [orElse_mismatch (s' := ld L (st (k.at level) pre [] (0x7B :: (ws ++ (fentriesText xs ++ (K ++ (0x3A :: (ksp ++ (T ++ E)))))))))]
  · rw [bind_ok (lift_of (sym_hit ..))]
    rw [show ([] : Bytes) ++ [0x7B] = [0x7B] from rfl, bind_err hl]
    simp
  · rw [seqFlow, bind_err (lift_of (sym_miss _ _ _ _ _ _ (by decide)))]
    simp

/-! ## The last part -/

theorem openText_seq {ws : Bytes} (r : Bytes) : LeafText (0x5B :: (ws ++ r)) ∧ ∀ q, 0x5B :: (ws ++ r) ≠ 0x5D :: q ∧ 0x5B :: (ws ++ r) ≠ 0x7D :: q :=
  ⟨⟨0x5B, _, rfl, by decide, by decide, by simp⟩, by simp⟩

theorem openText_map {ws : Bytes} (r : Bytes) : LeafText (0x7B :: (ws ++ r)) ∧ ∀ q, 0x7B :: (ws ++ r) ≠ 0x5D :: q ∧ 0x7B :: (ws ++ r) ≠ 0x7D :: q :=
  ⟨⟨0x7B, _, rfl, by decide, by decide, by simp⟩, by simp⟩

/-- A sequence that is not closed, as the last part of another collection. -/
theorem openLast_seq {P : Bytes → Prop} (hP : ∀ E, P E → OpenRest E) {T : Bytes} (hT : OpenLast P T)
    {xs : List FItem} {ws : Bytes} (hws : AllWs ws) (hx : ∀ x ∈ xs, x.f.wf x.W ∧ x.f.known.still ∧ AllWs x.ws) :
    OpenLast P (0x5B :: (ws ++ (fitemsText xs ++ T))) := by
  refine ⟨(openText_seq _).1, (openText_seq _).2, fun k level E hw hE => ?_⟩
  obtain ⟨k', hk', N, hN⟩ := open_seq hP hT hws hx hw hE
  exact ⟨k', hk', N, fun a n d ha hn hd L pre hL => ⟨_, _, [], by simp, hN a n d true ha hn hd L pre hL⟩⟩

theorem openLast_map {P : Bytes → Prop} (hP : ∀ E, P E → OpenRest E) {K : Bytes} {ky : Yaml} {ksp : Bytes} (hK : FKeyOK K ky ksp)
    {T : Bytes} (hT : OpenLast P T)
    {xs : List FEntry} {ws : Bytes} (hws : AllWs ws) (hx : ∀ x ∈ xs, FKeyOK x.T x.y x.sp ∧ x.v.wf [] ∧ x.v.known.still ∧ AllWs x.ws) :
    OpenLast P (0x7B :: (ws ++ (fentriesText xs ++ (K ++ (0x3A :: (ksp ++ T)))))) := by
  refine ⟨(openText_map _).1, (openText_map _).2, fun k level E hw hE => ?_⟩
  obtain ⟨k', hk', N, hN⟩ := open_map hP hK hT hws hx hw hE
  exact ⟨k', hk', N, fun a n d ha hn hd L pre hL => ⟨_, _, [], by simp, hN a n d true ha hn hd L pre hL⟩⟩

/-- A sequence that is not closed, as a leaf. -/
theorem openLeaf_seq {P : Bytes → Prop} (hP : ∀ E, P E → OpenRest E) {T : Bytes} (hT : OpenLast P T)
    {xs : List FItem} {ws : Bytes} (hws : AllWs ws) (hx : ∀ x ∈ xs, x.f.wf x.W ∧ x.f.known.still ∧ AllWs x.ws) :
    LeafOKE (.only P) (0x5B :: (ws ++ (fitemsText xs ++ T))) (fun _ _ => .null) .none := by
  refine ⟨fun k level E hw _ hE => ?_, (openText_seq _).1⟩
  obtain ⟨k', hk', N, hN⟩ := open_seq hP hT hws hx hw hE
  exact ⟨k', hk', N, fun a n d ha hn hd L pre hL _ => ⟨pre ++ (0x5B :: (ws ++ (fitemsText xs ++ T))), [], by simp, by
    rw [show ∀ p e, Known.none.eff p e = e.anchors from fun _ _ => rfl, show (envOf L k).anchors = L.cur from rfl, Loader.put_cur hL]
    exact hN a n d false ha hn hd L pre hL⟩⟩

theorem openLeaf_map {P : Bytes → Prop} (hP : ∀ E, P E → OpenRest E) {K : Bytes} {ky : Yaml} {ksp : Bytes} (hK : FKeyOK K ky ksp)
    {T : Bytes} (hT : OpenLast P T)
    {xs : List FEntry} {ws : Bytes} (hws : AllWs ws) (hx : ∀ x ∈ xs, FKeyOK x.T x.y x.sp ∧ x.v.wf [] ∧ x.v.known.still ∧ AllWs x.ws) :
    LeafOKE (.only P) (0x7B :: (ws ++ (fentriesText xs ++ (K ++ (0x3A :: (ksp ++ T)))))) (fun _ _ => .null) .none := by
  refine ⟨fun k level E hw _ hE => ?_, (openText_map _).1⟩
  obtain ⟨k', hk', N, hN⟩ := open_map hP hK hT hws hx hw hE
  exact ⟨k', hk', N, fun a n d ha hn hd L pre hL _ => ⟨pre ++ (0x7B :: (ws ++ (fentriesText xs ++ (K ++ (0x3A :: (ksp ++ T)))))), [], by simp, by
    rw [show ∀ p e, Known.none.eff p e = e.anchors from fun _ _ => rfl, show (envOf L k).anchors = L.cur from rfl, Loader.put_cur hL]
    exact hN a n d false ha hn hd L pre hL⟩⟩

/-- A closed collection as the last part. -/
theorem openLast_flow {P : Bytes → Prop} {f : Flow} (hf : f.wf []) (hst : f.known.still) (ha : f.isAtom = false) :
    OpenLast P f.text := by
  have hc := Flow.noClose hf []
  simp only [List.append_nil] at hc
  have hco := Flow.core_of_coll ha
  have h1 := Flow.first hf
  rw [hco] at h1
  refine ⟨h1, hc, fun k level E hw hE => ?_⟩
  obtain ⟨k', u, w, hs, hk', N, hN⟩ := Flow.read f [] k level true E hf hw (by simp [hco, ha])
  obtain ⟨rfl, rfl⟩ := List.append_eq_nil_iff.1 hs.symm
  refine ⟨k', hk', N, fun a n d ha hn hd L pre hL => ?_⟩
  rw [hco] at hN
  obtain ⟨p', m', h1, h2⟩ := hN a n d ha hn hd L pre hL (hst.1 _ _)
  rw [show f.eff (k.consumed + pre.length) (envOf L k) = L.cur from hst.2 _ _, Loader.put_cur hL] at h2
  exact ⟨_, p', m', by simpa using h1, by simpa using h2⟩

theorem LeafEnd.plainIn {κ : EndKind} {k : Ctx} {level : Nat} {E : Bytes} (h : LeafEnd κ k level E) (inner : Bool) (T : Bytes) :
    ∃ k' tail, (k' = k ∨ k' = k.at level) ∧ PlainEnd k level inner T E k' tail := by
  rcases h with ⟨_, r, rfl, hr⟩ | ⟨_, hn, t, taken, left, hg, hw, hp⟩ | ⟨_, hs⟩ | ⟨P, _, _, hs⟩
  · exact ⟨k, [], .inl rfl, .stop hr⟩
  · exact ⟨_, _, .inr rfl, .line hn hg hw hp⟩
  · exact ⟨k, [], .inl rfl, .stop hs⟩
  · exact ⟨k, [], .inl rfl, .stop hs⟩

/-- A scalar as the last part; a number only in front of a line break. -/
theorem openLast_scalar {κ : EndKind} {T : Bytes} {y : Yaml} (h : FlowText T y) (hκ : ScalarText κ T y) :
    OpenLast (fun E => OpenRest E ∧ (κ = .strict → nlLen E ≠ 0)) T := by
  refine ⟨hκ.leaf.2, h.noClose, fun k level E hw hE => ?_⟩
  have hP := hE.onlyP
  by_cases hq : Quoted T
  · obtain ⟨N, hN⟩ := hκ.quoted hq
    refine ⟨k, rfl, N + 1, fun a n d ha hn hd L pre hL => ?_⟩
    obtain ⟨d, rfl⟩ : ∃ i, d = i + 1 := ⟨d - 1, by omega⟩
    refine ⟨y, pre, T, rfl, scalarTerm_atom _ (hN n (by omega) E k L pre level ?_)⟩
    rintro r rfl
    have := hE.head _ _ rfl
    simp at this
  · rcases hκ.three with rfl | hq' | ⟨_, hT, rfl⟩
    · have hnum : NumRest E [] E := by
        refine ⟨rfl, by simp, ?_⟩
        have := hP.2 rfl
        rw [Ne, nlLen_zero_iff] at this
        cases E with
        | nil => simp at this
        | cons c r =>
          refine ⟨c, r, rfl, ?_⟩
          by_cases h1 : c = 0x0A
          · subst h1; decide
          · by_cases h2 : c = 0x0D
            · subst h2; decide
            · exact absurd (by rintro _ _ ⟨⟩; exact ⟨h1, h2⟩) this
      refine ⟨k, rfl, 1, fun a n d ha hn hd L pre hL => ?_⟩
      obtain ⟨d, rfl⟩ : ∃ i, d = i + 1 := ⟨d - 1, by omega⟩
      exact ⟨y, pre, T ++ [], by simp, scalarTerm_atom _ (hκ.num hnum k L pre n level)⟩
    · exact absurd hq' hq
    · obtain ⟨k', tail, hk', hend⟩ := hE.plainIn true T
      refine ⟨k', at_of_or hk', T.length + 1, fun a n d ha hn hd L pre hL => ?_⟩
      obtain ⟨d, rfl⟩ : ∃ i, d = i + 1 := ⟨d - 1, by omega⟩
      exact ⟨_, pre, T, rfl, scalarTerm_atom _ (scalarAtom_read _ _ _ (hT.notNum_append _) (hT.atomHead _) hend
        (hT.inner (h.bare hq) _) hT.utf8 hT.ne hT.trim n (by omega))⟩

end YamlPeg
