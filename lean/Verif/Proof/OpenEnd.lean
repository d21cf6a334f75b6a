import Verif.Proof.OpenFlow
import Verif.Proof.Broken
/-!
# Flow collections at the end of the input

Where an item or a value is due the input ends.  The parser takes a null there, misses the
bracket, and makes the whole collection null.
-/

namespace YamlPeg
open M

/-- `scalar_term` at the end of the input. -/
theorem term_end (k : Ctx) (L : Loader) (pre : Bytes) {a n d level : Nat} {flow : Bool} (hn : 0 < n) (hd : 0 < d) :
    scalarTerm (scalar a) n d level flow (ld L (st k pre [] [])) = (.ok .null, ld L (st k pre [] [])) := by
  obtain ⟨d, rfl⟩ : ∃ i, d = i + 1 := ⟨d - 1, by omega⟩
  rw [scalarTerm, scalarTermWith, bind_ok (scalarAtom_none _ _ _ (E := []) (.inl rfl) rfl (.stop rfl : PlainEnd k level flow [] [] k []) n hn)]
  simp only
  rw [orElse_mismatch (s' := ld L (st k pre [] []))]
  · rfl
  rw [orElse_mismatch (s' := ld L (st k pre [] []))]
  · rw [bind_err (lift_of (sym_no _ _ _ _ (by simp)))]
  · rw [seqFlow, bind_err (lift_of (sym_no _ _ _ _ (by simp)))]

theorem firstItem_end (k : Ctx) (L : Loader) (pre : Bytes) (level : Nat) :
    firstItem level false (ld L (st k pre [] [])) = (.ok (), ld L (st k pre [] [])) := by
  simp only [firstItem, Bool.false_eq_true, if_false, gapThenInd]
  rw [bind_ok (isOk_err (lift_of (gap_nil ..)))]
  rfl

/-- An item or a value at the end of the input is null. -/
theorem scalar_end (k : Ctx) (L : Loader) (pre : Bytes) (level a : Nat) :
    scalar (a + 2) level false true (ld L (st k pre [] [])) =
      (.ok (.mk (k.consumed + pre.length) [] .null), ld L (st k pre [] [])) := by
  have hsf : scalarFlow (scalar (a + 1)) (a + 1) (level + 1) true (ld L (st k pre [] [])) =
      (.ok (.mk (k.consumed + pre.length) [] .null), ld L (st k pre [] [])) := by
    have := scalarNode_ok k L pre (post := []) (y := .null) (f := scalarTerm (scalar (a + 1)) (a + 1) (a + 1) (level + 1) true)
      (k' := k) (L' := L) (p' := pre) (m' := []) (post' := []) rfl (term_end k L pre (by omega) (by omega))
    rw [scalarFlow, this]; simp
  have hseq : seq (scalar (a + 1)) (a + 1) level false (ld L (st k pre [] [])) = (.err .mismatch, ld L (st k pre [] [])) := by
    rw [seq, bind_err]
    rw [seqLoop, bind_ok (lift_of (forward_st ..)), bind_err]
    simp only [List.isEmpty_nil, if_true, List.append_nil]
    rw [bind_ok (firstItem_end ..), bind_err (lift_of (sym_no _ _ _ _ (by simp)))]
  have hmap : YamlPeg.map (scalar (a + 1)) (a + 1) level false true (ld L (st k pre [] [])) = (.ok .null, ld L (st k pre [] [])) := by
    rw [YamlPeg.map, mapLoop, bind_ok (a := MapStep.alone .null) (s' := ld L (st k pre [] []))]
    · rfl
    rw [mapStep, bind_ok (lift_of (forward_st ..))]
    simp only [List.isEmpty_nil, if_true, List.append_nil]
    have hkey : (do
        if ← isOk (lift complexMapping) then complexKey (scalar (a + 1)) level true true "map key"
        else scalarFlow (scalar (a + 1)) (a + 1) (level + 1) true : LM Node) (ld L (st k pre [] [])) =
        (.ok (.mk (k.consumed + pre.length) [] .null), ld L (st k pre [] [])) := by
      rw [bind_ok (isOk_err (lift_of (complexMapping_no' _ _ (by simp))))]
      simp only [Bool.false_eq_true, if_false]
      exact hsf
    have hcolon : colonBound (ld L (st k pre [] [])) = (.ok false, ld L (st k pre [] [])) := by
      rw [colonBound, bind_ok (isOk_err (lift_of (sym_no _ _ _ _ (by simp))))]
      simp
    rw [bind_ok (firstItem_end ..), bind_ok (lift_of (forward_st ..)), List.append_nil, bind_ok hkey, bind_ok hcolon]
    simp [Node.yaml]
  have hlit : stringLiteral level (st k pre [] []) = (.err .mismatch, st k pre [] []) := by
    rw [stringLiteral, bind_err (sym_no _ _ _ _ (by simp))]
  have hfold : stringFolded level (st k pre [] []) = (.err .mismatch, st k pre [] []) := by
    rw [stringFolded, bind_err (sym_no _ _ _ _ (by simp))]
  have := scalarNode_ok k L pre (post := []) (y := .null) (f := scalarBody (scalar (a + 1)) (a + 1) level false true)
    (k' := k) (L' := L) (p' := pre) (m' := []) (post' := []) rfl (by
      rw [scalarBody, bind_ok (try_err (lift_of hlit))]
      simp only
      rw [bind_ok (try_err (lift_of hfold))]
      simp only
      rw [orElse_ok]
      rw [orElse_mismatch hseq, hmap])
  rw [scalar, this]; simp

/-! ## Sequences -/

theorem cut_items : ∀ (xs : List FItem) (k : Ctx) (level : Nat), (∀ x ∈ xs, x.f.wf x.W ∧ x.f.known.still ∧ AllWs x.ws) → 0 < k.want level →
    ∃ k', k'.at level = k.at level ∧ ∃ N, ∀ a c, N ≤ a → N ≤ c → ∀ L pre mid ws v, AllWs ws → L.Ready →
      seqFlowLoop (scalar a) level c v (ld L (st k pre mid (ws ++ fitemsText xs))) =
        (.err .mismatch, ld L (st k' (pre ++ mid ++ ws ++ fitemsText xs) [] []))
  | [], k, level, _, hw => by
    refine ⟨k, rfl, 4, fun a c ha hc L pre mid ws v hws hL => ?_⟩
    obtain ⟨c, rfl⟩ : ∃ i, c = i + 1 := ⟨c - 1, by omega⟩
    obtain ⟨a, rfl⟩ : ∃ i, a = i + 2 := ⟨a - 2, by omega⟩
    simp only [fitemsText, List.flatMap_nil]
    rw [seqFlowLoop, bind_ok (inv_read hws (by simp) ..), bind_ok (lift_of (forward_st ..))]
    rw [bind_ok (isOk_err (lift_of (sym_no _ _ _ _ (by simp))))]
    simp only [Bool.false_eq_true, if_false]
    rw [bind_ok (lift_of (forward_st ..)), List.append_nil, bind_ok (orErr_ok (scalar_end ..))]
    obtain ⟨l, h1, h2⟩ := inv_sym_no (c := 0x2C) (E := []) (by simp) k L (pre ++ (mid ++ ws))
    obtain ⟨l', h1', h2'⟩ := inv_sym_no (c := 0x5D) (E := []) (by simp) k L (pre ++ (mid ++ ws))
    rw [bind_ok h1, bind_ok (isOk_err h2)]
    simp only [Bool.false_eq_true, if_false]
    rw [bind_ok h1', bind_err h2']
    simp
  | x :: xs, k, level, hx, hw => by
    obtain ⟨hwf, hst, hws2⟩ := hx x (by simp)
    have hW := Flow.wf_ws hwf
    have hw2 : 0 < k.want (level + 2) := Nat.lt_of_lt_of_le hw (want_le_two ..)
    have hstop : FlowStop (0x2C :: (x.ws ++ fitemsText xs)) := ⟨_, _, rfl, by decide⟩
    obtain ⟨k1, u, w, hs, hk1, N, hN⟩ := Flow.read x.f x.W k (level + 2) true _ hwf hw2 (fun _ => ⟨rfl, hstop⟩)
    have hww : AllWs w := by rw [hs] at hW; exact hW.of_append.2
    have hk1' : k1.at level = k.at level := Ctx.at_of_at hk1 (by omega)
    obtain ⟨k', hk', N2, hN2⟩ := cut_items xs k1 level (fun y hy => hx y (by simp [hy]))
      (by rw [Ctx.want_of_at hk1']; exact hw)
    refine ⟨k', hk'.trans hk1', N + N2 + 4, fun a c ha hc L pre mid ws v hws hL => ?_⟩
    obtain ⟨c, rfl⟩ : ∃ i, c = i + 1 := ⟨c - 1, by omega⟩
    have hread := flow_node_still hwf hst hstop hs hN (n := a) (by omega) L (pre ++ (mid ++ ws)) hL
    have hl := hN2 a c (by omega) (by omega) L (pre ++ (mid ++ ws) ++ x.f.text ++ u) (w ++ [0x2C]) x.ws
      (v ++ [x.f.node (k.consumed + (pre ++ (mid ++ ws)).length) (envOf L k)])
      hws2 hL
    have htx : fitemsText (x :: xs) = x.f.text ++ (x.W ++ (0x2C :: (x.ws ++ fitemsText xs))) := by
      simp [fitemsText, FItem.text]
    rw [htx]
    rw [seqFlowLoop, bind_ok (inv_read hws (Flow.notWs hwf _) ..), bind_ok (lift_of (forward_st ..))]
    rw [bind_ok (isOk_err (lift_of (sym_no _ _ _ _ fun r => (Flow.noClose hwf _ r).1)))]
    simp only [Bool.false_eq_true, if_false]
    rw [bind_ok (lift_of (forward_st ..)), List.append_nil, bind_ok (orErr_ok hread)]
    have hinv := inv_read hww (post := 0x2C :: (x.ws ++ fitemsText xs)) (by rintro _ _ ⟨⟩; decide) k1 L
      (pre ++ (mid ++ ws) ++ x.f.text ++ u) []
    rw [bind_ok hinv, List.nil_append, bind_ok (isOk_ok (lift_of (sym_hit ..)))]
    simp only [if_true]
    rw [hl, hs]
    simp

/-- A flow sequence that is not closed and ends behind its bracket or a comma is null. -/
theorem cut_seq {xs : List FItem} {ws : Bytes} (hws : AllWs ws) (hx : ∀ x ∈ xs, x.f.wf x.W ∧ x.f.known.still ∧ AllWs x.ws)
    {k : Ctx} {level : Nat} (hw : 0 < k.want level) :
    ∃ k', k'.at level = k.at level ∧ ∃ N, ∀ a n d flow, N ≤ a → N ≤ n → N ≤ d → ∀ L pre, L.Ready →
      scalarTerm (scalar a) n d level flow (ld L (st k pre [] (0x5B :: (ws ++ fitemsText xs)))) =
        (.ok .null, ld L (st k' (pre ++ 0x5B :: (ws ++ fitemsText xs)) [] [])) := by
  obtain ⟨k', hk', N, hN⟩ := cut_items xs (k.at level) level hx (by simpa using hw)
  refine ⟨k', by simpa using hk', N + 1, fun a n d flow ha hn hd L pre hL => ?_⟩
  obtain ⟨d, rfl⟩ : ∃ i, d = i + 1 := ⟨d - 1, by omega⟩
  have hl := hN a n (by omega) (by omega) L pre [0x5B] ws [] hws hL
  rw [scalarTerm, scalarTermWith, bind_ok (scalarAtom_bracket (.inl rfl) hw flow L pre _ (by omega))]
  simp only
  rw [orElse_mismatch (s' := ld L (st k' (pre ++ 0x5B :: (ws ++ fitemsText xs)) [] []))]
  · rfl
  rw [orElse_mismatch (s' := ld L (st k' (pre ++ 0x5B :: (ws ++ fitemsText xs)) [] []))]
  · rw [bind_err (lift_of (sym_no _ _ _ _ (by simp)))]
  · rw [seqFlow, bind_ok (lift_of (sym_hit ..))]
    rw [show ([] : Bytes) ++ [0x5B] = [0x5B] from rfl, bind_err hl]
    simp

/-! ## Maps -/

theorem flowSep_end {sp : Bytes} (h : sp = [] ∨ FlowSep sp) (k : Ctx) (L : Loader) (pre mid : Bytes) :
    lift (context (orDefault () bound)) (ld L (st k pre mid sp)) = (.ok (), ld L (st k pre (mid ++ sp) [])) := by
  have := context_st (f := orDefault () bound) (k := k) (k' := k) (pre := pre) (mid := mid) (post := sp)
      (p' := []) (m' := sp) (post' := []) (o := .ok ()) (by
    rw [orDefault, bound_eq]
    rcases h with rfl | ⟨s, rfl, hs⟩
    · simp [headIn]
    · have := takeWhile_all (f := isBlank) (d := 0x20 :: s) (by
        intro x hx
        rcases List.mem_cons.1 hx with rfl | hx
        · decide
        · exact hs x hx) [] (by simp)
      rw [List.append_nil] at this
      rw [this.1, this.2]
      simp [headIn])
  rw [lift_of this]
  simp

theorem cut_entries {K : Bytes} {ky : Yaml} {ksp : Bytes} (hK : FKeyOK K ky ksp) :
    ∀ (xs : List FEntry) (k : Ctx) (level : Nat), (∀ x ∈ xs, FKeyOK x.T x.y x.sp ∧ x.v.wf [] ∧ x.v.known.still ∧ AllWs x.ws) →
    0 < k.want level →
    ∃ k', k'.at level = k.at level ∧ ∃ N, ∀ a n d c, N ≤ a → N ≤ n → N ≤ d → N ≤ c → ∀ L pre mid ws v, AllWs ws → L.Ready →
      mapFlowLoop (scalar a) (scalarNode (scalarTerm (scalar a) n d (level + 1) true)) level c v
          (ld L (st k pre mid (ws ++ (fentriesText xs ++ (K ++ (0x3A :: ksp)))))) =
        (.err .mismatch, ld L (st k' (pre ++ mid ++ ws ++ (fentriesText xs ++ (K ++ (0x3A :: ksp)))) [] []))
  | [], k, level, _, hw => by
    have hw1 : 0 < k.want (level + 1) := Nat.lt_of_lt_of_le hw (Ctx.want_mono k level)
    obtain ⟨k1, hk1, N1, hN1⟩ := flowKey_read hK (k := k) (level := level) hw1 []
    have hk1' : k1.at level = k.at level := Ctx.at_of_at hk1 (by omega)
    refine ⟨k1, hk1', N1 + 4, fun a n d c ha hn hd hc L pre mid ws v hws hL => ?_⟩
    obtain ⟨c, rfl⟩ : ∃ i, c = i + 1 := ⟨c - 1, by omega⟩
    obtain ⟨b, rfl⟩ : ∃ i, a = i + 2 := ⟨a - 2, by omega⟩
    simp only [fentriesText, List.flatMap_nil, List.nil_append]
    have hkey := hN1 (b + 2) n d (by omega) (by omega) L (pre ++ (mid ++ ws))
    rw [List.append_nil] at hkey
    rw [mapFlowLoop, bind_ok (inv_read hws (hK.1.notWs _) ..), bind_ok (lift_of (forward_st ..))]
    rw [bind_ok (isOk_err (lift_of (sym_no _ _ _ _ fun r => (noClose_append hK.1 hK.2.1 _ r).2)))]
    simp only [Bool.false_eq_true, if_false]
    rw [bind_ok (lift_of (forward_st ..)), List.append_nil, bind_ok hkey, bind_ok (isOk_ok (lift_of (sym_hit ..)))]
    simp only [if_true]
    rw [bind_ok (flowSep_end hK.2.2.1 ..), bind_ok (lift_of (forward_st ..))]
    rw [List.nil_append, bind_ok (orErr_ok (scalar_end ..))]
    obtain ⟨l', h1', h2'⟩ := inv_sym_no (c := 0x7D) (E := []) (by simp) k1 L (pre ++ (mid ++ ws) ++ K ++ ([0x3A] ++ ksp))
    rw [bind_ok (isOk_err (lift_of (sym_no _ _ _ _ (by simp))))]
    simp only [Bool.false_eq_true, if_false]
    rw [bind_ok h1', bind_err h2']
    simp
  | x :: xs, k, level, hx, hw => by
    obtain ⟨hxT, hv, hst, hws2⟩ := hx x (by simp)
    generalize hR : x.ws ++ (fentriesText xs ++ (K ++ (0x3A :: ksp))) = R
    have hstop : FlowStop (0x2C :: R) := ⟨_, _, rfl, by decide⟩
    have hw1 : 0 < k.want (level + 1) := Nat.lt_of_lt_of_le hw (Ctx.want_mono k level)
    obtain ⟨k1, hk1, N1, hN1⟩ := flowKey_read hxT (k := k) (level := level) hw1 (x.v.text ++ (0x2C :: R))
    have hk1' : k1.at level = k.at level := Ctx.at_of_at hk1 (by omega)
    have hw2 : 0 < k1.want (level + 2) :=
      Nat.lt_of_lt_of_le (by rw [Ctx.want_of_at hk1]; exact hw1) (Ctx.want_mono k1 (level + 1))
    obtain ⟨k2, u, w, hs, hk2, N2, hN2⟩ := Flow.read x.v [] k1 (level + 2) true _ hv hw2 (fun _ => ⟨rfl, hstop⟩)
    obtain ⟨rfl, rfl⟩ := List.append_eq_nil_iff.1 hs.symm
    have hk2' : k2.at level = k.at level := (Ctx.at_of_at hk2 (by omega)).trans hk1'
    obtain ⟨k', hk', N3, hN3⟩ := cut_entries hK xs k2 level (fun y hy => hx y (by simp [hy]))
      (by rw [Ctx.want_of_at hk2']; exact hw)
    refine ⟨k', hk'.trans hk2', N1 + N2 + N3 + 4, fun a n d c ha hn hd hc L pre mid ws m hws hL => ?_⟩
    obtain ⟨c, rfl⟩ : ∃ i, c = i + 1 := ⟨c - 1, by omega⟩
    have hread := flow_node_still hv hst hstop rfl hN2 (n := a) (by omega) L (pre ++ (mid ++ ws) ++ x.T ++ ([0x3A] ++ x.sp)) hL
    simp only [List.nil_append, List.append_nil] at hread
    have hl := fun v => hN3 a n d c (by omega) (by omega) (by omega) (by omega) L
      (pre ++ (mid ++ ws) ++ x.T ++ ([0x3A] ++ x.sp) ++ x.v.text) [0x2C] x.ws v hws2 hL
    have htx : fentriesText (x :: xs) = x.T ++ (0x3A :: (x.sp ++ (x.v.text ++ (0x2C :: (x.ws ++ fentriesText xs))))) := by
      simp [fentriesText, FEntry.text]
    rw [htx]
    simp only [List.append_assoc, List.cons_append]
    rw [hR] at hl ⊢
    rw [mapFlowLoop, bind_ok (inv_read hws (hxT.1.notWs _) ..), bind_ok (lift_of (forward_st ..))]
    rw [bind_ok (isOk_err (lift_of (sym_no _ _ _ _ fun r => (noClose_append hxT.1 hxT.2.1 _ r).2)))]
    simp only [Bool.false_eq_true, if_false]
    rw [bind_ok (lift_of (forward_st ..)), List.append_nil, bind_ok (hN1 a n d (by omega) (by omega) L _),
      bind_ok (isOk_ok (lift_of (sym_hit ..)))]
    simp only [if_true]
    rw [bind_ok (flowSep_read hxT.2.2.1 (by obtain ⟨c, r, h1, h2, _⟩ := Flow.head hv; exact ⟨c, r, h1, h2⟩) ..), bind_ok (lift_of (forward_st ..)), List.nil_append]
    rw [bind_ok (orErr_ok hread)]
    rw [bind_ok (isOk_ok (lift_of (sym_hit ..)))]
    simp only [if_true, List.nil_append]
    rw [hl, ← hR]
    simp

/-- A flow map that is not closed and ends behind a colon is null. -/
theorem cut_map {K : Bytes} {ky : Yaml} {ksp : Bytes} (hK : FKeyOK K ky ksp)
    {xs : List FEntry} {ws : Bytes} (hws : AllWs ws) (hx : ∀ x ∈ xs, FKeyOK x.T x.y x.sp ∧ x.v.wf [] ∧ x.v.known.still ∧ AllWs x.ws)
    {k : Ctx} {level : Nat} (hw : 0 < k.want level) :
    ∃ k', k'.at level = k.at level ∧ ∃ N, ∀ a n d flow, N ≤ a → N ≤ n → N ≤ d → ∀ L pre, L.Ready →
      scalarTerm (scalar a) n d level flow (ld L (st k pre [] (0x7B :: (ws ++ (fentriesText xs ++ (K ++ (0x3A :: ksp))))))) =
        (.ok .null, ld L (st k' (pre ++ 0x7B :: (ws ++ (fentriesText xs ++ (K ++ (0x3A :: ksp))))) [] [])) := by
  obtain ⟨k', hk', N, hN⟩ := cut_entries hK xs (k.at level) level hx (by simpa using hw)
  refine ⟨k', by simpa using hk', N + 1, fun a n d flow ha hn hd L pre hL => ?_⟩
  obtain ⟨d, rfl⟩ : ∃ i, d = i + 1 := ⟨d - 1, by omega⟩
  have hl := hN a n d n (by omega) (by omega) (by omega) (by omega) L pre [0x7B] ws [] hws hL
  rw [scalarTerm, scalarTermWith, bind_ok (scalarAtom_bracket (.inr rfl) hw flow L pre _ (by omega))]
  simp only
  rw [orElse_mismatch (s' := ld L (st k' (pre ++ 0x7B :: (ws ++ (fentriesText xs ++ (K ++ (0x3A :: ksp))))) [] []))]
  · rfl
  rw [orElse_mismatch (s' := ld L (st (k.at level) pre [] (0x7B :: (ws ++ (fentriesText xs ++ (K ++ (0x3A :: ksp)))))))]
  · rw [bind_ok (lift_of (sym_hit ..))]
    rw [show ([] : Bytes) ++ [0x7B] = [0x7B] from rfl, bind_err hl]
    simp
  · rw [seqFlow, bind_err (lift_of (sym_miss _ _ _ _ _ _ (by decide)))]
    simp

/-! ## As last parts and as leaves -/

/-- At the end of the input. -/
def AtEnd (E : Bytes) : Prop := E = []

theorem AtEnd.rest (E : Bytes) (h : AtEnd E) : OpenRest E := by
  obtain rfl : E = [] := h
  exact ⟨by simp, by simp⟩

theorem cutLast_seq {xs : List FItem} {ws : Bytes} (hws : AllWs ws) (hx : ∀ x ∈ xs, x.f.wf x.W ∧ x.f.known.still ∧ AllWs x.ws) :
    OpenLast AtEnd (0x5B :: (ws ++ fitemsText xs)) := by
  refine ⟨(openText_seq _).1, (openText_seq _).2, fun k level E hw hE => ?_⟩
  obtain rfl : E = [] := hE.onlyP
  obtain ⟨k', hk', N, hN⟩ := cut_seq hws hx hw
  exact ⟨k', hk', N, fun a n d ha hn hd L pre hL => ⟨_, pre ++ (0x5B :: (ws ++ fitemsText xs)), [], by simp, by simpa using hN a n d true ha hn hd L pre hL⟩⟩

theorem cutLast_map {K : Bytes} {ky : Yaml} {ksp : Bytes} (hK : FKeyOK K ky ksp)
    {xs : List FEntry} {ws : Bytes} (hws : AllWs ws) (hx : ∀ x ∈ xs, FKeyOK x.T x.y x.sp ∧ x.v.wf [] ∧ x.v.known.still ∧ AllWs x.ws) :
    OpenLast AtEnd (0x7B :: (ws ++ (fentriesText xs ++ (K ++ (0x3A :: ksp))))) := by
  refine ⟨(openText_map _).1, (openText_map _).2, fun k level E hw hE => ?_⟩
  obtain rfl : E = [] := hE.onlyP
  obtain ⟨k', hk', N, hN⟩ := cut_map hK hws hx hw
  exact ⟨k', hk', N, fun a n d ha hn hd L pre hL => ⟨_, pre ++ (0x7B :: (ws ++ (fentriesText xs ++ (K ++ (0x3A :: ksp))))), [], by simp, by simpa using hN a n d true ha hn hd L pre hL⟩⟩

theorem cutLeaf_seq {xs : List FItem} {ws : Bytes} (hws : AllWs ws) (hx : ∀ x ∈ xs, x.f.wf x.W ∧ x.f.known.still ∧ AllWs x.ws) :
    LeafOKE (.only AtEnd) (0x5B :: (ws ++ fitemsText xs)) (fun _ _ => .null) .none := by
  refine ⟨fun k level E hw _ hE => ?_, (openText_seq _).1⟩
  obtain rfl : E = [] := hE.onlyP
  obtain ⟨k', hk', N, hN⟩ := cut_seq hws hx hw
  exact ⟨k', hk', N, fun a n d ha hn hd L pre hL _ => ⟨pre ++ (0x5B :: (ws ++ fitemsText xs)), [], by simp, by
    rw [show ∀ p e, Known.none.eff p e = e.anchors from fun _ _ => rfl, show (envOf L k).anchors = L.cur from rfl, Loader.put_cur hL, List.append_nil]
    exact hN a n d false ha hn hd L pre hL⟩⟩

theorem cutLeaf_map {K : Bytes} {ky : Yaml} {ksp : Bytes} (hK : FKeyOK K ky ksp)
    {xs : List FEntry} {ws : Bytes} (hws : AllWs ws) (hx : ∀ x ∈ xs, FKeyOK x.T x.y x.sp ∧ x.v.wf [] ∧ x.v.known.still ∧ AllWs x.ws) :
    LeafOKE (.only AtEnd) (0x7B :: (ws ++ (fentriesText xs ++ (K ++ (0x3A :: ksp))))) (fun _ _ => .null) .none := by
  refine ⟨fun k level E hw _ hE => ?_, (openText_map _).1⟩
  obtain rfl : E = [] := hE.onlyP
  obtain ⟨k', hk', N, hN⟩ := cut_map hK hws hx hw
  exact ⟨k', hk', N, fun a n d ha hn hd L pre hL _ => ⟨pre ++ (0x7B :: (ws ++ (fentriesText xs ++ (K ++ (0x3A :: ksp))))), [], by simp, by
    rw [show ∀ p e, Known.none.eff p e = e.anchors from fun _ _ => rfl, show (envOf L k).anchors = L.cur from rfl, Loader.put_cur hL, List.append_nil]
    exact hN a n d false ha hn hd L pre hL⟩⟩

end YamlPeg
