import Verif.Proof.Broken
/-! # Texts that cannot be read: block collections and documents -/

namespace YamlPeg
open M

/-- A node (root, item) at the indentation `σ` that cannot be read. -/
def BadN (σ : Nat) (T : Bytes) (name : String) (o : Nat) : Prop :=
  ∀ (k : Ctx) (q : Nat), k.want q = σ → k.indent.length ≤ q + 1 → k.consumed = 0 → ∃ N, ∀ n, N ≤ n → ∀ L pre, L.Ready →
    Fails (Bang (pre ++ T) name (pre.length + o)) (scalar n q false false) (ld L (st k pre [] T))

/-- An item of a sequence. -/
def BadItem (σ : Nat) (T : Bytes) (name : String) (o : Nat) : Prop :=
  ∀ (k : Ctx) (q : Nat), k.want q = σ → k.indent.length ≤ q + 1 → k.consumed = 0 → ∃ N, ∀ n, N ≤ n → ∀ L pre, L.Ready →
    Fails (Bang (pre ++ T) name (pre.length + o)) (orErr (scalar n q false false) "sequence item") (ld L (st k pre [] T))

/-- A value of a map at the indentation `σ`. -/
def BadV (σ : Nat) (T : Bytes) (name : String) (o : Nat) : Prop :=
  ∀ (k : Ctx) (p : Nat), k.want p = σ → k.want (p + 1) = σ + 2 → k.consumed = 0 → ∃ N, ∀ n, N ≤ n → ∀ L pre, L.Ready →
    Fails (Bang (pre ++ T) name (pre.length + o)) (scalar n (p + 1) true false) (ld L (st k pre [] T))

def BadVal (wrap : String) (σ : Nat) (T : Bytes) (name : String) (o : Nat) : Prop :=
  ∀ (k : Ctx) (p : Nat), k.want p = σ → k.want (p + 1) = σ + 2 → k.consumed = 0 → ∃ N, ∀ n, N ≤ n → ∀ L pre, L.Ready →
    Fails (Bang (pre ++ T) name (pre.length + o)) (orErr (scalar n (p + 1) true false) wrap) (ld L (st k pre [] T))

theorem BadN.item {σ : Nat} {T : Bytes} {name : String} {o : Nat} (h : BadN σ T name o) : BadItem σ T name o := by
  intro k q hw hl hk
  obtain ⟨N, hN⟩ := h k q hw hl hk
  exact ⟨N, fun n hn L pre hL => (hN n hn L pre hL).orErr _⟩

theorem BadV.val {σ : Nat} {T : Bytes} {name : String} {o : Nat} (h : BadV σ T name o) (wrap : String) : BadVal wrap σ T name o := by
  intro k p hw hw2 hk
  obtain ⟨N, hN⟩ := h k p hw hw2 hk
  exact ⟨N, fun n hn L pre hL => (hN n hn L pre hL).orErr _⟩

theorem Loose.item {T : Bytes} {o : Nat} (h : Loose T o) (σ : Nat) : BadItem σ T "sequence item" o := by
  intro k q hw hl hk
  refine ⟨1, fun n hn L pre hL => ?_⟩
  obtain ⟨n, rfl⟩ : ∃ i, n = i + 1 := ⟨n - 1, by omega⟩
  exact h.wrapped _ _ hk L pre

theorem Loose.val {T : Bytes} {o : Nat} (h : Loose T o) (wrap : String) (σ : Nat) : BadVal wrap σ T wrap o := by
  intro k p hw hw2 hk
  refine ⟨1, fun n hn L pre hL => ?_⟩
  obtain ⟨n, rfl⟩ : ∃ i, n = i + 1 := ⟨n - 1, by omega⟩
  exact h.wrapped _ _ hk L pre

theorem TwoAnchors.badN {T : Bytes} {o : Nat} (h : TwoAnchors T o) (σ : Nat) : BadN σ T "duplicated anchor definition" o := by
  intro k q hw hl hk
  refine ⟨1, fun n hn L pre hL => ?_⟩
  obtain ⟨n, rfl⟩ : ∃ i, n = i + 1 := ⟨n - 1, by omega⟩
  exact h.node _ hk L pre

theorem TwoAnchors.badV {T : Bytes} {o : Nat} (h : TwoAnchors T o) (σ : Nat) : BadV σ T "duplicated anchor definition" o := by
  intro k p hw hw2 hk
  refine ⟨1, fun n hn L pre hL => ?_⟩
  obtain ⟨n, rfl⟩ : ∃ i, n = i + 1 := ⟨n - 1, by omega⟩
  exact h.node _ hk L pre

theorem TermBad.badN {T : Bytes} {name : String} {o : Nat} (h : TermBad T name o) {σ : Nat} {lead : Bytes} (hl : LeadOK σ lead) :
    BadN σ (lead ++ T) name (lead.length + o) := by
  intro k q hw hlen hk
  have hcon : (if lead = [] then k else k.at q).consumed = 0 := by split <;> simpa using hk
  have hpos : 0 < (if lead = [] then k else k.at q).want (q + 1) := by
    split
    · rw [Ctx.want_succ _ _ hlen]; omega
    · rw [Ctx.want_succ _ _ (by simp)]; omega
  obtain ⟨N, hN⟩ := h.2 _ (q + 1) hpos hcon
  refine ⟨N + 2, fun n hn L pre hL => ?_⟩
  obtain ⟨i, rfl⟩ : ∃ i, n = i + 2 := ⟨n - 2, by omega⟩
  have := hN (i + 1) (i + 1) (i + 1) false (by omega) (by omega) (by omega) L (pre ++ lead) hL
  rw [Bang.at (doc' := pre ++ (lead ++ T)) (p' := pre.length + (lead.length + o)) (by simp) (by simp; omega)] at this
  have := leaf_fail_of (E := []) h.leaf hl hw (by simpa using this)
  simpa using this

theorem TermBad.badV {T : Bytes} {name : String} {o : Nat} (h : TermBad T name o) (σ : Nat) : BadV σ T name o := by
  intro k p hw hw2 hk
  obtain ⟨N, hN⟩ := h.2 k (p + 1) (by omega) hk
  refine ⟨N + 2, fun n hn L pre hL => ?_⟩
  obtain ⟨i, rfl⟩ : ∃ i, n = i + 2 := ⟨n - 2, by omega⟩
  have := hN (i + 1) (i + 1) (i + 1) false (by omega) (by omega) (by omega) L pre hL
  have := leaf_value_fail_of (E := []) h.leaf (by simpa using this)
  simpa using this

theorem badN_prop {σ : Nat} {T : Bytes} {name : String} {o : Nat} (h : BadN σ T name o) {f : Form} (hf : f.wf T) (hfine : ∀ tbl, f.fine tbl)
    (hT : noProps T = true) : BadN σ (f.text ++ T) name (f.text.length + o) := by
  intro k q hw hl hk
  obtain ⟨N, hN⟩ := h k q hw hl hk
  refine ⟨N + 1, fun n hn L pre hL => ?_⟩
  obtain ⟨n, rfl⟩ : ∃ i, n = i + 1 := ⟨n - 1, by omega⟩
  have := hN (n + 1) (by omega) L (pre ++ f.text) hL
  rw [Bang.at (doc' := pre ++ (f.text ++ T)) (p' := pre.length + (f.text.length + o)) (by simp) (by simp; omega), scalar] at this
  rw [scalar]
  exact prop_stuck_inner hf (hfine _) hT this

theorem badV_prop {σ : Nat} {T : Bytes} {name : String} {o : Nat} (h : BadV σ T name o) {f : Form} (hf : f.wf T) (hfine : ∀ tbl, f.fine tbl)
    (hT : noProps T = true) : BadV σ (f.text ++ T) name (f.text.length + o) := by
  intro k q hw hl hk
  obtain ⟨N, hN⟩ := h k q hw hl hk
  refine ⟨N + 1, fun n hn L pre hL => ?_⟩
  obtain ⟨n, rfl⟩ : ∃ i, n = i + 1 := ⟨n - 1, by omega⟩
  have := hN (n + 1) (by omega) L (pre ++ f.text) hL
  rw [Bang.at (doc' := pre ++ (f.text ++ T)) (p' := pre.length + (f.text.length + o)) (by simp) (by simp; omega), scalar] at this
  rw [scalar]
  exact prop_stuck_inner hf (hfine _) hT this

/-! ## Sequences -/

/-- The items of a sequence at the column `τ`, from one of them. -/
def SeqHole (τ : Nat) (X : Bytes) (name : String) (o : Nat) : Prop :=
  ∀ (k : Ctx) (level : Nat), k.want level = τ → k.indent.length ≤ level + 1 → k.consumed = 0 →
    ∃ N, ∀ n c, N ≤ n → N ≤ c → ∀ L pre mid v map, L.Ready →
      Fails (Bang (pre ++ (mid ++ X)) name (pre.length + mid.length + o)) (seqGo n level map c v) (ld L (st k pre mid X))

theorem seqHole_item {τ : Nat} {X : Bytes} {name : String} {o : Nat} (h : BadItem (τ + 2) X name o) : SeqHole τ X name o := by
  intro k level hw hlen hk
  obtain ⟨N, hN⟩ := h k (level + 1) (by rw [Ctx.want_succ _ _ hlen, hw]) (by omega) hk
  refine ⟨N, fun n c h1 h2 L pre mid v map hL => ?_⟩
  have := hN n h1 L (pre ++ mid) hL
  rw [Bang.at (doc' := pre ++ (mid ++ X)) (p' := pre.length + mid.length + o) (by simp) (by simp)] at this
  rw [seqGo]
  exact .after (lift_of (forward_st ..)) (this.bind _)

theorem seqHole_cons {τ : Nat} {X : Bytes} {name : String} {o : Nat} (h : SeqHole τ X name o) {b : Blk} (hb : b.wfN (τ + 2)) (hst : b.still)
    {G sp : Bytes} (hG : GapText G) (hfit : ∀ r, Fits b.kind (G ++ (spaces τ ++ 0x2D :: r))) (hsep : SepOK sp X) :
    SeqHole τ (b.text ++ (G ++ (spaces τ ++ 0x2D :: (sp ++ X)))) name (b.text.length + G.length + τ + 1 + sp.length + o) := by
  intro k level hw hlen hk
  have hw2 : k.want (level + 1) = τ + 2 := by rw [Ctx.want_succ _ _ hlen, hw]
  obtain ⟨k1, hk1, _, N, hN⟩ := Blk.readN b (level + 1) (τ + 2) k (G ++ (spaces τ ++ 0x2D :: (sp ++ X)))
    hb hw2 (.inr (.inl (by omega))) (hfit _) (hG.stops (by omega) (by decide) _)
  have hk1' := Ctx.at_of_at hk1 (Nat.le_succ level)
  have hw1 : k1.want level = τ := (Ctx.want_of_at hk1').trans hw
  have hcon1 : k1.consumed = 0 := (Ctx.consumed_of_at hk1).trans hk
  obtain ⟨N2, hN2⟩ := h (k1.at level) level (by rw [Ctx.want_at, hw1]) (by simp) (by rw [Ctx.at_consumed, hcon1])
  refine ⟨N + N2 + 1, fun n c h1 h2 L pre mid v map hL => ?_⟩
  obtain ⟨c, rfl⟩ : ∃ m, c = m + 1 := ⟨c - 1, by omega⟩
  rw [seqGo]
  refine .after (lift_of (forward_st ..)) ?_
  obtain ⟨-, heff, hfine⟩ := Blk.still_spec b hst (k.consumed + (pre ++ mid).length)
  have hx := hN n (by omega) L (pre ++ mid) hL (hfine _)
  rw [heff, show (envOf L k).anchors = L.cur from rfl, Loader.put_cur hL] at hx
  have hgo := hN2 n c (by omega) (by omega) L
    (pre ++ mid ++ b.text ++ (G ++ spaces τ ++ [0x2D] ++ sp)) [] (v ++ [b.node (k.consumed + (pre ++ mid).length) (envOf L k)]) map hL
  rw [Bang.at (doc' := pre ++ (mid ++ (b.text ++ (G ++ (spaces τ ++ 0x2D :: (sp ++ X))))))
    (p' := pre.length + mid.length + (b.text.length + G.length + τ + 1 + sp.length + o)) (by simp) (by simp [spaces]; omega)] at hgo
  refine .after (orErr_ok hx) ?_
  rw [seqLoop]
  refine .after (lift_of (forward_st ..)) (.after (a := false)
    (s' := ld L (st (k1.at level) (pre ++ mid ++ b.text ++ (G ++ spaces τ ++ [0x2D] ++ sp)) [] X)) ?_ ?_)
  · simp only [isEmpty_snoc, Bool.false_eq_true, if_false, List.append_nil]
    rw [bind_ok (nextItem_more _ _ _ hG hw1 (by decide) (docMark_spaces (docMark_dash hsep)) _)]
    simp only [Bool.false_eq_true, if_false]
    rw [bind_ok (isOk_ok (lift_of (sym_hit ..)))]
    simp only [if_true]
    rw [bind_ok (isOk_ok (lift_of (bound_sep _ _ _ hsep)))]
    simp only [if_true]
    rw [bind_ok (lift_of (forward_st ..))]
    rfl
  · simp only [Bool.false_eq_true, if_false]
    rw [seqGo] at hgo
    exact hgo

theorem SepOK.plain {sp X : Bytes} (h : SepOK sp X) : ∃ c r, X = c :: r ∧ isBlank c = false := h.2.1

theorem badN_seq {σ : Nat} {X : Bytes} {name : String} {o : Nat} (h : SeqHole σ X name o) {lead sp : Bytes} (hl : LeadOK σ lead)
    (hsep : SepOK sp X) : BadN σ (lead ++ 0x2D :: (sp ++ X)) name (lead.length + 1 + sp.length + o) := by
  intro k q hw hlen hk
  generalize hk1 : (if lead = [] then k else k.at q) = k1
  have hk1at : k1.at q = k.at q := by subst hk1; split <;> simp
  have hlen1 : k1.indent.length ≤ q + 1 := by
    subst hk1; split
    · exact hlen
    · simp
  have hw1 : k1.want q = σ := by rw [Ctx.want_of_at hk1at, hw]
  have hcon : k1.consumed = 0 := (Ctx.consumed_of_at hk1at).trans hk
  obtain ⟨N, hN⟩ := h k1 q hw1 hlen1 hcon
  refine ⟨N + 3, fun n hn L pre hL => ?_⟩
  obtain ⟨a, rfl⟩ : ∃ a, n = a + 2 := ⟨n - 2, by omega⟩
  obtain ⟨c', r', hce, hc'⟩ := hl.head (r := sp ++ X) (c := 0x2D) (by simp [plainHead])
  have hfi : firstItem q false (ld L (st k pre [] (lead ++ 0x2D :: (sp ++ X)))) =
      (.ok (), ld L (st k1 pre lead (0x2D :: (sp ++ X)))) := by
    rcases hl with rfl | ⟨G, hG, rfl⟩
    · simp only [if_true] at hk1
      subst hk1
      exact firstItem_inline _ _ _ _ (by decide) q
    · obtain ⟨x, s, rfl, hx⟩ := hG.head
      have := firstItem_gap k L pre [] hG hw (c := 0x2D) (r := sp ++ X) (by decide)
      simp only [List.cons_append, List.cons_ne_nil, if_false] at hk1
      rw [hk1] at this
      simpa using this
  have hgo := hN (a + 1) a (by omega) (by omega) L pre (lead ++ [0x2D] ++ sp) [] false hL
  rw [Bang.at (doc' := pre ++ (lead ++ 0x2D :: (sp ++ X))) (p' := pre.length + (lead.length + 1 + sp.length + o))
    (by simp) (by simp; omega)] at hgo
  rw [scalar]
  refine scalarNode_stuck (by rw [hce]; exact noProps_of hc') ?_
  rw [Fails, hce, scalarBody_skip _ _ _ hc', ← hce]
  refine Fails.orElse (Fails.orElse ?_)
  rw [seq]
  refine Fails.bind ?_ _
  rw [seqLoop]
  refine .after (lift_of (forward_st ..)) (.after (a := false) (s' := ld L (st k1 pre (lead ++ [0x2D] ++ sp) X)) ?_ ?_)
  · simp only [List.isEmpty_nil, if_true, List.append_nil]
    rw [bind_ok hfi, bind_ok (lift_of (sym_hit ..)), bind_ok (lift_of (bound_sep _ _ _ hsep))]
    rfl
  · simp only [Bool.false_eq_true, if_false]
    rw [seqGo] at hgo
    exact hgo

theorem badV_seq {σ w : Nat} {X : Bytes} {name : String} {o : Nat} (h : SeqHole (σ + w) X name o) {G sp : Bytes} (hG : GapText G)
    (hsep : SepOK sp X) :
    BadV σ (G ++ (spaces (σ + w) ++ 0x2D :: (sp ++ X))) name (G.length + (σ + w) + 1 + sp.length + o) := by
  intro k p hw hw2 hk
  generalize hk1 : k.push p w = k1
  have hk1at : k1.at p = k.at p := by subst hk1; exact Ctx.push_at ..
  have hlen1 : k1.indent.length ≤ (p + 1) + 1 := by subst hk1; simp
  have hw1 : k1.want (p + 1) = σ + w := by subst hk1; rw [Ctx.push_want, hw]
  have hcon : k1.consumed = 0 := (Ctx.consumed_of_at hk1at).trans hk
  obtain ⟨N, hN⟩ := h k1 (p + 1) hw1 hlen1 hcon
  refine ⟨N + 3, fun n hn L pre hL => ?_⟩
  obtain ⟨a, rfl⟩ : ∃ a, n = a + 2 := ⟨n - 2, by omega⟩
  obtain ⟨c', g', hGe, hc'⟩ := hG.head
  have hc' := plainHead_of_not_tok hc'
  have hfi : firstItem (p + 1) true (ld L (st k pre [] (G ++ (spaces (σ + w) ++ 0x2D :: (sp ++ X))))) =
      (.ok (), ld L (st k1 pre (G ++ spaces (σ + w)) (0x2D :: (sp ++ X)))) := by
    have := firstItem_value k L pre [] hG (p := p) (w := w) (c := 0x2D) (r := sp ++ X) (by decide)
    rw [hw, hk1] at this
    simpa using this
  have hgo := hN (a + 1) a (by omega) (by omega) L pre (G ++ spaces (σ + w) ++ [0x2D] ++ sp) [] true hL
  rw [Bang.at (doc' := pre ++ (G ++ (spaces (σ + w) ++ 0x2D :: (sp ++ X)))) (p' := pre.length + (G.length + (σ + w) + 1 + sp.length + o))
    (by simp) (by simp [spaces]; omega)] at hgo
  have hce : G ++ (spaces (σ + w) ++ 0x2D :: (sp ++ X)) = c' :: (g' ++ (spaces (σ + w) ++ 0x2D :: (sp ++ X))) := by
    rw [hGe]; rfl
  rw [scalar]
  refine scalarNode_stuck (by rw [hce]; exact noProps_of hc') ?_
  rw [Fails, hce, scalarBody_skip _ _ _ hc', ← hce]
  refine Fails.orElse (Fails.orElse ?_)
  rw [seq]
  refine Fails.bind ?_ _
  rw [seqLoop]
  refine .after (lift_of (forward_st ..)) (.after (a := false)
    (s' := ld L (st k1 pre (G ++ spaces (σ + w) ++ [0x2D] ++ sp) X)) ?_ ?_)
  · simp only [List.isEmpty_nil, if_true, List.append_nil]
    rw [bind_ok hfi, bind_ok (lift_of (sym_hit ..)), bind_ok (lift_of (bound_sep _ _ _ hsep))]
    rfl
  · simp only [Bool.false_eq_true, if_false]
    rw [seqGo] at hgo
    exact hgo

/-! ## Maps -/

/-- The entries of a map at the column `τ`, from one of the values. -/
def MapHole (τ : Nat) (X : Bytes) (name : String) (o : Nat) : Prop :=
  ∀ (k : Ctx) (level : Nat), k.want level = τ → k.want (level + 1) = τ + 2 → k.consumed = 0 →
    ∃ N, ∀ n i c, N ≤ n → N ≤ i → N ≤ c → ∀ L pre mid acc kn map, L.Ready →
      Fails (Bang (pre ++ (mid ++ X)) name (pre.length + mid.length + o)) (mapGo n level map i c acc kn) (ld L (st k pre mid X))

theorem mapHole_value {τ : Nat} {X : Bytes} {name : String} {o : Nat} (h : BadVal "map value" τ X name o) : MapHole τ X name o := by
  intro k level hw hw2 hk
  obtain ⟨N, hN⟩ := h k level hw hw2 hk
  refine ⟨N, fun n i c h1 h2 h3 L pre mid acc kn map hL => ?_⟩
  have := hN n h1 L (pre ++ mid) hL
  rw [Bang.at (doc' := pre ++ (mid ++ X)) (p' := pre.length + mid.length + o) (by simp) (by simp)] at this
  rw [mapGo]
  exact .after (lift_of (forward_st ..)) (this.bind _)

/-- A key and what is behind its colon. -/
theorem keyText_read {K : Bytes} {y : Yaml} (hK : KeyOK K y) {sp X : Bytes} (hsep : SepOK sp X) (k : Ctx) (level : Nat)
    (hw : 0 < k.want (level + 1)) :
    ∃ k', k'.at (level + 1) = k.at (level + 1) ∧ ∃ N, ∀ a n, N ≤ a → N ≤ n → ∀ L pre, L.Ready →
      scalarFlow (scalar a) n (level + 1) false (ld L (st k pre [] (K ++ 0x3A :: (sp ++ X)))) =
        (.ok (.mk (k.consumed + pre.length) [] y), ld L (st k' (pre ++ K) [] (0x3A :: (sp ++ X)))) := by
  obtain ⟨k', hk', N, hN⟩ := leafNode_read k hK.1.toE (level := level + 1)
    (E := 0x3A :: (sp ++ X)) hw (by simp) (.inl ⟨by simp, _, rfl, hsep.colonStop⟩)
  refine ⟨k', hk', N, fun a n ha hn L pre hL => ?_⟩
  have := hN a n ha hn L pre hL trivial
  rwa [show Known.none.eff (k.consumed + pre.length) (envOf L k) = L.cur from rfl, Loader.put_cur hL] at this

/-- What the loop of a map does with the value `v`, and in front of the next key. -/
theorem mapHole_next {τ : Nat} {v : Blk} (hv : v.wfV τ) (hdeep : v.deep τ) (hst : v.still) {G tl : Bytes} (hG : GapText G)
    (hfit : Fits v.kind (G ++ (spaces τ ++ tl))) (htl : KeyHead tl) (hmark : docMark tl = false) {name : String} {o : Nat}
    (h : ∀ (k : Ctx) (level : Nat), k.want level = τ → k.indent.length ≤ level + 1 → k.consumed = 0 →
      ∃ N, ∀ n i c, N ≤ n → N ≤ i → N ≤ c → ∀ L pre m map, L.Ready →
        Fails (Bang (pre ++ tl) name (pre.length + o)) (do
          let x ← (do
            let k ← (do
              if ← isOk (lift complexMapping) then complexKey (scalar n) level true false "map key"
              else orErr (scalarFlow (scalar n) i (level + 1) false) "map key")
            if ← colonBound then pure (.key k) else lerr "map splitter" : LM MapStep)
          match x with
          | .alone y => pure y
          | .stop => do
            lift backward
            collectMap m
          | .key kn => mapGo n level map i c m kn) (ld L (st k pre [] tl))) :
    MapHole τ (v.text ++ (G ++ (spaces τ ++ tl))) name (v.text.length + G.length + τ + o) := by
  intro k level hw hw2 hk
  have hstops : Stops τ true (G ++ (spaces τ ++ tl)) := by
    have := hG.stops_key (τ := τ) htl []; simpa using this
  obtain ⟨k1, hk1, _, N, hN⟩ := Blk.readV v level τ k (G ++ (spaces τ ++ tl)) hv hw hw2 hfit hstops (.inl hdeep)
  have hw1 : k1.want level = τ := (Ctx.want_of_at hk1).trans hw
  have hcon1 : k1.consumed = 0 := (Ctx.consumed_of_at hk1).trans hk
  obtain ⟨N2, hN2⟩ := h (k1.at level) level (by rw [Ctx.want_at, hw1]) (by simp) (by rw [Ctx.at_consumed, hcon1])
  refine ⟨N + N2 + 1, fun n i c h1 h2 h3 L pre mid acc kn map hL => ?_⟩
  obtain ⟨c, rfl⟩ : ∃ m, c = m + 1 := ⟨c - 1, by omega⟩
  rw [mapGo]
  refine .after (lift_of (forward_st ..)) ?_
  obtain ⟨-, heff, hfine⟩ := Blk.still_spec v hst (k.consumed + (pre ++ mid).length)
  have hx := hN n (by omega) L (pre ++ mid) hL (hfine _)
  rw [heff, show (envOf L k).anchors = L.cur from rfl, Loader.put_cur hL] at hx
  refine .after (orErr_ok hx) ?_
  have hgo := hN2 n i c (by omega) (by omega) (by omega) L (pre ++ mid ++ v.text ++ (G ++ spaces τ))
    (acc ++ [(kn, v.node (k.consumed + (pre ++ mid).length) (envOf L k))]) map hL
  rw [Bang.at (doc' := pre ++ (mid ++ (v.text ++ (G ++ (spaces τ ++ tl)))))
    (p' := pre.length + mid.length + (v.text.length + G.length + τ + o)) (by simp) (by simp [spaces]; omega)] at hgo
  obtain ⟨x, u, htle, hx1, _⟩ := htl
  have hni : nextItem level "map terminator" (ld L (st k1 (pre ++ mid ++ v.text) [] (G ++ (spaces τ ++ tl)))) =
      (.ok false, ld L (st (k1.at level) (pre ++ mid ++ v.text) (G ++ spaces τ) tl)) := by
    have := nextItem_more k1 L (pre ++ mid ++ v.text) hG hw1 hx1 (r := u) (docMark_spaces (by rw [← htle]; exact hmark)) "map terminator"
    rw [← htle] at this
    exact this
  rw [mapLoop, isEmpty_snoc]
  refine hgo.same ?_
  have hstep : ∀ sf, mapStep (scalar n) sf level map false false (ld L (st k1 (pre ++ mid ++ v.text) [] (G ++ (spaces τ ++ tl)))) =
      (do
        let k ← (do
          if ← isOk (lift complexMapping) then complexKey (scalar n) level true false "map key"
          else orErr sf "map key")
        if ← colonBound then pure (.key k) else lerr "map splitter" : LM MapStep)
        (ld L (st (k1.at level) (pre ++ mid ++ v.text ++ (G ++ spaces τ)) [] tl)) := by
    intro sf
    rw [mapStep, bind_ok (lift_of (forward_st ..))]
    simp only [Bool.false_eq_true, if_false, List.append_nil]
    rw [bind_ok hni]
    simp only [Bool.false_eq_true, if_false]
    rw [bind_ok (lift_of (forward_st ..))]
  rw [bind_run, hstep, bind_run]
  generalize ((do
        let k ← (do
          if ← isOk (lift complexMapping) then complexKey (scalar n) level true false "map key"
          else orErr (scalarFlow (scalar n) i (level + 1) false) "map key")
        if ← colonBound then pure (.key k) else lerr "map splitter" : LM MapStep)
        (ld L (st (k1.at level) (pre ++ mid ++ v.text ++ (G ++ spaces τ)) [] tl))) = x
  rcases x with ⟨o, l⟩
  cases o <;> rfl

/-- Reading a further key of a map. -/
def keyStep (n i level : Nat) : LM MapStep := do
  let k ← (do
    if ← isOk (lift complexMapping) then complexKey (scalar n) level true false "map key"
    else orErr (scalarFlow (scalar n) i (level + 1) false) "map key")
  if ← colonBound then pure (.key k) else lerr "map splitter"

/-- A further key, at the column `τ`, that cannot be read. -/
def BadKey (τ : Nat) (T : Bytes) (name : String) (o : Nat) : Prop :=
  KeyHead T ∧ docMark T = false ∧
  ∀ (k : Ctx) (level : Nat), k.want level = τ → k.indent.length ≤ level + 1 → k.consumed = 0 →
    ∃ N, ∀ n i, N ≤ n → N ≤ i → ∀ L pre, L.Ready →
      Fails (Bang (pre ++ T) name (pre.length + o)) (keyStep n i level) (ld L (st k pre [] T))

theorem mapHole_key {τ : Nat} {v : Blk} (hv : v.wfV τ) (hdeep : v.deep τ) (hst : v.still) {G T : Bytes} (hG : GapText G)
    (hfit : Fits v.kind (G ++ (spaces τ ++ T))) {name : String} {o : Nat} (h : BadKey τ T name o) :
    MapHole τ (v.text ++ (G ++ (spaces τ ++ T))) name (v.text.length + G.length + τ + o) := by
  refine mapHole_next hv hdeep hst hG hfit h.1 h.2.1 fun k level hw hlen hk => ?_
  obtain ⟨N, hN⟩ := h.2.2 k level hw hlen hk
  exact ⟨N, fun n i c h1 h2 h3 L pre m map hL => (hN n i h1 h2 L pre hL).bind _⟩

theorem keyHead_prop {T : Bytes} (h : ∃ c r, T = c :: r ∧ (c = 0x26 ∨ c = 0x21)) :
    KeyHead T ∧ docMark T = false ∧ ∀ r, T ≠ 0x3F :: r := by
  obtain ⟨c, r, rfl, rfl | rfl⟩ := h
  · exact ⟨⟨_, _, rfl, by decide, by simp⟩, by simp [docMark, List.isPrefixOf], by simp⟩
  · exact ⟨⟨_, _, rfl, by decide, by simp⟩, by simp [docMark, List.isPrefixOf], by simp⟩

theorem Loose.key {T : Bytes} {o : Nat} (h : Loose T o) (τ : Nat) : BadKey τ T "map key" o := by
  obtain ⟨h1, h2, h3⟩ := keyHead_prop h.head
  refine ⟨h1, h2, fun k level hw hlen hk => ⟨0, fun n i _ _ L pre hL => ?_⟩⟩
  rw [keyStep]
  refine Fails.bind (.after (isOk_err (lift_of (complexMapping_no' _ _ h3))) ?_) _
  simp only [Bool.false_eq_true, if_false]
  rw [scalarFlow]
  exact h.wrapped _ _ hk L pre

theorem TwoAnchors.key {T : Bytes} {o : Nat} (h : TwoAnchors T o) (τ : Nat) : BadKey τ T "duplicated anchor definition" o := by
  obtain ⟨h1, h2, h3⟩ := keyHead_prop h.head
  refine ⟨h1, h2, fun k level hw hlen hk => ⟨0, fun n i _ _ L pre hL => ?_⟩⟩
  rw [keyStep]
  refine Fails.bind (.after (isOk_err (lift_of (complexMapping_no' _ _ h3))) ?_) _
  simp only [Bool.false_eq_true, if_false]
  rw [scalarFlow]
  exact (h.node _ hk L pre).orErr _

theorem TermBad.key {T : Bytes} {name : String} {o : Nat} (h : TermBad T name o) (τ : Nat) : BadKey τ T name o := by
  have hleaf := h.leaf
  refine ⟨hleaf.keyHead, ?_, fun k level hw hlen hk => ?_⟩
  · obtain ⟨⟨r, rfl | rfl⟩, _⟩ := h <;> simp [docMark, List.isPrefixOf]
  obtain ⟨N, hN⟩ := h.2 k (level + 1) (by rw [Ctx.want_succ _ _ hlen]; omega) hk
  refine ⟨N, fun n i h1 h2 L pre hL => ?_⟩
  rw [keyStep]
  have hcm := complexMapping_no (E := []) k pre hleaf
  rw [List.append_nil] at hcm
  refine Fails.bind (.after (isOk_err (lift_of hcm)) ?_) _
  simp only [Bool.false_eq_true, if_false]
  rw [scalarFlow]
  refine Fails.orErr (scalarNode_stuck ?_ (hN n i i false (by omega) (by omega) (by omega) L pre hL)) _
  obtain ⟨c, r, hT, _, hc⟩ := hleaf.head
  rw [hT]; exact noProps_of hc

/-- Behind `?`. -/
theorem badKey_complex {τ : Nat} {X : Bytes} {name : String} {o : Nat} (h : BadVal "map key" τ X name o) {s : Bytes} (hs : SepOK s X) :
    BadKey τ (0x3F :: (s ++ X)) name (1 + s.length + o) := by
  refine ⟨⟨_, _, rfl, by decide, by simp⟩, by simp [docMark, List.isPrefixOf], fun k level hw hlen hk => ?_⟩
  obtain ⟨N, hN⟩ := h k level hw (by rw [Ctx.want_succ _ _ hlen, hw]) hk
  refine ⟨N, fun n i h1 h2 L pre hL => ?_⟩
  have := hN n h1 L (pre ++ 0x3F :: s) hL
  rw [Bang.at (doc' := pre ++ 0x3F :: (s ++ X)) (p' := pre.length + (1 + s.length + o)) (by simp) (by simp; omega)] at this
  rw [keyStep]
  refine Fails.bind (.after (isOk_ok (lift_of (complexMapping_yes k pre hs))) ?_) _
  simp only [if_true]
  rw [complexKey]
  exact .after (lift_of (forward_st ..)) (this.bind _)

/-- A key without a colon. -/
theorem badKey_splitter {κ : EndKind} {K : Bytes} {y : Nat → Env → Yaml} (hK : LeafOKE κ K y .none) {τ : Nat} (hκ : ∀ w, κ ≠ .fold w) {E : Bytes}
    {d : Bool} (hf : Fits κ E) (hs : Stops (τ + 1) d E) (hm : docMark (K ++ E) = false) : BadKey τ (K ++ E) "map splitter" K.length := by
  obtain ⟨c, u, hKe, hc1, hc2⟩ := hK.2.head
  refine ⟨?_, hm, fun k level hw hlen hk => ?_⟩
  · obtain ⟨c, r, rfl, h1, h3⟩ := hK.2.keyHead
    exact ⟨c, r ++ E, rfl, h1, fun h => by obtain ⟨x, s, rfl, hx⟩ := h3 h; exact ⟨x, s ++ E, rfl, hx⟩⟩
  have hw2 : k.want (level + 1) = τ + 2 := by rw [Ctx.want_succ _ _ hlen, hw]
  obtain ⟨k', hk', N, hN⟩ := leafNode_read k hK (level := level + 1) (E := E) (by omega) (fun w h => absurd h (hκ w))
    (LeafEnd.of_stops k hf hs (by omega))
  have hcon : k'.consumed = 0 := (Ctx.consumed_of_at hk').trans hk
  refine ⟨N, fun n i h1 h2 L pre hL => ?_⟩
  have hr := hN n i h1 h2 L pre hL trivial
  rw [show Known.none.eff (k.consumed + pre.length) (envOf L k) = L.cur from rfl, Loader.put_cur hL] at hr
  rw [keyStep]
  refine .after (s' := ld L (st k' (pre ++ K) [] E)) (a := .mk (k.consumed + pre.length) [] (y (k.consumed + pre.length) (envOf L k))) ?_ ?_
  · rw [bind_ok (isOk_err (lift_of (complexMapping_no k pre hK.2)))]
    simp only [Bool.false_eq_true, if_false]
    exact orErr_ok hr
  refine .after (a := false) (s' := ld L (st k' (pre ++ K) [] E)) ?_ ?_
  · rw [colonBound, bind_ok (isOk_err (lift_of (Stops.colon _ _ hs)))]; rfl
  simp only [Bool.false_eq_true, if_false]
  have := lerr_stuck (α := MapStep) hcon "map splitter" L (pre ++ K) [] E
  rw [Bang.at (doc' := pre ++ K ++ ([] ++ E)) (p' := (pre ++ K).length + ([] : Bytes).length) (by simp) (by simp)]
  exact this

theorem mapHole_cons {τ : Nat} {X : Bytes} {name : String} {o : Nat} (h : MapHole τ X name o) {v : Blk} (hv : v.wfV τ) (hdeep : v.deep τ)
    (hst : v.still) {G K sp : Bytes} {y : Yaml} (hG : GapText G) (hK : KeyOK K y)
    (hfit : ∀ r, Fits v.kind (G ++ (spaces τ ++ (K ++ r)))) (hsep : SepOK sp X) :
    MapHole τ (v.text ++ (G ++ (spaces τ ++ (K ++ 0x3A :: (sp ++ X))))) name
      (v.text.length + G.length + τ + (K.length + 1 + sp.length + o)) := by
  have hkh : KeyHead (K ++ 0x3A :: (sp ++ X)) := by
    obtain ⟨c, r, rfl, h1, h3⟩ := hK.1.2.keyHead
    exact ⟨c, _, rfl, h1, fun h => by obtain ⟨x, s, rfl, hx⟩ := h3 h; exact ⟨x, _, rfl, hx⟩⟩
  refine mapHole_next hv hdeep hst hG (hfit _) hkh (docMark_key hK.2 _) fun k level hw hlen hk => ?_
  obtain ⟨k2, hk2, N1, hN1⟩ := keyText_read hK hsep k level (by rw [Ctx.want_succ _ _ hlen]; omega)
  have hk2at : k2.at level = k.at level := Ctx.at_of_at hk2 (Nat.le_succ level)
  obtain ⟨N, hN⟩ := h k2 level ((Ctx.want_of_at hk2at).trans hw) (by rw [Ctx.want_of_at hk2, Ctx.want_succ _ _ hlen, hw])
    ((Ctx.consumed_of_at hk2at).trans hk)
  refine ⟨N + N1, fun n i c h1 h2 h3 L pre m map hL => ?_⟩
  have hgo := fun kn => hN n i c (by omega) (by omega) (by omega) L (pre ++ K) (0x3A :: sp) m kn map hL
  rw [Bang.at (doc' := pre ++ (K ++ 0x3A :: (sp ++ X))) (p' := pre.length + (K.length + 1 + sp.length + o)) (by simp) (by simp; omega)] at hgo
  refine .after (a := MapStep.key (.mk (k.consumed + pre.length) [] y)) (s' := ld L (st k2 (pre ++ K) (0x3A :: sp) X)) ?_ (hgo _)
  rw [bind_ok (a := Node.mk (k.consumed + pre.length) [] y) (s' := ld L (st k2 (pre ++ K) [] (0x3A :: (sp ++ X))))]
  · rw [bind_ok (colonBound_yes _ _ _ hsep)]; rfl
  · rw [bind_ok (isOk_err (lift_of (complexMapping_no k pre hK.1.2)))]
    simp only [Bool.false_eq_true, if_false]
    exact orErr_ok (hN1 n i (by omega) (by omega) L pre hL)

theorem KeyOK.keyHead {K : Bytes} {y : Yaml} (h : KeyOK K y) : KeyHead K := h.1.2.keyHead

theorem badN_map {σ : Nat} {X : Bytes} {name : String} {o : Nat} (h : MapHole σ X name o) {lead K sp : Bytes} {y : Yaml} (hl : LeadOK σ lead)
    (hK : KeyOK K y) (hsep : SepOK sp X) :
    BadN σ (lead ++ (K ++ 0x3A :: (sp ++ X))) name (lead.length + K.length + 1 + sp.length + o) := by
  intro k q hw hlen hk
  generalize hk1 : (if lead = [] then k else k.at q) = k1
  have hk1at : k1.at q = k.at q := by subst hk1; split <;> simp
  have hlen1 : k1.indent.length ≤ q + 1 := by
    subst hk1; split
    · exact hlen
    · simp
  have hw1 : k1.want q = σ := by rw [Ctx.want_of_at hk1at, hw]
  have hcon : k1.consumed = 0 := (Ctx.consumed_of_at hk1at).trans hk
  obtain ⟨k2, hk2, N1, hN1⟩ := keyText_read hK hsep k1 q (by rw [Ctx.want_succ _ _ hlen1]; omega)
  have hk2at : k2.at q = k1.at q := Ctx.at_of_at hk2 (Nat.le_succ _)
  obtain ⟨N, hN⟩ := h k2 q ((Ctx.want_of_at hk2at).trans hw1) (by rw [Ctx.want_of_at hk2, Ctx.want_succ _ _ hlen1, hw1])
    ((Ctx.consumed_of_at hk2at).trans hcon)
  refine ⟨N + N1 + 3, fun n hn L pre hL => ?_⟩
  obtain ⟨a, rfl⟩ : ∃ a, n = a + 2 := ⟨n - 2, by omega⟩
  obtain ⟨c, u, hTe, h1, h2⟩ := hK.1.2.head
  obtain ⟨c', r', hce, hc'⟩ := hl.head (r := u ++ 0x3A :: (sp ++ X)) h2
  have hce' : lead ++ (K ++ 0x3A :: (sp ++ X)) = c' :: r' := by rw [hTe]; simpa using hce
  have hfi : ∀ pre, firstItem q false (ld L (st k1 pre [] (lead ++ (K ++ 0x3A :: (sp ++ X))))) =
      (.ok (), ld L (st k1 pre lead (K ++ 0x3A :: (sp ++ X)))) := by
    intro pre
    rcases hl with rfl | ⟨G, hG, rfl⟩
    · rw [hTe]
      exact firstItem_inline _ _ _ _ h1 q
    · obtain ⟨x, s, rfl, hx⟩ := hG.head
      have := firstItem_gap k1 L pre [] hG hw1 (r := u ++ 0x3A :: (sp ++ X)) h1
      have e : k1.at q = k1 := by subst hk1; simp
      rw [e] at this
      rw [hTe]
      simpa using this
  have hgo := fun kn => hN (a + 1) (a + 1) a (by omega) (by omega) (by omega) L (pre ++ lead ++ K) (0x3A :: sp) [] kn false hL
  rw [Bang.at (doc' := pre ++ (lead ++ (K ++ 0x3A :: (sp ++ X)))) (p' := pre.length + (lead.length + K.length + 1 + sp.length + o))
    (by simp) (by simp; omega)] at hgo
  rw [scalar]
  refine scalarNode_stuck (by rw [hce']; exact noProps_of hc') ?_
  rw [Fails, hce', scalarBody_skip _ _ _ hc', ← hce']
  have hsn : seq (scalar (a + 1)) (a + 1) q false (ld L (st k pre [] (lead ++ (K ++ 0x3A :: (sp ++ X))))) =
      (.err .mismatch, ld L (st k1 pre [] (lead ++ (K ++ 0x3A :: (sp ++ X))))) := by
    rw [← hk1]; exact seq_no _ _ _ hK.keyHead hl hw _ _
  refine Fails.orElse (Fails.else hsn ?_)
  rw [YamlPeg.map, mapLoop]
  refine .after (a := MapStep.key (.mk (k1.consumed + (pre ++ lead).length) [] y))
    (s' := ld L (st k2 (pre ++ lead ++ K) (0x3A :: sp) X)) ?_ ?_
  · rw [mapStep, bind_ok (lift_of (forward_st ..))]
    simp only [List.isEmpty_nil, if_true, List.append_nil]
    have hkey : (do
        if ← isOk (lift complexMapping) then complexKey (scalar (a + 1)) q true false "map key"
        else scalarFlow (scalar (a + 1)) (a + 1) (q + 1) false : LM Node)
        (ld L (st k1 (pre ++ lead) [] (K ++ 0x3A :: (sp ++ X)))) =
        (.ok (.mk (k1.consumed + (pre ++ lead).length) [] y), ld L (st k2 (pre ++ lead ++ K) [] (0x3A :: (sp ++ X)))) := by
      rw [bind_ok (isOk_err (lift_of (complexMapping_no _ _ hK.1.2)))]
      simp only [Bool.false_eq_true, if_false]
      exact hN1 (a + 1) (a + 1) (by omega) (by omega) L (pre ++ lead) hL
    rw [bind_ok (hfi _), bind_ok (lift_of (forward_st ..)), bind_ok hkey]
    rw [bind_ok (colonBound_yes _ _ _ hsep)]
    rfl
  · simp only
    have := hgo (.mk (k1.consumed + (pre ++ lead).length) [] y)
    rw [mapGo] at this
    exact this

/-- `seq` does not match a value that begins with a key. -/
theorem seqV_no {T E G : Bytes} (hT : KeyHead T) (hG : GapText G) {p σ w : Nat} {k : Ctx} (hw : k.want p = σ) (L : Loader) (pre : Bytes)
    (sc : ScalarCall) (n : Nat) :
    seq sc (n + 1) (p + 1) true (ld L (st k pre [] (G ++ (spaces (σ + w) ++ (T ++ E))))) =
      (.err .mismatch, ld L (st (k.push p w) pre [] (G ++ (spaces (σ + w) ++ (T ++ E))))) := by
  obtain ⟨c, r, rfl, h1, h3⟩ := hT
  have hfi : firstItem (p + 1) true (ld L (st k pre [] (G ++ (spaces (σ + w) ++ (c :: r ++ E))))) =
      (.ok (), ld L (st (k.push p w) pre (G ++ spaces (σ + w)) (c :: r ++ E))) := by
    have := firstItem_value k L pre [] hG (p := p) (w := w) (c := c) (r := r ++ E) h1
    rw [hw] at this
    simpa using this
  rw [seq, bind_err]
  rw [seqLoop, bind_ok (lift_of (forward_st ..)), bind_err]
  simp only [List.isEmpty_nil, if_true, List.append_nil]
  rw [bind_ok hfi]
  have hdash : ∃ c' r', c :: r ++ E = c' :: r' ∧ (c' = 0x2D → headIn b!":{}[] ,\n\r" r' = false) := by
    refine ⟨c, r ++ E, rfl, fun hc => ?_⟩
    obtain ⟨x, s, rfl, hx⟩ := h3 hc
    simp only [List.cons_append, headIn]
    simpa using hx
  rcases dash_no (k.push p w) pre (G ++ spaces (σ + w)) hdash with ⟨s, hs, rfl⟩ | ⟨r', hr, hs, hb⟩
  · rw [bind_err (lift_of hs), List.append_assoc]
  · rw [bind_ok (lift_of hs), bind_err (lift_of hb), List.append_assoc]

theorem badV_map {σ w : Nat} {X : Bytes} {name : String} {o : Nat} (h : MapHole (σ + w) X name o) {G K sp : Bytes} {y : Yaml} (hG : GapText G)
    (hK : KeyOK K y) (hsep : SepOK sp X) :
    BadV σ (G ++ (spaces (σ + w) ++ (K ++ 0x3A :: (sp ++ X)))) name (G.length + (σ + w) + K.length + 1 + sp.length + o) := by
  intro k p hw hw2 hk
  generalize hk1 : k.push p w = k1
  have hk1at : k1.at p = k.at p := by subst hk1; exact Ctx.push_at ..
  have hlen1 : k1.indent.length ≤ (p + 1) + 1 := by subst hk1; simp
  have hw1 : k1.want (p + 1) = σ + w := by subst hk1; rw [Ctx.push_want, hw]
  have hk1w : k1.want p = σ := by rw [Ctx.want_of_at hk1at, hw]
  have hcon : k1.consumed = 0 := (Ctx.consumed_of_at hk1at).trans hk
  obtain ⟨k2, hk2, N1, hN1⟩ := keyText_read hK hsep k1 (p + 1) (by rw [Ctx.want_succ _ _ hlen1]; omega)
  have hk2at : k2.at (p + 1) = k1.at (p + 1) := Ctx.at_of_at hk2 (Nat.le_succ _)
  obtain ⟨N, hN⟩ := h k2 (p + 1) ((Ctx.want_of_at hk2at).trans hw1) (by rw [Ctx.want_of_at hk2, Ctx.want_succ _ _ hlen1, hw1])
    ((Ctx.consumed_of_at hk2at).trans hcon)
  refine ⟨N + N1 + 3, fun n hn L pre hL => ?_⟩
  obtain ⟨a, rfl⟩ : ∃ a, n = a + 2 := ⟨n - 2, by omega⟩
  generalize hτ : σ + w = τ at *
  generalize htl : K ++ 0x3A :: (sp ++ X) = tl at *
  obtain ⟨c, u, hTe, h1, h2⟩ := hK.1.2.head
  obtain ⟨c', g', hGe, hc'⟩ := hG.head
  have hc' := plainHead_of_not_tok hc'
  have hce : G ++ (spaces τ ++ tl) = c' :: (g' ++ (spaces τ ++ tl)) := by rw [hGe]; rfl
  have htle : tl = c :: (u ++ 0x3A :: (sp ++ X)) := by rw [← htl, hTe]; rfl
  have hfi : ∀ pre, firstItem (p + 1) true (ld L (st k1 pre [] (G ++ (spaces τ ++ tl)))) =
      (.ok (), ld L (st k1 pre (G ++ spaces τ) tl)) := by
    intro pre
    have := firstItem_value k1 L pre [] hG (p := p) (w := w) (c := c) (r := u ++ 0x3A :: (sp ++ X)) h1
    rw [hk1w, show k1.push p w = k1 by subst hk1; simp, hτ] at this
    rw [htle]
    simpa using this
  have hseq : seq (scalar (a + 1)) (a + 1) (p + 1) true (ld L (st k pre [] (G ++ (spaces τ ++ tl)))) =
      (.err .mismatch, ld L (st k1 pre [] (G ++ (spaces τ ++ tl)))) := by
    rw [← htl, ← hτ, ← hk1]; exact seqV_no hK.keyHead hG hw L pre _ _
  have hgo := fun kn => hN (a + 1) (a + 1) a (by omega) (by omega) (by omega) L (pre ++ (G ++ spaces τ) ++ K) (0x3A :: sp) [] kn true hL
  rw [Bang.at (doc' := pre ++ (G ++ (spaces τ ++ tl))) (p' := pre.length + (G.length + τ + K.length + 1 + sp.length + o))
    (by rw [← htl]; simp) (by simp [spaces]; omega)] at hgo
  rw [scalar]
  refine scalarNode_stuck (by rw [hce]; exact noProps_of hc') ?_
  rw [Fails, hce, scalarBody_skip _ _ _ hc', ← hce]
  refine Fails.orElse (Fails.else hseq ?_)
  rw [YamlPeg.map, mapLoop]
  refine .after (a := MapStep.key (.mk (k1.consumed + (pre ++ (G ++ spaces τ)).length) [] y))
    (s' := ld L (st k2 (pre ++ (G ++ spaces τ) ++ K) (0x3A :: sp) X)) ?_ ?_
  · rw [mapStep, bind_ok (lift_of (forward_st ..))]
    simp only [List.isEmpty_nil, if_true, List.append_nil]
    have hkey : (do
        if ← isOk (lift complexMapping) then complexKey (scalar (a + 1)) (p + 1) true false "map key"
        else scalarFlow (scalar (a + 1)) (a + 1) (p + 1 + 1) false : LM Node)
        (ld L (st k1 (pre ++ (G ++ spaces τ)) [] tl)) =
        (.ok (.mk (k1.consumed + (pre ++ (G ++ spaces τ)).length) [] y),
          ld L (st k2 (pre ++ (G ++ spaces τ) ++ K) [] (0x3A :: (sp ++ X)))) := by
      rw [bind_ok (isOk_err (lift_of (by rw [← htl]; exact complexMapping_no _ _ hK.1.2)))]
      simp only [Bool.false_eq_true, if_false]
      have := hN1 (a + 1) (a + 1) (by omega) (by omega) L (pre ++ (G ++ spaces τ)) hL
      rwa [htl]
    rw [bind_ok (hfi _), bind_ok (lift_of (forward_st ..)), bind_ok hkey]
    rw [bind_ok (colonBound_yes _ _ _ hsep)]
    rfl
  · simp only
    have := hgo (.mk (k1.consumed + (pre ++ (G ++ spaces τ)).length) [] y)
    rw [mapGo] at this
    exact this

/-- The first key, behind `?`. -/
theorem badN_complex {σ : Nat} {X : Bytes} {name : String} {o : Nat} (h : BadVal "map key" σ X name o) {lead s : Bytes} (hl : LeadOK σ lead)
    (hs : SepOK s X) : BadN σ (lead ++ 0x3F :: (s ++ X)) name (lead.length + 1 + s.length + o) := by
  intro k q hw hlen hk
  generalize hk1 : (if lead = [] then k else k.at q) = k1
  have hk1at : k1.at q = k.at q := by subst hk1; split <;> simp
  have hlen1 : k1.indent.length ≤ q + 1 := by
    subst hk1; split
    · exact hlen
    · simp
  have hw1 : k1.want q = σ := by rw [Ctx.want_of_at hk1at, hw]
  have hcon : k1.consumed = 0 := (Ctx.consumed_of_at hk1at).trans hk
  obtain ⟨N, hN⟩ := h k1 q hw1 (by rw [Ctx.want_succ _ _ hlen1, hw1]) hcon
  refine ⟨N + 3, fun n hn L pre hL => ?_⟩
  obtain ⟨a, rfl⟩ : ∃ a, n = a + 2 := ⟨n - 2, by omega⟩
  have hkh : KeyHead (0x3F :: (s ++ X)) := ⟨_, _, rfl, by decide, by simp⟩
  obtain ⟨c', r', hce, hc'⟩ := hl.head (c := 0x3F) (r := s ++ X) (by simp [plainHead])
  have hfi : ∀ pre, firstItem q false (ld L (st k1 pre [] (lead ++ 0x3F :: (s ++ X)))) =
      (.ok (), ld L (st k1 pre lead (0x3F :: (s ++ X)))) := by
    intro pre
    rcases hl with rfl | ⟨G, hG, rfl⟩
    · exact firstItem_inline _ _ _ _ (by decide) q
    · obtain ⟨x, t, rfl, hx⟩ := hG.head
      have := firstItem_gap k1 L pre [] hG hw1 (c := 0x3F) (r := s ++ X) (by decide)
      have e : k1.at q = k1 := by subst hk1; simp
      rw [e] at this
      simpa using this
  have hgo := hN (a + 1) (by omega) L (pre ++ lead ++ 0x3F :: s) hL
  rw [Bang.at (doc' := pre ++ (lead ++ 0x3F :: (s ++ X))) (p' := pre.length + (lead.length + 1 + s.length + o))
    (by simp) (by simp; omega)] at hgo
  rw [scalar]
  refine scalarNode_stuck (by rw [hce]; exact noProps_of hc') ?_
  rw [Fails, hce, scalarBody_skip _ _ _ hc', ← hce]
  have hsn : seq (scalar (a + 1)) (a + 1) q false (ld L (st k pre [] (lead ++ 0x3F :: (s ++ X)))) =
      (.err .mismatch, ld L (st k1 pre [] (lead ++ 0x3F :: (s ++ X)))) := by
    have := seq_no k L pre (E := []) hkh hl hw (scalar (a + 1)) a
    rw [← hk1]; simpa using this
  refine Fails.orElse (Fails.else hsn ?_)
  rw [YamlPeg.map, mapLoop]
  refine Fails.bind ?_ _
  rw [mapStep]
  refine .after (lift_of (forward_st ..)) ?_
  simp only [List.isEmpty_nil, if_true, List.append_nil]
  refine .after (hfi _) (.after (lift_of (forward_st ..)) (Fails.bind ?_ _))
  refine .after (isOk_ok (lift_of (complexMapping_yes k1 _ hs))) ?_
  simp only [if_true]
  rw [complexKey]
  refine .after (lift_of (forward_st ..)) (Fails.bind ?_ _)
  simpa using hgo

end YamlPeg
