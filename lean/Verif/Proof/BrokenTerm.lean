import Verif.Proof.BrokenBlock
/-! # Texts that cannot be read: junk behind a value -/

namespace YamlPeg
open M

/-- A text that is read to its end whatever follows of the form `P`. -/
def Whole (P : Bytes → Prop) (T : Bytes) : Prop :=
  LeafText T ∧ ∀ (k : Ctx) (level : Nat) (flow : Bool) (E : Bytes), 0 < k.want level → P E →
    ∃ k', k'.at level = k.at level ∧ ∃ N, ∀ a n d, N ≤ a → N ≤ n → N ≤ d → ∀ L pre, L.Ready →
      ∃ y p' m', p' ++ m' = pre ++ T ∧
        scalarTerm (scalar a) n d level flow (ld L (st k pre [] (T ++ E))) = (.ok y, ld L (st k' p' m' E))

theorem whole_flow {P : Bytes → Prop} {f : Flow} (hf : f.wf []) (hst : f.known.still) (ha : f.isAtom = false) :
    Whole P f.text := by
  have hco := Flow.core_of_coll ha
  have h1 := Flow.first hf
  rw [hco] at h1
  refine ⟨h1, fun k level flow E hw hE => ?_⟩
  obtain ⟨k', u, w, hs, hk', N, hN⟩ := Flow.read f [] k level flow E hf hw (by simp [hco, ha])
  obtain ⟨rfl, rfl⟩ := List.append_eq_nil_iff.1 hs.symm
  refine ⟨k', hk', N, fun a n d ha hn hd L pre hL => ?_⟩
  rw [hco] at hN
  obtain ⟨p', m', h1, h2⟩ := hN a n d ha hn hd L pre hL (hst.1 _ _)
  rw [show f.eff (k.consumed + pre.length) (envOf L k) = L.cur from hst.2 _ _, Loader.put_cur hL] at h2
  exact ⟨_, p', m', by simpa using h1, by simpa using h2⟩

/-- A quoted string, whatever follows it. -/
theorem ScalarText.quotedAny {κ : EndKind} {T : Bytes} {y : Yaml} (h : ScalarText κ T y) (hq : Quoted T) :
    ∃ N, ∀ n, N ≤ n → ∀ (E : Bytes) (k : Ctx) (L : Loader) (pre : Bytes) (level : Nat) (flow : Bool), (∀ r, E ≠ 0x27 :: r) →
      scalarAtom n level flow (ld L (st k pre [] (T ++ E))) = (.ok (some y), ld L (st k pre T E)) := by
  have dig : ∀ {sg d E : Bytes}, IsSign sg → IsDigits d → ¬Quoted (sg ++ d ++ E) := by
    rintro sg d E hsg hd ⟨r, h⟩
    obtain ⟨x, d', rfl⟩ := List.exists_cons_of_ne_nil hd.1
    have hx := hd.2 x (by simp)
    rcases hsg with rfl | rfl
    · rcases h with h | h <;> (simp at h; rw [h.1] at hx; revert hx; decide)
    · simp at h
  cases h with
  | plain hT hk => exact absurd hq hT.notQuoted
  | keyword hk => exact absurd hq (keyword_notQuoted hk)
  | int hsg hd => exact absurd (by simpa using hq) (dig (E := []) hsg hd)
  | hex hne hd => obtain ⟨r, h⟩ := hq; simp at h
  | oct hne hd => obtain ⟨r, h⟩ := hq; simp at h
  | float hsg hd hf => exact absurd hq (dig hsg hd)
  | @sci sg d es ed e hsg hd he hes hed =>
    exact absurd (by simpa only [List.append_assoc, List.cons_append] using hq) (dig (E := e :: es ++ ed) hsg hd)
  | @single s hu hs =>
    exact ⟨s.length + 1, fun n hn E k L pre level flow hE => scalarAtom_single _ _ _ hE hu hs (by omega) level flow⟩
  | @double s hu hl =>
    exact ⟨2 * s.length + 1, fun n hn E k L pre level flow hE => scalarAtom_double _ _ _ hu hl (by omega) level flow⟩
  | @singleFold nl s r hnl hu hs hr hrs =>
    exact ⟨singleLen s r + 1, fun n hn E k L pre level flow hE =>
      scalarAtom_singleFolded _ _ _ hnl hE hu hs hr hrs (by omega) level flow⟩
  | @doubleFold nl s r hnl hu hs hr hrs =>
    exact ⟨doubleLen s r + 1, fun n hn E k L pre level flow hE =>
      scalarAtom_doubleFolded _ _ _ hnl hu hs hr hrs (by omega) level flow⟩

theorem whole_quoted {κ : EndKind} {T : Bytes} {y : Yaml} (hκ : ScalarText κ T y) (hq : Quoted T) :
    Whole (fun E => ∀ r, E ≠ 0x27 :: r) T := by
  refine ⟨hκ.leaf.2, fun k level flow E hw hE => ?_⟩
  obtain ⟨N, hN⟩ := hκ.quotedAny hq
  refine ⟨k, rfl, N + 1, fun a n d ha hn hd L pre hL => ?_⟩
  obtain ⟨d, rfl⟩ : ∃ i, d = i + 1 := ⟨d - 1, by omega⟩
  exact ⟨y, pre, T, rfl, scalarTerm_atom _ (hN n (by omega) E k L pre level flow hE)⟩

/-- What may not follow a value: not a line break, a comment, the end, a mark or a colon. -/
structure Junk (E : Bytes) : Prop where
  colon : ∀ r, E ≠ 0x3A :: r
  quote : ∀ r, E ≠ 0x27 :: r
  gap : gapSpec true E = none
  lead : gapLead true E = ([], E)
  ne : E.isEmpty = false
  mark : docMark E = false

theorem junk_of {sp : Bytes} {c : UInt8} {r : Bytes} (hsp : ∀ x ∈ sp, isBlank x = true) (hc : tokHead c = true)
    (h0 : sp = [] → c ≠ 0x3A ∧ c ≠ 0x27 ∧ docMark (c :: r) = false) : Junk (sp ++ c :: r) := by
  have hcb : isBlank c = false := tokHead_blank hc
  have hc23 : c ≠ 0x23 := by rintro rfl; simp [tokHead] at hc
  have hlead : gapLead true (sp ++ c :: r) = ([], sp ++ c :: r) := by
    have : (sp ++ c :: r).dropWhile isBlank = c :: r := by
      rw [List.dropWhile_append_of_pos hsp, List.dropWhile_cons_of_neg (by simp [hcb])]
    simp only [gapLead, if_true, cmtSkip, this]
    split
    · rename_i h; simp only [List.cons.injEq] at h; exact absurd h.1 hc23
    · rfl
  have hnl : nlLen (sp ++ c :: r) = 0 := by
    rw [nlLen_zero_iff]
    intro d t h
    cases sp with
    | nil =>
      simp only [List.nil_append, List.cons.injEq] at h
      rw [← h.1]
      exact ⟨by rintro rfl; simp [tokHead, isAsciiWs] at hc, by rintro rfl; simp [tokHead, isAsciiWs] at hc⟩
    | cons x sp =>
      simp only [List.cons_append, List.cons.injEq] at h
      have := hsp x (by simp)
      rw [h.1] at this
      exact ⟨by rintro rfl; exact absurd this (by decide), by rintro rfl; exact absurd this (by decide)⟩
  refine ⟨?_, ?_, ?_, hlead, by simp, ?_⟩
  · rintro q h
    cases sp with
    | nil => simp only [List.nil_append, List.cons.injEq] at h; exact (h0 rfl).1 h.1
    | cons x sp =>
      simp only [List.cons_append, List.cons.injEq] at h
      have := hsp x (by simp); rw [h.1] at this; exact absurd this (by decide)
  · rintro q h
    cases sp with
    | nil => simp only [List.nil_append, List.cons.injEq] at h; exact (h0 rfl).2.1 h.1
    | cons x sp =>
      simp only [List.cons_append, List.cons.injEq] at h
      have := hsp x (by simp); rw [h.1] at this; exact absurd this (by decide)
  · simp only [gapSpec, hlead, hnl, if_true]
  · cases sp with
    | nil => exact (h0 rfl).2.2
    | cons x sp =>
      have := hsp x (by simp)
      cases hm : docMark (x :: sp ++ c :: r) with
      | false => rfl
      | true =>
        obtain ⟨d, t, he, hd⟩ := docMark_head hm
        simp only [List.cons_append, List.cons.injEq] at he
        rw [he.1] at this
        rcases hd with rfl | rfl <;> exact absurd this (by decide)

theorem Junk.sym {E : Bytes} (h : Junk E) (k : Ctx) (pre : Bytes) :
    sym 0x3A (st k pre [] E) = (.err .mismatch, st k pre [] E) := by
  cases E with
  | nil => simp
  | cons c r =>
    rw [sym_miss]
    · simp
    · rintro rfl; exact h.colon r rfl

theorem Junk.gapNo {E : Bytes} (h : Junk E) (k : Ctx) (pre mid : Bytes) :
    YamlPeg.gap true (st k pre mid E) = (.err .mismatch, st k pre mid E) := by
  rw [gap_eq, h.gap, h.lead]; simp

theorem Junk.next {E : Bytes} (h : Junk E) (level : Nat) (name : String) {k : Ctx} (hk : k.consumed = 0) (L : Loader) (pre : Bytes) :
    Fails (Bang (pre ++ E) name pre.length) (nextItem level name) (ld L (st k pre [] E)) := by
  rw [nextItem]
  refine .after (isOk_err (lift_of (h.gapNo ..))) ?_
  simp only [Bool.false_eq_true, if_false]
  refine .after (a := true) (s' := ld L (st k pre [] E)) ?_ ?_
  · rw [bind_ok (docEnd_eq ..), h.ne, h.mark]; rfl
  · simp only [if_true]
    have := lerr_stuck (α := Bool) hk name L pre [] E
    unfold Bang
    simpa using this

/-- A leaf as the root or an item, in front of something else than a colon. -/
theorem whole_node {P : Bytes → Prop} {lead T : Bytes} (hT : Whole P T) {q σ : Nat} {k : Ctx}
    (hl : LeadOK σ lead) (hw : k.want q = σ) (hlen : k.indent.length ≤ q + 1) {E : Bytes} (hP : P E) (hE : ∀ r, E ≠ 0x3A :: r) :
    ∃ k', k'.at q = k.at q ∧ ∃ N, ∀ n, N ≤ n → ∀ L pre, L.Ready → ∃ nd,
      scalar n q false false (ld L (st k pre [] (lead ++ T ++ E))) = (.ok nd, ld L (st k' (pre ++ (lead ++ T)) [] E)) := by
  generalize hk1 : (if lead = [] then k else k.at q) = k1
  have hk1at : k1.at q = k.at q := by subst hk1; split <;> simp
  have hw1 : k1.want q = σ := by rw [Ctx.want_of_at hk1at, hw]
  have hw2 : 0 < k1.want (q + 1) := by
    have hlen1 : k1.indent.length ≤ q + 1 := by
      subst hk1; split
      · exact hlen
      · simp
    rw [Ctx.want_succ _ _ hlen1]; omega
  obtain ⟨k', hk', N, hN⟩ := hT.2 k1 (q + 1) false E hw2 hP
  refine ⟨k', (Ctx.at_of_at hk' (Nat.le_succ q)).trans hk1at, N + 3, fun n hn L pre hL => ?_⟩
  obtain ⟨a, rfl⟩ : ∃ a, n = a + 2 := ⟨n - 2, by omega⟩
  obtain ⟨y, p', m', hpm, he⟩ := hN (a + 1) (a + 1) (a + 1) (by omega) (by omega) (by omega) L (pre ++ lead) hL
  obtain ⟨c, r, hTe, h1, h2⟩ := hT.1.head
  have hp : noProps (T ++ E) = true := by subst hTe; exact noProps_of h2
  obtain ⟨c', r', hce, hc'⟩ := hl.head (r := r ++ E) h2
  have htxt : lead ++ (T ++ E) = c' :: r' := by rw [hTe]; simpa using hce
  have hfi : ∀ pre, firstItem q false (ld L (st k1 pre [] (lead ++ (T ++ E)))) =
      (.ok (), ld L (st k1 pre lead (T ++ E))) := by
    intro pre
    rcases hl with rfl | ⟨G, hG, rfl⟩
    · subst hTe
      exact firstItem_inline _ _ _ _ h1 q
    · obtain ⟨x, s, rfl, hx⟩ := hG.head
      have := firstItem_gap k1 L pre [] hG hw1 (r := r ++ E) h1
      have e : k1.at q = k1 := by
        subst hk1; simp
      rw [e] at this
      subst hTe
      simpa using this
  have hmap : YamlPeg.map (scalar (a + 1)) (a + 1) q false false (ld L (st k1 pre [] (lead ++ (T ++ E)))) =
      (.ok y, ld L (st k' (pre ++ lead ++ T) [] E)) := by
    rw [YamlPeg.map, mapLoop, bind_ok (a := MapStep.alone y) (s' := ld L (st k' (pre ++ lead ++ T) [] E))]
    · rfl
    · rw [mapStep, bind_ok (lift_of (forward_st ..))]
      simp only [List.isEmpty_nil, if_true, List.append_nil]
      have hkey : (do
          if ← isOk (lift complexMapping) then complexKey (scalar (a + 1)) q true false "map key"
          else scalarFlow (scalar (a + 1)) (a + 1) (q + 1) false : LM Node)
          (ld L (st k1 (pre ++ lead) [] (T ++ E))) =
          (.ok (.mk (k1.consumed + (pre ++ lead).length) [] y), ld L (st k' (pre ++ lead ++ T) [] E)) := by
        rw [bind_ok (isOk_err (lift_of (complexMapping_no _ _ hT.1)))]
        simp only [Bool.false_eq_true, if_false]
        rw [scalarFlow, scalarNode_ok _ _ _ _ hp he, hpm]
      rw [bind_ok (hfi _), bind_ok (lift_of (forward_st ..)), bind_ok hkey]
      · rw [bind_ok (a := false) (s' := ld L (st k' (pre ++ lead ++ T) [] E))]
        · rfl
        · have hs : sym 0x3A (st k' (pre ++ lead ++ T) [] E) = (.err .mismatch, st k' (pre ++ lead ++ T) [] E) := by
            cases E with
            | nil => simp
            | cons c r =>
              rw [sym_miss]
              · simp
              · rintro rfl; exact hE r rfl
          rw [colonBound, bind_ok (isOk_err (lift_of hs))]
          rfl
  refine ⟨.mk (k.consumed + pre.length) [] y, ?_⟩
  rw [scalar, List.append_assoc]
  rw [scalarNode_ok (y := y) (k' := k') (L' := L) (p' := pre ++ lead ++ T) (m' := []) (post' := E)]
  · simp
  · rw [htxt]; exact noProps_of hc'
  · rw [htxt, scalarBody_skip _ _ _ hc', ← htxt, orElse_ok]
    rw [orElse_mismatch (seq_no _ _ _ hT.1.keyHead hl hw _ _), hk1, hmap]

/-- A leaf as a value. -/
theorem whole_value {P : Bytes → Prop} {T : Bytes} (hT : Whole P T) {p : Nat} {k : Ctx} (hw2 : 0 < k.want (p + 1)) {E : Bytes} (hP : P E) :
    ∃ k', k'.at (p + 1) = k.at (p + 1) ∧ ∃ N, ∀ n, N ≤ n → ∀ L pre, L.Ready → ∃ nd,
      scalar n (p + 1) true false (ld L (st k pre [] (T ++ E))) = (.ok nd, ld L (st k' (pre ++ T) [] E)) := by
  obtain ⟨k', hk', N, hN⟩ := hT.2 k (p + 1) false E hw2 hP
  refine ⟨k', hk', N + 3, fun n hn L pre hL => ?_⟩
  obtain ⟨a, rfl⟩ : ∃ a, n = a + 2 := ⟨n - 2, by omega⟩
  obtain ⟨y, p', m', hpm, he⟩ := hN (a + 1) (a + 1) (a + 1) (by omega) (by omega) (by omega) L pre hL
  obtain ⟨c, r, rfl, h1, h2⟩ := hT.1.head
  have hp : noProps (c :: r ++ E) = true := noProps_of h2
  have hfi : firstItem (p + 1) true (ld L (st k pre [] (c :: r ++ E))) =
      (.err .mismatch, ld L (st k pre [] (c :: r ++ E))) := by
    simp only [firstItem, if_true, List.cons_append]
    rw [bind_err (lift_of (gap_tok _ _ _ h1 _))]
  refine ⟨.mk (k.consumed + pre.length) [] y, ?_⟩
  rw [scalar, scalarNode_ok _ _ _ _ hp (k' := k') (L' := L) (p' := p') (m' := m') (post' := E) (y := y)]
  · rw [hpm]
  · rw [List.cons_append, scalarBody_skip _ _ _ h2, ← List.cons_append, orElse_mismatch, he]
    rw [orElse_mismatch (s' := ld L (st k pre [] (c :: r ++ E)))]
    · rw [YamlPeg.map, mapLoop, bind_err]
      rw [mapStep, bind_ok (lift_of (forward_st ..))]
      simp only [List.isEmpty_nil, if_true, List.append_nil]
      rw [bind_err hfi]
    · rw [seq, bind_err]
      rw [seqLoop, bind_ok (lift_of (forward_st ..)), bind_err]
      simp only [List.isEmpty_nil, if_true, List.append_nil]
      rw [bind_err hfi]

/-- Junk behind an item. -/
theorem seqHole_term {P : Bytes → Prop} {τ : Nat} {lead T E : Bytes} (hT : Whole P T) (hl : LeadOK (τ + 2) lead) (hP : P E) (hE : Junk E) :
    SeqHole τ (lead ++ T ++ E) "sequence terminator" (lead.length + T.length) := by
  intro k level hw hlen hk
  obtain ⟨k', hk', N, hN⟩ := whole_node hT hl (q := level + 1) (k := k) (by rw [Ctx.want_succ _ _ hlen, hw]) (by omega) hP hE.colon
  have hcon : k'.consumed = 0 := (Ctx.consumed_of_at hk').trans hk
  refine ⟨N + 1, fun n c h1 h2 L pre mid v map hL => ?_⟩
  obtain ⟨c, rfl⟩ : ∃ m, c = m + 1 := ⟨c - 1, by omega⟩
  obtain ⟨nd, hx⟩ := hN n (by omega) L (pre ++ mid) hL
  rw [seqGo]
  refine .after (lift_of (forward_st ..)) (.after (orErr_ok hx) ?_)
  rw [seqLoop]
  refine .after (lift_of (forward_st ..)) (Fails.bind ?_ _)
  simp only [isEmpty_snoc, Bool.false_eq_true, if_false, List.append_nil]
  refine Fails.bind ?_ _
  have := hE.next level "sequence terminator" hcon L (pre ++ mid ++ (lead ++ T))
  rwa [Bang.at (doc' := pre ++ (mid ++ (lead ++ T ++ E))) (p' := pre.length + mid.length + (lead.length + T.length))
    (by simp) (by simp; omega)] at this

/-- Junk behind a value. -/
theorem mapHole_term {P : Bytes → Prop} {τ : Nat} {T E : Bytes} (hT : Whole P T) (hP : P E) (hE : Junk E) :
    MapHole τ (T ++ E) "map terminator" T.length := by
  intro k level hw hw2 hk
  obtain ⟨k', hk', N, hN⟩ := whole_value hT (p := level) (k := k) (by omega) hP
  have hcon : k'.consumed = 0 := (Ctx.consumed_of_at hk').trans hk
  refine ⟨N + 1, fun n i c h1 h2 h3 L pre mid acc kn map hL => ?_⟩
  obtain ⟨c, rfl⟩ : ∃ m, c = m + 1 := ⟨c - 1, by omega⟩
  obtain ⟨nd, hx⟩ := hN n (by omega) L (pre ++ mid) hL
  rw [mapGo]
  refine .after (lift_of (forward_st ..)) (.after (orErr_ok hx) ?_)
  rw [mapLoop]
  refine Fails.bind ?_ _
  rw [mapStep]
  refine .after (lift_of (forward_st ..)) ?_
  simp only [isEmpty_snoc, Bool.false_eq_true, if_false, List.append_nil]
  refine Fails.bind ?_ _
  have := hE.next level "map terminator" hcon L (pre ++ mid ++ T)
  rwa [Bang.at (doc' := pre ++ (mid ++ (T ++ E))) (p' := pre.length + mid.length + T.length)
    (by simp) (by simp; omega)] at this

end YamlPeg
