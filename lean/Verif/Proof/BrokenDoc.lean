import Verif.Proof.BrokenTerm
import Verif.Proof.Stream
/-! # Texts that cannot be read: documents -/

namespace YamlPeg
open M

/-- What is run behind the opening. -/
def docsRun (n : Nat) : LM (List Node) := do
  let d ← doc n
  docsLoop n n [d]

/-- The first document, and what follows, cannot be read. -/
def BadRoot (T : Bytes) (name : String) (o : Nat) : Prop :=
  ∀ (k : Ctx), k.want 0 = 0 → k.indent.length ≤ 1 → k.consumed = 0 → ∃ N, ∀ n, N ≤ n → ∀ L pre mid sp, L.docInd = L.anchors.length →
    StartOK sp T → Fails (Bang (pre ++ (mid ++ (sp ++ T))) name (pre.length + mid.length + sp.length + o)) (docsRun n)
      (ld L (st k pre mid (sp ++ T)))

theorem badRoot_node {T : Bytes} {name : String} {o : Nat} (h : BadN 0 T name o) : BadRoot T name o := by
  intro k hw hlen hk
  obtain ⟨N, hN⟩ := h k 0 hw hlen hk
  refine ⟨N, fun n hn L pre mid sp hd hsp => ?_⟩
  let L1 : Loader := { L with anchors := L.anchors ++ [[]] }
  have hL1 : L1.Ready := by simp [Loader.Ready, L1, hd]
  have hs := hN n hn L1 (pre ++ mid ++ sp) hL1
  rw [Bang.at (doc' := pre ++ (mid ++ (sp ++ T))) (p' := pre.length + mid.length + sp.length + o) (by simp) (by simp; omega)] at hs
  rw [docsRun, doc]
  refine Fails.bind ?_ _
  refine .after (start_read hsp ..) (.after (lift_of (forward_st ..)) (.after (modify_run ..) ?_))
  have e1 : ({ ld L (st k (pre ++ (mid ++ sp)) [] T) with
      anchors := (ld L (st k (pre ++ (mid ++ sp)) [] T)).anchors ++ [[]] } : Loader) =
      ld L1 (st k (pre ++ mid ++ sp) [] T) := by simp [ld, L1]
  rw [e1]
  exact hs.bind _

/-- A root that is read to its end `E`. -/
def RootRead (T E : Bytes) : Prop :=
  ∀ (k : Ctx), k.want 0 = 0 → k.indent.length ≤ 1 → k.consumed = 0 → ∃ k', k'.consumed = 0 ∧ ∃ N, ∀ n, N ≤ n → ∀ L pre, L.Ready → ∃ nd,
    scalar n 0 false false (ld L (st k pre [] (T ++ E))) = (.ok nd, ld L (st k' (pre ++ T) [] E))

theorem rootRead_whole {P : Bytes → Prop} {lead T : Bytes} (hT : Whole P T) (hl : LeadOK 0 lead) {E : Bytes} (hP : P E)
    (hE : ∀ r, E ≠ 0x3A :: r) : RootRead (lead ++ T) E := by
  intro k hw hlen hk
  obtain ⟨k', hk', N, hN⟩ := whole_node hT hl (q := 0) hw hlen hP hE
  exact ⟨k', (Ctx.consumed_of_at hk').trans hk, N, hN⟩

theorem rootRead_seq {lead : Bytes} {its : Items} (hl : LeadOK 0 lead) (hi : its.wf 0) (hst : (Blk.seq lead 0 its).still) {E : Bytes}
    (hf : Fits its.kind E) (hs : Stops 0 true E) : RootRead (Blk.seq lead 0 its).text E := by
  intro k hw hlen hk
  generalize hk1 : (if lead = [] then k else k.at 0) = k1
  have hk1at : k1.at 0 = k.at 0 := by subst hk1; split <;> simp
  have hlen1 : k1.indent.length ≤ 0 + 1 := by
    subst hk1; split
    · exact hlen
    · simp
  have hw1 : k1.want 0 = 0 := by rw [Ctx.want_of_at hk1at, hw]
  have hcon : k1.consumed = 0 := (Ctx.consumed_of_at hk1at).trans hk
  obtain ⟨k', m, r, hk', hcw, hmr, N, hN⟩ := Items.read its 0 0 k1 E true hi hw1 hlen1 hf hs
  have hsep := Items.sepOK hi hf
  refine ⟨k', (Ctx.consumed_of_at hk').trans hcon, N + 3, fun n hn L pre hL => ?_⟩
  obtain ⟨a, rfl⟩ : ∃ a, n = a + 2 := ⟨n - 2, by omega⟩
  have htxt : (Blk.seq lead 0 its).text ++ E = lead ++ 0x2D :: (its.sp ++ (its.body 0 ++ E)) := by
    simp [Blk.text]
  obtain ⟨c', r', hce, hc'⟩ := hl.head (r := its.sp ++ (its.body 0 ++ E)) (c := 0x2D) (by simp [plainHead])
  have hfi : firstItem 0 false (ld L (st k pre [] (lead ++ 0x2D :: (its.sp ++ (its.body 0 ++ E))))) =
      (.ok (), ld L (st k1 pre lead (0x2D :: (its.sp ++ (its.body 0 ++ E))))) := by
    rcases hl with rfl | ⟨G, hG, rfl⟩
    · simp only [if_true] at hk1
      subst hk1
      exact firstItem_inline _ _ _ _ (by decide) 0
    · obtain ⟨x, s, rfl, hx⟩ := hG.head
      have := firstItem_gap k L pre [] hG hw (c := 0x2D) (r := its.sp ++ (its.body 0 ++ E)) (by decide)
      simp only [List.cons_append, List.cons_ne_nil, if_false] at hk1
      rw [hk1] at this
      simpa using this
  obtain ⟨-, heff, hfine⟩ := Blk.still_spec _ hst (k.consumed + pre.length)
  have hpos : k1.consumed + (pre ++ (lead ++ [0x2D] ++ its.sp)).length =
      k.consumed + pre.length + lead.length + 1 + its.sp.length := by
    rw [hcon, hk]; simp; omega
  have hgo := hN (a + 1) a (by omega) (by omega) L pre (lead ++ [0x2D] ++ its.sp) [] false hL
  rw [hpos, envOf_ctx L (Ctx.tag_of_at hk1at)] at hgo
  have hfine' := hfine (envOf L k)
  have heff' := heff (envOf L k)
  simp only [Blk.fine] at hfine'
  simp only [Blk.eff] at heff'
  replace hgo := hgo hfine'
  rw [heff', show (envOf L k).anchors = L.cur from rfl, Loader.put_cur hL] at hgo
  generalize hP : k.consumed + pre.length + lead.length + 1 + its.sp.length = P at *
  have hseq : seq (scalar (a + 1)) (a + 1) 0 false
      (ld L (st k pre [] (lead ++ 0x2D :: (its.sp ++ (its.body 0 ++ E))))) =
      (.ok (.seq (its.nodes 0 P (envOf L k))), ld L (st k' (pre ++ (Blk.seq lead 0 its).text) [] E)) := by
    rw [seq, bind_ok (a := its.nodes 0 P (envOf L k))
      (s' := ld L (st k' (pre ++ (lead ++ [0x2D] ++ its.sp ++ its.body 0)) m r))]
    · rw [bind_ok (lift_of (backward_st ..))]
      simp [Blk.text, hmr]
    · rw [seqLoop, bind_ok (lift_of (forward_st ..)), bind_ok (a := false)
        (s' := ld L (st k1 pre (lead ++ [0x2D] ++ its.sp) (its.body 0 ++ E)))]
      · simp only [Bool.false_eq_true, if_false]
        rw [seqGo] at hgo
        rw [hgo]
        simp only [List.nil_append]
      · simp only [List.isEmpty_nil, if_true, List.append_nil]
        rw [bind_ok hfi, bind_ok (lift_of (sym_hit ..)), bind_ok (lift_of (bound_sep _ _ _ hsep))]
        rfl
  refine ⟨.mk (k.consumed + pre.length) [] (.seq (its.nodes 0 P (envOf L k))), ?_⟩
  rw [scalar, htxt]
  rw [scalarNode_ok (y := .seq (its.nodes 0 P (envOf L k)))
    (k' := k') (L' := L) (p' := pre ++ (Blk.seq lead 0 its).text) (m' := []) (post' := E)]
  · simp
  · rw [hce]; exact noProps_of hc'
  · rw [hce, scalarBody_skip _ _ _ hc', ← hce, orElse_ok]
    rw [orElse_ok hseq]

/-- Something else than a mark behind the root, on its line or behind a gap: the error is at the end of the root. -/
theorem badRoot_split {T G E : Bytes} (hT : RootRead T (G ++ E)) (hne : E.isEmpty = false) (hm : docMark E = false)
    (hg : (∃ t, gapSpec true (G ++ E) = some (t, G, E)) ∨ (G = [] ∧ Junk E)) :
    BadRoot (T ++ (G ++ E)) "document splitter" T.length := by
  intro k hw hlen hk
  obtain ⟨k', hk', N, hN⟩ := hT k hw hlen hk
  refine ⟨N + 1, fun n hn L pre mid sp hd hsp => ?_⟩
  let L1 : Loader := { L with anchors := L.anchors ++ [[]] }
  have hL1 : L1.Ready := by simp [Loader.Ready, L1, hd]
  obtain ⟨nd, hs⟩ := hN n (by omega) L1 (pre ++ mid ++ sp) hL1
  obtain ⟨n', rfl⟩ : ∃ n', n = n' + 1 := ⟨n - 1, by omega⟩
  have hd3 : (b!"---").isPrefixOf E = false := by
    simp only [docMark, Bool.or_eq_false_iff] at hm; exact hm.1
  have hd4 : (b!"...").isPrefixOf E = false := by
    simp only [docMark, Bool.or_eq_false_iff] at hm; exact hm.2
  obtain ⟨t, hgap⟩ : ∃ t, ∀ L' : Loader, lift (orDefault 0 (gap true)) (ld L' (st k' (pre ++ mid ++ sp ++ T) [] (G ++ E))) =
      (.ok t, ld L' (st k' (pre ++ mid ++ sp ++ T) G E)) := by
    rcases hg with ⟨t, hg⟩ | ⟨rfl, hg⟩
    · exact ⟨t, fun L' => lift_of (orDefault_ok (gap_of_spec hg ..))⟩
    · refine ⟨0, fun L' => ?_⟩
      rw [List.nil_append]
      exact lift_of (orDefault_err (hg.gapNo ..))
  have hdoc : doc (n' + 1) (ld L (st k pre mid (sp ++ (T ++ (G ++ E))))) =
      (.ok nd, ld { L1 with docInd := L1.docInd + 1 } (st k' (pre ++ mid ++ sp ++ T) [] (G ++ E))) := by
    have e1 : ({ ld L (st k (pre ++ (mid ++ sp)) [] (T ++ (G ++ E))) with
        anchors := (ld L (st k (pre ++ (mid ++ sp)) [] (T ++ (G ++ E)))).anchors ++ [[]] } : Loader) =
        ld L1 (st k (pre ++ mid ++ sp) [] (T ++ (G ++ E))) := by simp [ld, L1]
    rw [doc, bind_ok (start_read hsp ..), bind_ok (lift_of (forward_st ..)), bind_ok (modify_run ..), e1, bind_ok hs, bind_ok (hgap _),
      bind_ok (lift_of (orDefault_err (symSeq_miss _ _ _ _ _ hd4)))]
    rw [bind_ok (lift_of (forward_st ..)), bind_ok (modify_run ..)]
    simp [ld]
  rw [docsRun]
  refine .after hdoc ?_
  rw [docsLoop]
  refine .after (hgap _) (.after (lift_of (food_st ..)) ?_)
  simp only [hne, Bool.false_eq_true, if_false]
  refine .after (isOk_err (lift_of (symSeq_miss _ _ _ _ _ hd3))) ?_
  simp only [Bool.false_eq_true, if_false]
  have := lerr_stuck (α := List Node) hk' "document splitter" { L1 with docInd := L1.docInd + 1 } (pre ++ mid ++ sp ++ T) [] (G ++ E)
  refine (?_ : Fails (Bang _ _ _) _ _)
  unfold Bang
  have e2 : pre ++ (mid ++ (sp ++ (T ++ (G ++ E)))) = pre ++ mid ++ sp ++ T ++ ([] ++ (G ++ E)) := by simp
  have e3 : pre.length + mid.length + sp.length + T.length = (pre ++ mid ++ sp ++ T).length + ([] : Bytes).length := by simp; omega
  rw [e2, e3]
  exact this

/-! ## Openings -/

/-- The opening `H` in front of `T`. -/
def Opens (H T : Bytes) : Prop :=
  ∃ k mid sp, H = mid ++ sp ∧ StartOK sp T ∧ k.want 0 = 0 ∧ k.indent.length ≤ 1 ∧ k.consumed = 0 ∧
    ∃ N, ∀ n, N ≤ n → ∀ L, (do
      directives n
      let _ ← lift (orDefault 0 (gap true))
      lift (orDefault () (symSeq b!"---")) : LM Unit) (ld L (st .start [] [] (H ++ T))) =
      (.ok (), ld L (st k [] mid (sp ++ T)))

/-- No opening; the text may begin with a gap. -/
theorem opens_none {lead T : Bytes} (hl : LeadOK 0 lead) {c : UInt8} {r : Bytes} (hT : T = c :: r) (hc : tokHead c = true) (hp : lead = [] → c ≠ 0x25)
    (hsp : ∀ r, lead ≠ 0x20 :: r)
    (hm : (b!"---").isPrefixOf T = false) : Opens [] (lead ++ T) := by
  refine ⟨.start, [], [], rfl, .inr ⟨rfl, ?_⟩, Ctx.start_want, by simp [Ctx.start], rfl, 1, fun n hn L => ?_⟩
  · intro r' h
    rcases hl with rfl | ⟨G, hG, rfl⟩
    · rw [hT] at h
      simp only [List.nil_append, List.cons.injEq] at h
      rw [h.1] at hc; exact absurd hc (by decide)
    · obtain ⟨x, s, rfl, hx⟩ := hG.head
      simp only [List.cons_append, List.cons.injEq] at h
      exact hsp _ (by rw [h.1]; rfl)
  · simp only [List.nil_append]
    have hno : ∀ r', lead ++ T ≠ 0x25 :: r' := by
      intro r' h
      rcases hl with rfl | ⟨G, hG, rfl⟩
      · rw [hT] at h
        simp only [List.nil_append, List.cons.injEq] at h
        exact hp rfl h.1
      · obtain ⟨x, s, rfl, hx⟩ := hG.head
        simp only [List.cons_append, List.cons.injEq] at h
        rw [h.1] at hx; revert hx; decide
    rw [bind_ok (directives_none hn hno .start L [])]
    rcases hl with rfl | ⟨G, hG, rfl⟩
    · rw [List.nil_append, hT, bind_ok (lift_of (orDefault_err (gap_tok _ _ _ hc r))),
        lift_of (orDefault_err (symSeq_miss _ _ _ _ _ (by rw [← hT]; exact hm)))]
      simp
    · obtain ⟨q, hq⟩ := hG T ⟨0, c, r, by simpa [spaces] using hT, hc⟩
      have e : G ++ spaces 0 ++ T = G ++ T := by simp [spaces]
      rw [e, bind_ok (lift_of (orDefault_ok (gap_of_spec hq ..))),
        lift_of (orDefault_err (symSeq_miss _ _ _ _ _ hm))]
      simp

/-- Directives or a gap, and `---`. -/
theorem opens_mark {ds : List Dir} {G sp T : Bytes} (hds : DirsOK ds) (hG : G = [] ∨ (ds = [] ∧ GapText G)) (hsep : SepOK sp T) :
    Opens (dirsText ds ++ (G ++ (b!"---" ++ sp))) T := by
  have hk0 := dirsRun_indent ds .start
  refine ⟨dirsRun .start ds, dirsText ds ++ (G ++ b!"---"), sp, by simp, .inl hsep, ?_, by rw [hk0.1]; simp [Ctx.start], hk0.2, ds.length + 1,
    fun n hn L => ?_⟩
  · have : (dirsRun .start ds).want 0 = Ctx.start.want 0 := by simp only [Ctx.want, hk0.1]
    rw [this, Ctx.start_want]
  have htxt : dirsText ds ++ (G ++ (b!"---" ++ sp)) ++ T = dirsText ds ++ (G ++ (b!"---" ++ (sp ++ T))) := by simp
  rw [htxt]
  rcases hG with rfl | ⟨rfl, hG⟩
  · have := directives_read ds .start hds.1 (by have := hds.2; simpa [Ctx.start] using this) (c := 0x2D)
      (r := 0x2D :: 0x2D :: (sp ++ T)) (by decide) (by decide) n (by omega) L []
    rw [List.nil_append]
    simp only [List.cons_append, List.nil_append] at this ⊢
    rw [bind_ok this,
      bind_ok (lift_of (orDefault_err (gap_tok _ _ _ (by decide) _)))]
    have := lift_of (L := L) (orDefault_ok (d := ()) (symSeq_hit (dirsRun .start ds) [] (dirsText ds) (sp ++ T) b!"---"))
    simpa using this
  · obtain ⟨q, hq⟩ := hG _ (mark_stop (sp ++ T))
    obtain ⟨c, r, rfl, hc⟩ := hG.head
    simp only [dirsText, dirsRun, List.nil_append]
    rw [bind_ok (directives_none (by omega) (by
      rintro r' h; simp at h; rw [h.1] at hc; revert hc; decide) .start L []),
      bind_ok (lift_of (orDefault_ok (gap_of_spec hq ..))), lift_of (orDefault_ok (symSeq_hit ..))]
    rfl

theorem loaderParse_bad {H T : Bytes} (hH : Opens H T) {name : String} {o : Nat} (hT : BadRoot T name o) :
    ∃ N, ∀ n, N ≤ n → ∀ (L : Loader), L.docInd = L.anchors.length →
      Fails (Bang (H ++ T) name (H.length + o)) (loaderParse n) (ld L (st .start [] [] (H ++ T))) := by
  obtain ⟨k, mid, sp, rfl, hsp, h1, h2, h3, N, hN⟩ := hH
  obtain ⟨N', hN'⟩ := hT k h1 h2 h3
  refine ⟨N + N', fun n hn L hd => ?_⟩
  rw [loaderParse_split]
  refine .after (hN n (by omega) L) ?_
  have := hN' n (by omega) L [] mid sp hd hsp
  rwa [Bang.at (doc' := mid ++ sp ++ T) (p' := (mid ++ sp).length + o) (by simp) (by simp)] at this

end YamlPeg
