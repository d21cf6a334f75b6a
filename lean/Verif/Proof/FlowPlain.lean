import Verif.Proof.PlainFold
/-! # Plain scalars in flow collections, with white space behind them -/

namespace YamlPeg
open M

/-- What may follow a value inside a flow collection. -/
def FlowStop (E : Bytes) : Prop := ∃ c r, E = c :: r ∧ c ∈ b!",]}"

/-- White space, also over lines. -/
def AllWs (ws : Bytes) : Prop := ∀ x ∈ ws, isAsciiWs x = true

theorem AllWs.nil : AllWs [] := by simp [AllWs]

theorem AllWs.of_append {a b : Bytes} (h : AllWs (a ++ b)) : AllWs a ∧ AllWs b :=
  ⟨fun x hx => h x (by simp [hx]), fun x hx => h x (by simp [hx])⟩

theorem isAsciiWs_cases {c : UInt8} (h : isAsciiWs c = true) :
    c = 0x20 ∨ c = 0x09 ∨ c = 0x0A ∨ c = 0x0C ∨ c = 0x0D := by
  simp only [isAsciiWs, Bool.or_eq_true, beq_iff_eq] at h
  rcases h with (((h | h) | h) | h) | h <;> simp [h]

theorem isAsciiWs_ws1 {c : UInt8} (h : isAsciiWs c = true) : isWs1 c = true := by
  rcases isAsciiWs_cases h with rfl | rfl | rfl | rfl | rfl <;> decide

theorem AllWs.ws1 {w : Bytes} (h : AllWs w) : ∀ x ∈ w, isWs1 x = true := fun x hx => isAsciiWs_ws1 (h x hx)

theorem AllWs.ascii {w : Bytes} (h : AllWs w) : ∀ x ∈ w, x < 0x80 := by
  intro x hx
  rcases isAsciiWs_cases (h x hx) with rfl | rfl | rfl | rfl | rfl <;> decide

theorem FlowStop.notWs {E : Bytes} (h : FlowStop E) : ∀ c r, E = c :: r → isAsciiWs c = false := by
  obtain ⟨c, r, rfl, hc⟩ := h
  rintro _ _ ⟨⟩
  simp at hc; rcases hc with rfl | rfl | rfl <;> decide

/-- Bytes taken from the front of white space and a closing byte, without the closing byte. -/
theorem ws_split {W E X Y : Bytes} (hE : FlowStop E) (h : X ++ Y = W ++ E) (hX : AllWs X) :
    ∃ W2, W = X ++ W2 ∧ Y = W2 ++ E := by
  rcases List.append_eq_append_iff.1 h with ⟨a, rfl, rfl⟩ | ⟨a, rfl, he⟩
  · exact ⟨a, rfl, rfl⟩
  · cases a with
    | nil => exact ⟨[], by simp, by simpa using he.symm⟩
    | cons c r =>
      exfalso
      have := hE.notWs c _ he
      rw [hX c (by simp)] at this
      cases this

theorem cmtSkip_ws {W E : Bytes} (hW : AllWs W) (hE : FlowStop E) : cmtSkip (W ++ E) = ([], W ++ E) := by
  have : ∀ r, (W ++ E).dropWhile isBlank ≠ 0x23 :: r := by

    induction W with
    | nil =>
      obtain ⟨c, r, rfl, hc⟩ := hE
      simp at hc
      rcases hc with rfl | rfl | rfl <;> simp [List.dropWhile, isBlank, isAsciiWs]
    | cons x W ih =>
      intro r
      rw [List.cons_append, List.dropWhile]
      split
      · exact ih (fun y hy => hW y (by simp [hy])) r
      · have := hW x (by simp)
        intro he
        simp at he
        rw [he.1] at this; revert this; decide
  rw [cmtSkip]
  split
  · rename_i r h; exact absurd h (this r)
  · rfl

theorem nlLen_take_ws (r : Bytes) : AllWs (r.take (nlLen r)) := by
  unfold nlLen
  split <;> simp [AllWs] <;> decide

theorem gapMore_ws {E : Bytes} (hE : FlowStop E) : ∀ (n : Nat) (W : Bytes), AllWs W → AllWs (gapMore true n (W ++ E)).2.1
  | 0, W, _ => by simp [gapMore, AllWs]
  | n + 1, W, hW => by
    simp only [gapMore, gapLine, if_true, cmtSkip_ws hW hE]
    split
    · simp [AllWs]
    · rename_i h0
      obtain ⟨W2, h1, h2⟩ := ws_split hE (List.take_append_drop (nlLen (W ++ E)) (W ++ E)) (nlLen_take_ws _)
      rw [h2]
      have hW2 : AllWs W2 := by rw [h1] at hW; exact hW.of_append.2
      intro x hx
      simp only [List.nil_append, List.mem_append] at hx
      rcases hx with hx | hx
      · exact nlLen_take_ws _ x hx
      · exact gapMore_ws hE n W2 hW2 x hx

/-- A gap in front of a closing byte. -/
theorem gapSpec_ws {W E : Bytes} (hW : AllWs W) (hE : FlowStop E) (hn : nlLen (W ++ E) ≠ 0) :
    ∃ t taken W2, gapSpec true (W ++ E) = some (t, taken, W2 ++ E) ∧ W = taken ++ W2 ∧ taken ≠ [] := by
  have hl : gapLead true (W ++ E) = ([], W ++ E) := by simp only [gapLead, if_true, cmtSkip_ws hW hE]
  obtain ⟨W1, h1, h2⟩ := ws_split hE (List.take_append_drop (nlLen (W ++ E)) (W ++ E)) (nlLen_take_ws _)
  have hW1 : AllWs W1 := by rw [h1] at hW; exact hW.of_append.2
  have happ := gapMore_append (W1 ++ E) true ((W1 ++ E).length + 1)
  obtain ⟨W2, h3, h4⟩ := ws_split hE happ (gapMore_ws hE _ W1 hW1)
  refine ⟨(gapMore true ((W1 ++ E).length + 1) (W1 ++ E)).1 + 1,
    (W ++ E).take (nlLen (W ++ E)) ++ (gapMore true ((W1 ++ E).length + 1) (W1 ++ E)).2.1, W2, ?_, ?_, ?_⟩
  · simp only [gapSpec, hl, hn, if_false, h2, h4, List.nil_append]
  · rw [List.append_assoc, ← h3]; exact h1
  · intro h
    simp only [List.append_eq_nil_iff] at h
    have h5 := h.1
    have : (W ++ E).length ≠ 0 := by
      intro h0; rw [List.length_eq_zero_iff] at h0; rw [h0] at hn; exact hn rfl
    have := congrArg List.length h5
    simp only [List.length_take, List.length_nil] at this
    omega

theorem trimRev_idem (s : Bytes) : trimRev (trimRev s) = trimRev s := by
  fun_induction trimRev s <;> simp_all [trimRev]

theorem trimEnd_idem (s : Bytes) : trimEnd (trimEnd s) = trimEnd s := by
  simp [trimEnd, trimRev_idem]

theorem stopB_ws {c : UInt8} {r : Bytes} (hc : isAsciiWs c = true) {E : Bytes} (hr : AllWs r) (hE : FlowStop E) :
    stopB (c :: (r ++ E)) = false := by
  have h1 : c ≠ 0x3A := by rintro rfl; revert hc; decide
  have h2 : ∀ q, r ++ E ≠ 0x23 :: q := by
    intro q he
    cases r with
    | nil => obtain ⟨d, s, rfl, hd⟩ := hE; simp at he; rw [he.1] at hd; revert hd; decide
    | cons d r => have := hr d (by simp); simp at he; rw [he.1] at this; revert this; decide
  unfold stopB
  split
  · simp_all
  · simp_all
  · rename_i q hq; simp at hq; exact absurd hq.2 (h2 _)
  · rfl

theorem patt_ws {c : UInt8} (hc : isAsciiWs c = true) :
    notIn (plainPatt true) c = false → c = 0x20 ∨ c = 0x0A ∨ c = 0x0D := by
  rcases isAsciiWs_cases hc with rfl | rfl | rfl | rfl | rfl <;> simp [plainPatt, notIn]

theorem patt_stop {E : Bytes} (hE : FlowStop E) : ∀ c r, E = c :: r → notIn (plainPatt true) c = false := by
  obtain ⟨c, r, rfl, hc⟩ := hE
  rintro _ _ ⟨⟩
  simp at hc; rcases hc with rfl | rfl | rfl <;> decide

/-- The white space behind a plain scalar: the loop ends somewhere in it, and what it has collected is cut off. -/
theorem plainRest_ws {level : Nat} {E : Bytes} (hE : FlowStop E) : ∀ (m : Nat) (W : Bytes) (k : Ctx), W.length < m → AllWs W →
    (∀ c r, W = c :: r → notIn (plainPatt true) c = false) → 0 < k.want level →
    ∃ u w, W = u ++ w ∧ ∀ (n : Nat) (v : Bytes) (lead : Bool) (pre : Bytes), W.length ≤ n →
      ∃ v', trimEnd v' = trimEnd v ∧
        plainRest level true (plainPatt true) n v lead (st k pre [] (W ++ E)) =
          (.ok v', st (k.at level) (pre ++ u) [] (w ++ E))
  | 0, W, k, hm, _, _, _ => by omega
  | m + 1, [], k, hm, _, _, hw => by
    obtain ⟨c, r, rfl, hc⟩ := hE
    refine ⟨[], [], rfl, fun n v lead pre hn => ⟨v, rfl, ?_⟩⟩
    rw [List.nil_append, plainRest_flow _ _ _ _ _ _ _ _ _ _ (by simp at hc; rcases hc with rfl | rfl | rfl <;> decide) (.inl rfl) hw]
    simp
  | m + 1, c :: W, k, hm, hW, hp, hw => by
    have hc := hW c (by simp)
    have hW' : AllWs W := fun x hx => hW x (by simp [hx])
    -- the loop goes on with the rest
    have loop : ∀ (W2 : Bytes) (k2 : Ctx), W2.length < m → AllWs W2 → 0 < k2.want level →
        ∃ u w, W2 = u ++ w ∧ ∀ (n : Nat) (v : Bytes) (lead : Bool) (pre mid : Bytes), W2.length < n →
          ∃ v', trimEnd v' = trimEnd v ∧
            plainLoop level true (plainPatt true) n v lead (st k2 pre mid (W2 ++ E)) =
              (.ok v', st (k2.at level) (pre ++ mid ++ u) [] (w ++ E)) := by
      intro W2 k2 hlen hW2 hw2
      obtain ⟨e1, e2⟩ := takeWhile_append_stop (S := W2) (patt_stop hE)
      have hcat := List.takeWhile_append_dropWhile (p := notIn (plainPatt true)) (l := W2)
      have hA : AllWs (W2.takeWhile (notIn (plainPatt true))) := fun x hx => hW2 x (List.takeWhile_subset _ hx)
      have hR : AllWs (W2.dropWhile (notIn (plainPatt true))) := fun x hx => hW2 x (List.dropWhile_subset _ hx)
      have hl : (W2.dropWhile (notIn (plainPatt true))).length ≤ W2.length := by
        exact (List.dropWhile_suffix _).length_le
      obtain ⟨u, w, h1, h2⟩ := plainRest_ws hE m (W2.dropWhile (notIn (plainPatt true))) k2 (by omega) hR (by
        intro d r hd
        have := List.head?_dropWhile_not (p := notIn (plainPatt true)) W2
        rw [hd] at this; simpa using this) hw2
      refine ⟨W2.takeWhile (notIn (plainPatt true)) ++ u, w, by rw [List.append_assoc, ← h1, hcat], fun n v lead pre mid hn => ?_⟩
      obtain ⟨n, rfl⟩ : ∃ i, n = i + 1 := ⟨n - 1, by omega⟩
      obtain ⟨v', h3, h4⟩ := h2 n (v ++ lossy (W2.takeWhile (notIn (plainPatt true)))) lead
        (pre ++ mid ++ W2.takeWhile (notIn (plainPatt true))) (by omega)
      refine ⟨v', ?_, ?_⟩
      · rw [h3, lossy_ascii _ hA.ascii, trimEnd_ws hA.ws1]
      · rw [plainLoop_chunk, e1, e2, h4]; simp
    rcases patt_ws hc (hp c W rfl) with rfl | hnl
    · obtain ⟨u, w, h1, h2⟩ := loop W k (by simp at hm; omega) hW' hw
      refine ⟨0x20 :: u, w, by rw [h1]; rfl, fun n v lead pre hn => ?_⟩
      have hs := stopB_ws hc hW' hE
      cases lead with
      | false =>
        obtain ⟨v', h3, h4⟩ := h2 n (v ++ [0x20]) false pre [0x20] (by simp at hn; omega)
        refine ⟨v', by rw [h3, trimEnd_ws (by simp; decide)], ?_⟩
        rw [List.cons_append, plainRest_colon _ _ _ _ _ _ _ _ _ hs (.inr rfl), h4]; simp
      | true =>
        obtain ⟨v', h3, h4⟩ := h2 n (trimEnd v ++ b!" ") true pre [0x20] (by simp at hn; omega)
        refine ⟨v', by rw [h3, trimEnd_ws (by simp; decide), trimEnd_idem], ?_⟩
        rw [List.cons_append, plainRest_extra _ _ _ _ _ _ _ _ hs, h4]; simp
    · have hn0 : nlLen (c :: W ++ E) ≠ 0 := by
        rw [Ne, nlLen_zero_iff]
        intro h
        have := h c (W ++ E) rfl
        rcases hnl with rfl | rfl <;> simp at this
      obtain ⟨t, taken, W2, hg, hcat, hne⟩ := gapSpec_ws hW hE hn0
      have hW2 : AllWs W2 := by rw [hcat] at hW; exact hW.of_append.2
      by_cases hpre : (spaces (k.want level)).isPrefixOf (W2 ++ E) = true
      · obtain ⟨left, hleft⟩ := List.isPrefixOf_iff_prefix.1 hpre
        obtain ⟨W3, h3, h4⟩ := ws_split hE hleft (by
          intro x hx; simp only [spaces, List.mem_replicate] at hx; rw [hx.2]; decide)
        have hW3 : AllWs W3 := by rw [h3] at hW2; exact hW2.of_append.2
        have hlen : W3.length < m := by
          have a1 := congrArg List.length hcat
          have a2 := congrArg List.length h3
          have a3 : 0 < taken.length := List.length_pos_iff.2 hne
          simp only [List.length_append, List.length_cons] at a1 a2 hm
          omega
        obtain ⟨u, w, h5, h6⟩ := loop W3 (k.at level) hlen hW3 (by simpa using hw)
        refine ⟨taken ++ spaces (k.want level) ++ u, w, by rw [hcat, h3, h5]; simp, fun n v lead pre hn => ?_⟩
        obtain ⟨v', h7, h8⟩ := h6 n (plainBreak v t) true pre (taken ++ spaces (k.want level)) (by
          have a1 := congrArg List.length hcat
          have a2 := congrArg List.length h3
          have a3 : 0 < taken.length := List.length_pos_iff.2 hne
          simp only [List.length_append, List.length_cons] at a1 a2 hn
          omega)
        refine ⟨v', by rw [h7, plainBreak_ws], ?_⟩
        rw [plainRest_more k pre _ level true (plainPatt true) v lead n t taken left hn0 (by rw [hg, hleft]) hw, h4, h8]
        simp
      · refine ⟨[], c :: W, rfl, fun n v lead pre hn => ⟨plainBreak v t, plainBreak_ws, ?_⟩⟩
        rw [plainRest_line _ _ _ _ _ _ _ _ _ _ _ _ hn0 hg hw (Bool.eq_false_iff.2 hpre)]
        simp
termination_by m W => m

theorem plainBody_ws {E : Bytes} : ∀ {W : Bytes} {ne : Bool}, (∀ x ∈ W, isAsciiWs x = true ∧ notIn (plainPatt true) x = true) →
    plainBody true E ne W = true
  | [], _, _ => rfl
  | c :: s, ne, h => by
    have hc := h c (by simp)
    have ih := plainBody_ws (E := E) (W := s) (ne := true) fun x hx => h x (by simp [hx])
    rcases isAsciiWs_cases hc.1 with rfl | rfl | rfl | rfl | rfl
    · exact absurd hc.2 (by decide)
    · rw [plainBody, ih]; simp
    · exact absurd hc.2 (by decide)
    · rw [plainBody, ih]; simp
    · exact absurd hc.2 (by decide)

theorem plainBody_append' {inner : Bool} {A E : Bytes} (hA : ∀ ne, plainBody inner E ne A = true) :
    ∀ {T : Bytes} {ne : Bool}, plainBody inner (A ++ E) ne T = true → plainBody inner E ne (T ++ A) = true
  | [], ne, _ => hA ne
  | c :: s, ne, h => by
    simp only [List.cons_append, plainBody, Bool.and_eq_true, List.append_assoc] at h ⊢
    exact ⟨h.1, plainBody_append' hA h.2⟩

/-- `string_plain` in a flow collection: the text, and white space behind it. -/
theorem stringPlain_ws {k : Ctx} {level : Nat} {T W E : Bytes} (hE : FlowStop E) (hW : AllWs W) (hw : 0 < k.want level)
    (hB : ∀ X, plainBody true X false T = true) (hu : Utf8 T) (hne : T ≠ []) (htrim : trimEnd T = T) :
    ∃ u w, W = u ++ w ∧ ∀ (n : Nat) (pre mid : Bytes), T.length + W.length < n →
      stringPlain n level true (st k pre mid (T ++ (W ++ E))) = (.ok T, st (k.at level) pre (mid ++ (T ++ u)) (w ++ E)) := by
  obtain ⟨e1, e2⟩ := takeWhile_append_stop (S := W) (patt_stop hE)
  have hcat := List.takeWhile_append_dropWhile (p := notIn (plainPatt true)) (l := W)
  generalize hA : W.takeWhile (notIn (plainPatt true)) = A at *
  generalize hR : W.dropWhile (notIn (plainPatt true)) = R at *
  have hAw : AllWs A := by rw [← hcat] at hW; exact hW.of_append.1
  have hRw : AllWs R := by rw [← hcat] at hW; exact hW.of_append.2
  have hAp : ∀ x ∈ A, isAsciiWs x = true ∧ notIn (plainPatt true) x = true := by
    intro x hx
    refine ⟨hAw x hx, ?_⟩
    rw [← hA] at hx
    exact mem_takeWhile_true hx
  have hRh : ∀ c r, R = c :: r → notIn (plainPatt true) c = false := by
    intro c r h
    have := List.head?_dropWhile_not (p := notIn (plainPatt true)) W
    rw [hR, h] at this; simpa using this
  have hX : ∀ c r, R ++ E = c :: r → notIn (plainPatt true) c = false := by
    intro c r h
    cases R with
    | nil => exact patt_stop hE c r h
    | cons d q => simp at h; rw [← h.1]; exact hRh d q rfl
  obtain ⟨u, w, h1, h2⟩ := plainRest_ws (level := level) hE (R.length + 1) R k (by omega) hRw hRh hw
  refine ⟨A ++ u, w, by rw [List.append_assoc, ← h1, hcat], fun n pre mid hn => ?_⟩
  have hlen := congrArg List.length hcat
  simp only [List.length_append] at hlen
  have hbody : plainBody true (R ++ E) (!([] : Bytes).isEmpty) (T ++ A) = true := by
    exact plainBody_append' (fun ne => plainBody_ws hAp) (hB _)
  obtain ⟨n', lead', h3, h4⟩ := plainLoop_line k (level := level) (inner := true) hX n [] (T ++ A) false (pre ++ mid) []
    (hu.append (utf8_ascii hAw.ascii)) (by simp only [List.length_append]; omega) hbody (by simp)
  obtain ⟨v', h5, h6⟩ := h2 n' ([] ++ (T ++ A)) lead' (pre ++ mid ++ [] ++ (T ++ A)) (by
    simp only [List.length_append] at h3; omega)
  have hpost : T ++ (W ++ E) = T ++ A ++ (R ++ E) := by rw [← hcat]; simp
  have hv : trimEnd v' = T := by
    rw [h5, List.nil_append, trimEnd_ws hAw.ws1, htrim]
  have := context_st (k := k) (k' := k.at level) (pre := pre) (mid := mid) (post := T ++ (W ++ E)) (p' := T ++ A ++ u)
    (m' := []) (post' := w ++ E) (o := .ok T) (f := do
      let v ← plainLoop level true (plainPatt true) n [] false
      let v := trimEnd v
      if v.isEmpty then mismatch else pure v) (by
        rw [hpost, bind_ok (h4.trans h6)]
        have : T.isEmpty = false := by simpa using hne
        simp [hv, this])
  rw [stringPlain, this]; simp

end YamlPeg
