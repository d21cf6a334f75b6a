import Verif.Proof.Tree
/-! # Reading the properties of a node -/

namespace YamlPeg
open M

theorem SepOK.head {sp X : Bytes} (h : SepOK sp X) :
    ∃ c r, sp ++ X = c :: r ∧ (c = 0x20 ∨ c = 0x0A ∨ c = 0x0D) := by
  obtain ⟨_, ⟨c, r, rfl, hc⟩, h3⟩ := h
  rcases h3 with ⟨s, rfl⟩ | ⟨rfl, hn⟩
  · exact ⟨_, _, rfl, .inl rfl⟩
  · refine ⟨c, r, rfl, .inr ?_⟩
    by_cases h1 : c = 0x0A
    · exact .inl h1
    · by_cases h2 : c = 0x0D
      · exact .inr h2
      · exfalso; apply hn; rw [nlLen_zero_iff]; rintro _ _ ⟨⟩; exact ⟨h1, h2⟩

theorem SepOK.tagEnd {sp X : Bytes} (h : SepOK sp X) : TagEnd (sp ++ X) := by
  obtain ⟨c, r, he, hc⟩ := h.head
  rw [he]
  refine ⟨?_, ?_⟩
  · rintro _ _ ⟨⟩; rcases hc with rfl | rfl | rfl <;> decide
  · rintro _ ⟨⟩; revert hc; decide

theorem TagText.ne {tbl : List (Bytes × Bytes)} {tg t : Bytes} (h : TagText tbl tg t) : t ≠ [] := by
  cases h with
  | «local» hx => exact hx.ne
  | named _ hx _ => simp [hx.ne]
  | second hx _ => simp [hx.ne]
  | verbatim h _ _ => exact h

theorem isEmpty_of_ne {a : Bytes} (h : a ≠ []) : a.isEmpty = false := by simpa using h

theorem lift_forward {k : Ctx} {L : Loader} {pre : Bytes} (mid post : Bytes) :
    lift forward (ld L (st k pre mid post)) = (.ok (), ld L (st k (pre ++ mid) [] post)) := lift_of (forward_st ..)

/-- The first step of `nodeProps`: an anchor, or nothing. -/
theorem props_anchor {a sp X : Bytes} (ha : IsIdent a) (hs : SepOK sp X) (k : Ctx) (L : Loader) (pre : Bytes) :
    lift (orDefault [] anchor) (ld L (st k pre [] (0x26 :: (a ++ (sp ++ X))))) =
      (.ok a, ld L (st k pre (0x26 :: a) (sp ++ X))) := by
  rw [lift_of (orDefault_ok (anchor_read ha hs.tagEnd.1 ..))]; rfl

theorem props_tag {tbl : List (Bytes × Bytes)} {tg t sp X : Bytes} (ht : TagText tbl tg t) (hs : SepOK sp X) {k : Ctx}
    (hk : k.tag = tbl) (L : Loader) (pre : Bytes) :
    lift (orDefault [] tag) (ld L (st k pre [] (tg ++ (sp ++ X)))) =
      (.ok t, ld L (st k pre tg (sp ++ X))) := by
  rw [lift_of (orDefault_ok (tag_read ht hs.tagEnd hk ..))]; rfl

/-- `nodeProps` reads the properties in front of `X`. -/
theorem nodeProps_read {f : Form} {X : Bytes} {k : Ctx} (hwf : f.wf X) (hfine : f.fine k.tag) (hX : noProps X = true)
    (L : Loader) (pre : Bytes) :
    nodeProps (ld L (st k pre [] (f.text ++ X))) = (.ok (f.name, f.val), ld L (st k (pre ++ f.text) [] X)) := by
  have h1 : ∀ r, X ≠ 0x26 :: r := by rintro r rfl; simp [noProps] at hX
  have h2 : ∀ r, X ≠ 0x21 :: r := by rintro r rfl; simp [noProps] at hX
  cases f with
  | anchor a sp =>
    obtain ⟨ha, hs⟩ := hwf
    simp only [Form.text, Form.name, Form.val]
    rw [nodeProps, List.cons_append, List.append_assoc, bind_ok (props_anchor ha hs ..)]
    simp only [isEmpty_of_ne ha.ne, Bool.not_false, runIf_true]
    rw [bind_ok (lift_of (bound_sep _ _ _ hs)), bind_ok (lift_forward ..), bind_ok (lift_of (tag_no _ _ _ h2))]
    simp only [List.isEmpty_nil, Bool.not_true, runIf_false]
    rw [bind_ok (pure_run ..), bind_ok (lift_forward ..), bind_ok (lift_of (anchor_no _ _ _ h1))]
    simp only [List.isEmpty_nil, Bool.not_true, Bool.false_eq_true, if_false]
    rw [bind_ok (pure_run ..), bind_ok (lift_forward ..)]
    simp
  | tag tg t sp =>
    obtain ⟨⟨r, hr⟩, hs⟩ := hwf
    have ht : TagText k.tag tg t := hfine
    simp only [Form.text, Form.name, Form.val]
    rw [nodeProps, List.append_assoc, bind_ok (lift_of (anchor_no _ _ _ (by rw [hr]; rintro _ ⟨⟩)))]
    simp only [List.isEmpty_nil, Bool.not_true, runIf_false]
    rw [bind_ok (pure_run ..), bind_ok (lift_forward ..), bind_ok (props_tag ht hs rfl ..)]
    simp only [isEmpty_of_ne ht.ne, Bool.not_false, runIf_true]
    rw [bind_ok (lift_of (bound_sep _ _ _ hs)), bind_ok (lift_forward ..), bind_ok (lift_of (anchor_no _ _ _ h1))]
    simp only [List.isEmpty_nil, Bool.not_true, Bool.false_eq_true, if_false]
    rw [bind_ok (pure_run ..), bind_ok (lift_forward ..)]
    simp
  | anchorTag a sp tg t sp' =>
    obtain ⟨ha, ⟨r, hr⟩, hs, hs'⟩ := hwf
    have ht : TagText k.tag tg t := hfine
    simp only [Form.text, Form.name, Form.val]
    have hs0 : SepOK sp (tg ++ (sp' ++ X)) := hs.append _
    simp only [List.cons_append, List.append_assoc]
    rw [nodeProps, bind_ok (props_anchor ha hs0 ..)]
    simp only [isEmpty_of_ne ha.ne, Bool.not_false, runIf_true]
    rw [bind_ok (lift_of (bound_sep _ _ _ hs0)), bind_ok (lift_forward ..), bind_ok (props_tag ht hs' rfl ..)]
    simp only [isEmpty_of_ne ht.ne, Bool.not_false, runIf_true]
    rw [bind_ok (lift_of (bound_sep _ _ _ hs')), bind_ok (lift_forward ..), bind_ok (lift_of (anchor_no _ _ _ h1))]
    simp only [List.isEmpty_nil, Bool.not_true, Bool.false_eq_true, if_false]
    rw [bind_ok (pure_run ..), bind_ok (lift_forward ..)]
    simp
  | tagAnchor tg t sp a sp' =>
    obtain ⟨⟨r, hr⟩, hs, ha, hs'⟩ := hwf
    have ht : TagText k.tag tg t := hfine
    simp only [Form.text, Form.name, Form.val]
    have hs0 : SepOK sp (0x26 :: (a ++ (sp' ++ X))) := hs.append _
    simp only [List.cons_append, List.append_assoc]
    rw [nodeProps, bind_ok (lift_of (anchor_no _ _ _ (by rw [hr]; rintro _ ⟨⟩)))]
    simp only [List.isEmpty_nil, Bool.not_true, runIf_false]
    rw [bind_ok (pure_run ..), bind_ok (lift_forward ..), bind_ok (props_tag ht hs0 rfl ..)]
    simp only [isEmpty_of_ne ht.ne, Bool.not_false, runIf_true]
    rw [bind_ok (lift_of (bound_sep _ _ _ hs0)), bind_ok (lift_forward ..), bind_ok (props_anchor ha hs' ..)]
    simp only [isEmpty_of_ne ha.ne, List.isEmpty_nil, Bool.not_false, if_true]
    rw [bind_ok (a := a) (s' := ld L (st k (pre ++ [] ++ [] ++ (tg ++ sp)) (0x26 :: a ++ sp') X))]
    · rw [bind_ok (lift_forward ..)]
      simp
    · rw [bind_ok (lift_of (bound_sep _ _ _ hs'))]
      simp

/-- From a node without properties to the same node with properties. -/
theorem scalarNode_prop {g : LM Yaml} {f : Form} {X : Bytes} {k k' : Ctx} {L : Loader} {A : Anchors} {pre p' post' : Bytes}
    {pos : Nat} {y : Yaml}
    (hwf : f.wf X) (hfine : f.fine k.tag) (hX : noProps X = true) (hL : L.Ready)
    (hnew : f.name ≠ [] → mapGet f.name A = none)
    (h : scalarNode g (ld L (st k (pre ++ f.text) [] X)) =
      (.ok (.mk pos [] y), ld (L.put A) (st k' p' [] post'))) :
    scalarNode g (ld L (st k pre [] (f.text ++ X))) =
      (.ok (.mk pos f.val y), ld (L.put (if f.name = [] then A else mapInsert f.name (.mk pos f.val y) A))
        (st k' p' [] post')) := by
  rw [scalarNode, bind_ok (nodeProps_none _ _ _ _ hX)] at h
  simp only at h
  rw [bind_ok (get_run _)] at h
  rw [scalarNode, bind_ok (nodeProps_read hwf hfine hX ..)]
  simp only
  rw [bind_ok (get_run _)]
  rcases hg : g (ld L (st k (pre ++ f.text) [] X)) with ⟨o, l1⟩
  rcases o with y1 | e | q | _
  · rw [bind_ok hg] at h ⊢
    rcases hf : lift forward l1 with ⟨o, l2⟩
    rcases o with u | e | q | _
    · rw [bind_ok hf] at h ⊢
      simp only [List.isEmpty_nil, Bool.not_true, Bool.false_eq_true, if_false, pure_run, Node.new] at h
      injection h with h1 h2
      injection h1 with h1
      injection h1 with h3 h4 h5
      subst h2
      rw [ld_parser] at h3
      by_cases hn : f.name = []
      · simp [hn, Node.new, h3, h5]
      · have hA : (L.put A).anchors[(L.put A).docInd]? = some A := by
          have : L.docInd < L.anchors.length := hL
          simp [Loader.put, List.getElem?_set, this]
        simp only [isEmpty_of_ne hn, Bool.not_false, if_true, hn, if_false]
        rw [ld_parser, h3, h5, Node.new]
        rw [bind_ok (a := false)
          (s' := ld (L.put (mapInsert f.name (.mk pos f.val y) A)) (st k' p' [] post'))]
        · simp
        · rw [anchorInsert, bind_ok (a := A) (s' := ld (L.put A) (st k' p' [] post'))]
          · rw [bind_ok (a := ()) (s' := ld (L.put (mapInsert f.name (.mk pos f.val y) A)) (st k' p' [] post'))]
            · rw [hnew hn]; rfl
            · simp [M.modify, ld, Loader.put]
          · simp only [curAnchors, ld_anchors, ld_docInd, hA]
    all_goals (simp [Bind.bind, M.bind, hf] at h)
  all_goals (simp [Bind.bind, M.bind, hg] at h)

end YamlPeg
