import Verif.Proof.DumpEnds
import Verif.Proof.Debug
import Verif.Spec.LineEnds
import Verif.Spec.DumpText
import Verif.Props.Nodes
/-! # The text of a dump: positions, documents, line ends -/

namespace YamlPeg
open M

/-! ## Positions are not printed -/

mutual
theorem eraseMeta_noPos : ∀ x : Node, Props.eraseMeta x.noPos = Props.eraseMeta x
  | .mk p t y => by rw [Node.noPos, Props.eraseMeta, Props.eraseMeta, eraseMetaY_noPos y]
theorem eraseMetaY_noPos : ∀ y : Yaml, Props.eraseMetaY y.noPos = Props.eraseMetaY y
  | .null => rfl
  | .bool _ => rfl
  | .int _ => rfl
  | .float _ => rfl
  | .str _ => rfl
  | .alias _ => rfl
  | .seq l => by rw [Yaml.noPos, Props.eraseMetaY, Props.eraseMetaY, eraseMetaL_noPos l]
  | .map m => by rw [Yaml.noPos, Props.eraseMetaY, Props.eraseMetaY, eraseMetaM_noPos m]
theorem eraseMetaL_noPos : ∀ l : List Node, Props.eraseMetaL (noPosNodes l) = Props.eraseMetaL l
  | [] => rfl
  | x :: xs => by rw [noPosNodes, Props.eraseMetaL, Props.eraseMetaL, eraseMeta_noPos x, eraseMetaL_noPos xs]
theorem eraseMetaM_noPos : ∀ l : List (Node × Node), Props.eraseMetaM (noPosEntries l) = Props.eraseMetaM l
  | [] => rfl
  | e :: es => by rw [noPosEntries, Props.eraseMetaM, Props.eraseMetaM, eraseMetaE_noPos e, eraseMetaM_noPos es]
theorem eraseMetaE_noPos : ∀ e : Node × Node, Props.eraseMetaE (noPosEntry e) = Props.eraseMetaE e
  | (k, v) => by rw [noPosEntry, Props.eraseMetaE, Props.eraseMetaE, eraseMeta_noPos k, eraseMeta_noPos v]
end

/-- A table without positions. -/
def noPosTable (A : Anchors) : Anchors := A.map fun kv => (kv.1, kv.2.noPos)

theorem findAnchor_noPos (x : Node) : ∀ A : Anchors, findAnchor x.noPos (noPosTable A) = findAnchor x A
  | [] => rfl
  | (k, v) :: r => by
    have ih := findAnchor_noPos x r
    simp only [noPosTable] at ih ⊢
    simp only [List.map_cons, findAnchor, ih]
    rw [Props.C32_ignores_pos_and_tag v.noPos x.noPos v x (eraseMeta_noPos v) (eraseMeta_noPos x)]

theorem tagText_noPos (x : Node) : tagText x.noPos = tagText x := by
  obtain ⟨p, t, y⟩ := x
  have : (Node.mk p t y).noPos.tagOf = (Node.mk p t y).tagOf := by
    rw [Node.noPos]
    cases y <;> rfl
  unfold tagText
  rw [this]

theorem anchorText_noPos (x : Node) (A : Anchors) : anchorText x.noPos (noPosTable A) = anchorText x A := by
  unfold anchorText; rw [findAnchor_noPos]

theorem isColl_noPos (y : Yaml) : y.noPos.isColl = y.isColl := by cases y <;> rfl
theorem valueLevel_noPos (root : Root) (level : Nat) (first : Bool) (y : Yaml) :
    valueLevel root level first y.noPos = valueLevel root level first y := by cases y <;> rfl
theorem Node.noPos_yaml (x : Node) : x.noPos.yaml = x.yaml.noPos := by cases x; rfl

mutual
theorem dumpNode_noPos {cfg : DumpCfg} {n : Nat} {A : Anchors} : ∀ (x : Node) (root : Root) (level : Nat),
    dumpNode cfg n (noPosTable A) root level x.noPos = dumpNode cfg n A root level x
  | .mk p t y, root, level => by
    have h1 := anchorText_noPos (.mk p t y) A
    have h2 := tagText_noPos (.mk p t y)
    rw [Node.noPos] at h1 h2 ⊢
    rw [dumpNode, dumpNode, h1, h2, dumpYaml_noPos y root level]
theorem dumpYaml_noPos {cfg : DumpCfg} {n : Nat} {A : Anchors} : ∀ (y : Yaml) (root : Root) (level : Nat),
    dumpYaml cfg n (noPosTable A) root level y.noPos = dumpYaml cfg n A root level y
  | .null, root, level => rfl
  | .bool _, root, level => rfl
  | .int _, root, level => rfl
  | .float _, root, level => rfl
  | .alias _, root, level => rfl
  | .str _, root, level => rfl
  | .seq l, root, level => by rw [Yaml.noPos, dumpYaml, dumpYaml, dumpItems_noPos l level true]
  | .map m, root, level => by rw [Yaml.noPos, dumpYaml, dumpYaml, dumpEntries_noPos m root level true]
theorem dumpItems_noPos {cfg : DumpCfg} {n : Nat} {A : Anchors} : ∀ (l : List Node) (level : Nat) (first : Bool),
    dumpItems cfg n (noPosTable A) level first (noPosNodes l) = dumpItems cfg n A level first l
  | [], level, first => rfl
  | x :: xs, level, first => by
    rw [noPosNodes, dumpItems, dumpItems, dumpNode_noPos x _ _, dumpItems_noPos xs level false]
theorem dumpEntries_noPos {cfg : DumpCfg} {n : Nat} {A : Anchors} : ∀ (l : List (Node × Node)) (root : Root) (level : Nat) (first : Bool),
    dumpEntries cfg n (noPosTable A) root level first (noPosEntries l) = dumpEntries cfg n A root level first l
  | [], root, level, first => rfl
  | e :: es, root, level, first => by
    rw [noPosEntries, dumpEntries, dumpEntries, dumpEntry_noPos e root level first, dumpEntries_noPos es root level false]
theorem dumpEntry_noPos {cfg : DumpCfg} {n : Nat} {A : Anchors} : ∀ (e : Node × Node) (root : Root) (level : Nat) (first : Bool),
    dumpEntry cfg n (noPosTable A) root level first (noPosEntry e) = dumpEntry cfg n A root level first e
  | (k, v), root, level, first => by
    rw [noPosEntry, dumpEntry, dumpEntry, dumpNode_noPos k _ _, Node.noPos_yaml, Node.noPos_yaml, valueLevel_noPos,
      dumpNode_noPos v _ _, isColl_noPos, isColl_noPos]
end

theorem dumpDocs_noPos {cfg : DumpCfg} {n : Nat} {As : List Anchors} : ∀ (ns : List Node) (i : Nat),
    dumpDocs cfg n (As.map noPosTable) i (ns.map Node.noPos) = dumpDocs cfg n As i ns
  | [], i => rfl
  | x :: xs, i => by
    have : (As.map noPosTable).getD i [] = noPosTable (As.getD i []) := by
      rw [List.getD_eq_getElem?_getD, List.getD_eq_getElem?_getD, List.getElem?_map]
      cases As[i]? <;> rfl
    rw [List.map_cons, dumpDocs, dumpDocs, dumperDump, dumperDump, this, dumpNode_noPos x _ _, dumpDocs_noPos xs (i + 1)]

/-! ## Line ends -/

theorem withBreaks_append (e a c : Bytes) : withBreaks e (a ++ c) = withBreaks e a ++ withBreaks e c := by
  induction a with
  | nil => rfl
  | cons x a ih => simp [withBreaks, ih]

theorem withBreaks_free {e a : Bytes} (h : (0x0A : UInt8) ∉ a) : withBreaks e a = a := by
  induction a with
  | nil => rfl
  | cons x a ih =>
    simp only [List.mem_cons, not_or] at h
    rw [withBreaks, if_neg (Ne.symm h.1), ih h.2]; rfl

theorem withBreaks_reverse (a : Bytes) : (withBreaks [0x0D, 0x0A] a).reverse = withBreaks [0x0A, 0x0D] a.reverse := by
  induction a with
  | nil => rfl
  | cons x a ih =>
    rw [List.reverse_cons, withBreaks_append, ← ih, withBreaks, List.reverse_append]
    congr 1
    by_cases h : x = 0x0A <;> simp [withBreaks, h]

theorem ws2_lf (c : UInt8) : isWs2 c 0x0A = false ∧ isWs2 c 0x0D = false ∧ isWs2 0x0A c = false ∧ isWs2 0x0D c = false := by
  refine ⟨?_, ?_, ?_, ?_⟩ <;> simp [isWs2] <;> decide
theorem ws3_lf (a c : UInt8) : isWs3 a c 0x0A = false ∧ isWs3 a c 0x0D = false ∧ isWs3 a 0x0A c = false ∧ isWs3 a 0x0D c = false ∧
    isWs3 0x0A a c = false ∧ isWs3 0x0D a c = false := by
  refine ⟨?_, ?_, ?_, ?_, ?_, ?_⟩ <;> simp [isWs3] <;> decide

theorem trimStart_w1 {c : UInt8} {r : Bytes} (h : isWs1 c = true) : trimStart (c :: r) = trimStart r := by
  rw [trimStart.eq_def]; simp only [h, if_true]
theorem trimStart_one {c : UInt8} (h : ¬ isWs1 c = true) : trimStart [c] = [c] := by
  rw [trimStart.eq_def]; simp only [if_neg h]
theorem trimStart_two {c d : UInt8} (h : ¬ isWs1 c = true) (h2 : ¬ isWs2 c d = true) : trimStart [c, d] = [c, d] := by
  rw [trimStart.eq_def]; simp only [if_neg h, if_neg h2]
theorem trimStart_ws2 {c d : UInt8} {r : Bytes} (h : ¬ isWs1 c = true) (h2 : isWs2 c d = true) : trimStart (c :: d :: r) = trimStart r := by
  rw [trimStart.eq_def]; simp only [if_neg h, if_pos h2]
theorem trimStart_ws3 {c d a : UInt8} {r : Bytes} (h : ¬ isWs1 c = true) (h2 : ¬ isWs2 c d = true) (h3 : isWs3 c d a = true) :
    trimStart (c :: d :: a :: r) = trimStart r := by
  rw [trimStart.eq_def]; simp only [if_neg h, if_neg h2, if_pos h3]
theorem trimStart_text {c d a : UInt8} {r : Bytes} (h : ¬ isWs1 c = true) (h2 : ¬ isWs2 c d = true) (h3 : ¬ isWs3 c d a = true) :
    trimStart (c :: d :: a :: r) = c :: d :: a :: r := by
  rw [trimStart.eq_def]; simp only [if_neg h, if_neg h2, if_neg h3]

theorem trimRev_w1 {c : UInt8} {r : Bytes} (h : isWs1 c = true) : trimRev (c :: r) = trimRev r := by
  rw [trimRev.eq_def]; simp only [h, if_true]
theorem trimRev_one {c : UInt8} (h : ¬ isWs1 c = true) : trimRev [c] = [c] := by
  rw [trimRev.eq_def]; simp only [if_neg h]
theorem trimRev_two {c d : UInt8} (h : ¬ isWs1 c = true) (h2 : ¬ isWs2 d c = true) : trimRev [c, d] = [c, d] := by
  rw [trimRev.eq_def]; simp only [if_neg h, if_neg h2]
theorem trimRev_ws2 {c d : UInt8} {r : Bytes} (h : ¬ isWs1 c = true) (h2 : isWs2 d c = true) : trimRev (c :: d :: r) = trimRev r := by
  rw [trimRev.eq_def]; simp only [if_neg h, if_pos h2]
theorem trimRev_ws3 {c d a : UInt8} {r : Bytes} (h : ¬ isWs1 c = true) (h2 : ¬ isWs2 d c = true) (h3 : isWs3 a d c = true) :
    trimRev (c :: d :: a :: r) = trimRev r := by
  rw [trimRev.eq_def]; simp only [if_neg h, if_neg h2, if_pos h3]
theorem trimRev_text {c d a : UInt8} {r : Bytes} (h : ¬ isWs1 c = true) (h2 : ¬ isWs2 d c = true) (h3 : ¬ isWs3 a d c = true) :
    trimRev (c :: d :: a :: r) = c :: d :: a :: r := by
  rw [trimRev.eq_def]; simp only [if_neg h, if_neg h2, if_neg h3]

/-- Trimming commutes with the change of line ends. -/
theorem trimStart_crlf : ∀ s : Bytes, trimStart (crlf s) = crlf (trimStart s)
  | [] => rfl
  | c :: r1 => by
    by_cases hw : isWs1 c = true
    · have ih := trimStart_crlf r1
      rw [trimStart_w1 hw, ← ih]
      by_cases hc : c = 0x0A
      · subst hc
        show trimStart (0x0D :: 0x0A :: crlf r1) = _
        rw [trimStart_w1 (by decide), trimStart_w1 (by decide)]
      · have : crlf (c :: r1) = c :: crlf r1 := by simp [crlf, withBreaks, hc]
        rw [this, trimStart_w1 hw]
    · have hc : c ≠ 0x0A := by rintro rfl; exact hw (by decide)
      have e1 : ∀ r, crlf (c :: r) = c :: crlf r := fun r => by simp [crlf, withBreaks, hc]
      cases r1 with
      | nil => rw [trimStart_one hw, e1, show crlf [] = [] from rfl, trimStart_one hw]
      | cons d r2 =>
        by_cases hd : d = 0x0A
        · subst hd
          have n2 : ∀ x : UInt8, x = 0x0A ∨ x = 0x0D → ¬ isWs2 c x = true := by
            rintro x (rfl | rfl) <;> simp [ws2_lf]
          have n3 : ∀ x a : UInt8, x = 0x0A ∨ x = 0x0D → ¬ isWs3 c x a = true := by
            rintro x a (rfl | rfl) <;> simp [ws3_lf]
          have e4 : crlf (c :: 0x0A :: r2) = c :: 0x0D :: 0x0A :: crlf r2 := by rw [e1]; rfl
          rw [e4, trimStart_text hw (n2 _ (by simp)) (n3 _ _ (by simp))]
          cases r2 with
          | nil => rw [trimStart_two hw (n2 _ (by simp)), e4]
          | cons a r3 => rw [trimStart_text hw (n2 _ (by simp)) (n3 _ _ (by simp)), e4]
        · have e2 : ∀ r, crlf (d :: r) = d :: crlf r := fun r => by simp [crlf, withBreaks, hd]
          rw [e1, e2]
          by_cases h2 : isWs2 c d = true
          · rw [trimStart_ws2 hw h2, trimStart_ws2 hw h2, trimStart_crlf r2]
          · cases r2 with
            | nil => rw [show crlf [] = [] from rfl, trimStart_two hw h2, e1, e2]; rfl
            | cons a r3 =>
              by_cases ha : a = 0x0A
              · subst ha
                have e5 : crlf (0x0A :: r3) = 0x0D :: 0x0A :: crlf r3 := rfl
                rw [e5, trimStart_text hw h2 (by simp [ws3_lf]), trimStart_text hw h2 (by simp [ws3_lf]), e1, e2, e5]
              · have e3 : ∀ r, crlf (a :: r) = a :: crlf r := fun r => by simp [crlf, withBreaks, ha]
                rw [e3]
                by_cases h3 : isWs3 c d a = true
                · rw [trimStart_ws3 hw h2 h3, trimStart_ws3 hw h2 h3, trimStart_crlf r3]
                · rw [trimStart_text hw h2 h3, trimStart_text hw h2 h3, e1, e2, e3]

theorem trimRev_crlf : ∀ s : Bytes, trimRev (withBreaks [0x0A, 0x0D] s) = withBreaks [0x0A, 0x0D] (trimRev s)
  | [] => rfl
  | c :: r1 => by
    by_cases hw : isWs1 c = true
    · have ih := trimRev_crlf r1
      rw [trimRev_w1 hw, ← ih]
      by_cases hc : c = 0x0A
      · subst hc
        show trimRev (0x0A :: 0x0D :: withBreaks [0x0A, 0x0D] r1) = _
        rw [trimRev_w1 (by decide), trimRev_w1 (by decide)]
      · have : withBreaks [0x0A, 0x0D] (c :: r1) = c :: withBreaks [0x0A, 0x0D] r1 := by simp [withBreaks, hc]
        rw [this, trimRev_w1 hw]
    · have hc : c ≠ 0x0A := by rintro rfl; exact hw (by decide)
      have e1 : ∀ r, withBreaks [0x0A, 0x0D] (c :: r) = c :: withBreaks [0x0A, 0x0D] r := fun r => by simp [withBreaks, hc]
      cases r1 with
      | nil => rw [trimRev_one hw, e1, show withBreaks [0x0A, 0x0D] [] = [] from rfl, trimRev_one hw]
      | cons d r2 =>
        by_cases hd : d = 0x0A
        · subst hd
          have n2 : ∀ x : UInt8, x = 0x0A ∨ x = 0x0D → ¬ isWs2 x c = true := by
            rintro x (rfl | rfl) <;> simp [ws2_lf]
          have n3 : ∀ x a : UInt8, x = 0x0A ∨ x = 0x0D → ¬ isWs3 a x c = true := by
            rintro x a (rfl | rfl) <;> simp [ws3_lf]
          have e4 : withBreaks [0x0A, 0x0D] (c :: 0x0A :: r2) = c :: 0x0A :: 0x0D :: withBreaks [0x0A, 0x0D] r2 := by rw [e1]; rfl
          rw [e4, trimRev_text hw (n2 _ (by simp)) (n3 _ _ (by simp))]
          cases r2 with
          | nil => rw [trimRev_two hw (n2 _ (by simp)), e4]
          | cons a r3 => rw [trimRev_text hw (n2 _ (by simp)) (n3 _ _ (by simp)), e4]
        · have e2 : ∀ r, withBreaks [0x0A, 0x0D] (d :: r) = d :: withBreaks [0x0A, 0x0D] r := fun r => by simp [withBreaks, hd]
          rw [e1, e2]
          by_cases h2 : isWs2 d c = true
          · rw [trimRev_ws2 hw h2, trimRev_ws2 hw h2, trimRev_crlf r2]
          · cases r2 with
            | nil => rw [show withBreaks [0x0A, 0x0D] [] = [] from rfl, trimRev_two hw h2, e1, e2]; rfl
            | cons a r3 =>
              by_cases ha : a = 0x0A
              · subst ha
                have e5 : withBreaks [0x0A, 0x0D] (0x0A :: r3) = 0x0A :: 0x0D :: withBreaks [0x0A, 0x0D] r3 := rfl
                rw [e5, trimRev_text hw h2 (by simp [ws3_lf]), trimRev_text hw h2 (by simp [ws3_lf]), e1, e2, e5]
              · have e3 : ∀ r, withBreaks [0x0A, 0x0D] (a :: r) = a :: withBreaks [0x0A, 0x0D] r := fun r => by simp [withBreaks, ha]
                rw [e3]
                by_cases h3 : isWs3 a d c = true
                · rw [trimRev_ws3 hw h2 h3, trimRev_ws3 hw h2 h3, trimRev_crlf r3]
                · rw [trimRev_text hw h2 h3, trimRev_text hw h2 h3, e1, e2, e3]

theorem trimEnd_crlf (s : Bytes) : trimEnd (crlf s) = crlf (trimEnd s) := by
  have h := withBreaks_reverse (trimRev s.reverse).reverse
  rw [List.reverse_reverse] at h
  rw [trimEnd, trimEnd, crlf, crlf, withBreaks_reverse, trimRev_crlf, ← h, List.reverse_reverse]

theorem trim_crlf (s : Bytes) : trim (crlf s) = crlf (trim s) := by
  rw [trim, trim, trimStart_crlf, trimEnd_crlf]

/-! ## The bytes of lines -/

theorem trimStart_sub : ∀ s : Bytes, ∀ c ∈ trimStart s, c ∈ s
  | [], c, h => h
  | a :: r1, c, h => by
    by_cases hw : isWs1 a = true
    · rw [trimStart_w1 hw] at h; exact List.mem_cons_of_mem _ (trimStart_sub r1 c h)
    · cases r1 with
      | nil => rw [trimStart_one hw] at h; exact h
      | cons d r2 =>
        by_cases h2 : isWs2 a d = true
        · rw [trimStart_ws2 hw h2] at h
          exact List.mem_cons_of_mem _ (List.mem_cons_of_mem _ (trimStart_sub r2 c h))
        · cases r2 with
          | nil => rw [trimStart_two hw h2] at h; exact h
          | cons b r3 =>
            by_cases h3 : isWs3 a d b = true
            · rw [trimStart_ws3 hw h2 h3] at h
              exact List.mem_cons_of_mem _ (List.mem_cons_of_mem _ (List.mem_cons_of_mem _ (trimStart_sub r3 c h)))
            · rw [trimStart_text hw h2 h3] at h; exact h

theorem trimRev_sub : ∀ s : Bytes, ∀ c ∈ trimRev s, c ∈ s
  | [], c, h => h
  | a :: r1, c, h => by
    by_cases hw : isWs1 a = true
    · rw [trimRev_w1 hw] at h; exact List.mem_cons_of_mem _ (trimRev_sub r1 c h)
    · cases r1 with
      | nil => rw [trimRev_one hw] at h; exact h
      | cons d r2 =>
        by_cases h2 : isWs2 d a = true
        · rw [trimRev_ws2 hw h2] at h
          exact List.mem_cons_of_mem _ (List.mem_cons_of_mem _ (trimRev_sub r2 c h))
        · cases r2 with
          | nil => rw [trimRev_two hw h2] at h; exact h
          | cons b r3 =>
            by_cases h3 : isWs3 b d a = true
            · rw [trimRev_ws3 hw h2 h3] at h
              exact List.mem_cons_of_mem _ (List.mem_cons_of_mem _ (List.mem_cons_of_mem _ (trimRev_sub r3 c h)))
            · rw [trimRev_text hw h2 h3] at h; exact h

theorem trimEnd_sub (s : Bytes) : ∀ c ∈ trimEnd s, c ∈ s := by
  intro c h
  rw [trimEnd, List.mem_reverse] at h
  exact List.mem_reverse.1 (trimRev_sub _ c h)

/-- A piece of `split_inclusive`: no line feed but perhaps a last one. -/
theorem splitInclNl_shape : ∀ s : Bytes, ∀ l ∈ splitInclNl s, ∃ a, (0x0A : UInt8) ∉ a ∧ (l = a ∨ l = a ++ [0x0A])
  | [], l, h => by simp [splitInclNl] at h
  | c :: r, l, h => by
    have ih := splitInclNl_shape r
    rw [splitInclNl] at h
    by_cases hc : c = 0x0A
    · subst hc
      rw [if_pos (by decide), List.mem_cons] at h
      rcases h with rfl | h
      · exact ⟨[], by simp, .inr rfl⟩
      · exact ih l h
    · rw [if_neg (by simpa using hc)] at h
      cases hs : splitInclNl r with
      | nil =>
        simp only [hs, List.mem_singleton] at h
        exact ⟨[c], by simpa using Ne.symm hc, .inl h⟩
      | cons x xs =>
        simp only [hs, List.mem_cons] at h
        rcases h with rfl | h
        · obtain ⟨a, ha, h⟩ := ih x (by rw [hs]; exact List.mem_cons_self ..)
          refine ⟨c :: a, by simp [ha, Ne.symm hc], ?_⟩
          rcases h with rfl | rfl
          · exact .inl rfl
          · exact .inr rfl
        · exact ih l (by rw [hs]; exact List.mem_cons_of_mem _ h)

theorem lines_free (s : Bytes) : ∀ l ∈ lines s, (0x0A : UInt8) ∉ l := by
  intro l h
  rw [lines, List.mem_map] at h
  obtain ⟨p, hp, rfl⟩ := h
  obtain ⟨a, ha, hp⟩ := splitInclNl_shape s p hp
  have ha' : (0x0A : UInt8) ∉ a.reverse := by simpa using ha
  unfold stripLine
  rcases hp with rfl | rfl
  · split
    · rename_i r h; exact absurd (by rw [h]; simp) ha'
    · rename_i r _ h; exact absurd (by rw [h]; simp) ha'
    · exact ha
  · rw [List.reverse_append]
    show (0x0A : UInt8) ∉ (match 0x0A :: a.reverse with | 0x0A :: 0x0D :: r => r.reverse | 0x0A :: r => r.reverse | _ => a ++ [0x0A])
    cases h : a.reverse with
    | nil => simp
    | cons x xs =>
      rw [h] at ha'
      simp only [List.mem_cons, not_or] at ha'
      by_cases hx : x = 0x0D
      · subst hx; simpa using ha'.2
      · split
        · rename_i r he; cases he; exact absurd rfl hx
        · rename_i r _ he; cases he; simpa using ⟨ha'.2, ha'.1⟩
        · rename_i _ h2; exact absurd rfl (h2 (x :: xs))

theorem charsAux_sub : ∀ (n : Nat) (s ch : Bytes), ch ∈ charsAux n s → ∀ c ∈ ch, c ∈ s
  | 0, s, ch, h => by simp [charsAux] at h
  | n + 1, [], ch, h => by simp [charsAux] at h
  | n + 1, c :: rest, ch, h => by
    rw [charsAux] at h
    simp only [List.mem_cons] at h
    rcases h with rfl | h
    · intro d hd
      rw [List.mem_cons] at hd
      rcases hd with rfl | hd
      · exact List.mem_cons_self ..
      · exact List.mem_cons_of_mem _ (List.mem_of_mem_take hd)
    · intro d hd
      exact List.mem_cons_of_mem _ (List.mem_of_mem_drop (charsAux_sub n _ ch h d hd))

theorem hexByte_free : ∀ n < 16, (0x0A : UInt8) ≠ hexByte n := by decide

theorem natHex_free (n : Nat) : (0x0A : UInt8) ∉ natHex n := by
  by_cases h : n < 16
  · rw [natHex_lt h, List.mem_singleton]; exact hexByte_free n h
  · rw [natHex_ge (Nat.not_lt.1 h), List.mem_append, not_or, List.mem_singleton]
    exact ⟨natHex_free (n / 16), hexByte_free _ (Nat.mod_lt _ (by decide))⟩

/-- Escaping invents no line feed. -/
def DumpCfg.NoNewBreaks (cfg : DumpCfg) : Prop := ∀ ch, (0x0A : UInt8) ∉ ch → (0x0A : UInt8) ∉ cfg.escNonAscii ch

theorem escDebugChar_free {cfg : DumpCfg} (hc : cfg.NoNewBreaks) {ch : Bytes} (h : (0x0A : UInt8) ∉ ch) :
    (0x0A : UInt8) ∉ escDebugChar cfg ch := by
  unfold escDebugChar
  split
  · rename_i c
    repeat' split
    all_goals first | decide | skip
    · have := natHex_free c.toNat
      simp [this]
    · exact h
  · exact hc ch h

theorem debugStr_free {cfg : DumpCfg} (hc : cfg.NoNewBreaks) {s : Bytes} (h : (0x0A : UInt8) ∉ s) :
    (0x0A : UInt8) ∉ debugStr cfg s := by
  unfold debugStr
  have : (0x0A : UInt8) ∉ ((chars s).map (escDebugChar cfg)).flatten := by
    intro hm
    rw [List.mem_flatten] at hm
    obtain ⟨l, hl, hm⟩ := hm
    rw [List.mem_map] at hl
    obtain ⟨ch, hch, rfl⟩ := hl
    exact escDebugChar_free hc (fun hx => h (charsAux_sub _ _ _ hch _ hx)) hm
  simp [this]

theorem spaces_free (n : Nat) : (0x0A : UInt8) ∉ spaces n := by
  intro h
  have := List.eq_of_mem_replicate h
  revert this; decide

theorem joinBytes_cons (sep x y : Bytes) (r : List Bytes) : joinBytes sep (x :: y :: r) = x ++ sep ++ joinBytes sep (y :: r) := rfl

theorem crlf_join : ∀ ls : List Bytes, (∀ l ∈ ls, (0x0A : UInt8) ∉ l) →
    crlf (joinBytes [0x0A] ls) = joinBytes [0x0D, 0x0A] ls
  | [], _ => rfl
  | [x], h => withBreaks_free (h x (List.mem_singleton.2 rfl))
  | x :: y :: r, h => by
    have ih := crlf_join (y :: r) (fun l hl => h l (List.mem_cons_of_mem _ hl))
    rw [joinBytes_cons, joinBytes_cons, ← ih]
    unfold crlf
    rw [withBreaks_append, withBreaks_append, withBreaks_free (h x (List.mem_cons_self ..))]; rfl


theorem splitInclNl_flatten : ∀ s : Bytes, (splitInclNl s).flatten = s
  | [] => rfl
  | c :: r => by
    have ih := splitInclNl_flatten r
    rw [splitInclNl]
    split
    · simp [ih]
    · split
      · rename_i h; rw [h] at ih; rw [← ih]; rfl
      · rename_i h; rw [h] at ih; rw [← ih]; rfl

theorem two_lines {s : Bytes} (hm : (0x0A : UInt8) ∈ s) (ho : ¬ OneLineFeed s) : 2 ≤ (lines s).length := by
  rw [lines, List.length_map]
  have hf := splitInclNl_flatten s
  have hsh := splitInclNl_shape s
  match h : splitInclNl s with
  | [] => rw [h] at hf; rw [← hf] at hm; simp at hm
  | [l] =>
    rw [h] at hf hsh
    simp only [List.flatten_cons, List.flatten_nil, List.append_nil] at hf
    obtain ⟨a, ha, hl⟩ := hsh l (List.mem_singleton.2 rfl)
    subst hf
    rcases hl with rfl | rfl
    · exact absurd hm ha
    · exact absurd ⟨a, ha, rfl⟩ ho
  | x :: y :: r => simp

/-! ## The dump on Windows -/

/-- The same dumper, compiled for Windows. -/
def DumpCfg.win (cfg : DumpCfg) : DumpCfg := { cfg with windows := true }

theorem nl_unix {cfg : DumpCfg} (hu : cfg.windows = false) : cfg.nl = [0x0A] := by simp [DumpCfg.nl, hu]
theorem nl_win (cfg : DumpCfg) : cfg.win.nl = [0x0D, 0x0A] := by simp [DumpCfg.nl, DumpCfg.win]

theorem crlf_append (a c : Bytes) : crlf (a ++ c) = crlf a ++ crlf c := withBreaks_append _ a c
theorem crlf_free {a : Bytes} (h : (0x0A : UInt8) ∉ a) : crlf a = a := withBreaks_free h
theorem crlf_nl {cfg : DumpCfg} (hu : cfg.windows = false) : crlf cfg.nl = cfg.win.nl := by rw [nl_unix hu, nl_win]; rfl

theorem endless_one_line {s : Bytes} (ho : OneLineFeed s) (hs : ¬ HasSeparator s) : Hanging s := by
  obtain ⟨a, ha, rfl⟩ := ho
  refine ⟨?_, a, 0x0A, [], rfl, .inl rfl, ?_⟩
  · rw [lines, List.length_map]
    have : ∀ a : Bytes, (0x0A : UInt8) ∉ a → (splitInclNl (a ++ [0x0A])).length = 1 := by
      intro a ha
      induction a with
      | nil => rfl
      | cons c a ih =>
        simp only [List.mem_cons, not_or] at ha
        have ih := ih ha.2
        rw [List.cons_append, splitInclNl, if_neg (by simpa using Ne.symm ha.1)]
        split
        · rfl
        · rename_i h; rw [h] at ih; simpa using ih
    rw [this a ha]; decide
  · rintro A1 A2 rfl _ h
    refine hs ?_
    have e : ∀ p : Bytes, p <+: A2 ++ [0x0A] → p <:+: A1 ++ A2 ++ [0x0A] := by
      rintro p ⟨t, ht⟩
      exact ⟨A1, t, by rw [List.append_assoc, ht, List.append_assoc]⟩
    rcases h with h | h | h | h
    · exact .inl (e _ h)
    · exact .inr (.inl (e _ h))
    · exact .inr (.inr (.inl (e _ h)))
    · exact .inr (.inr (.inr (e _ h)))

theorem dumpStr_win {cfg : DumpCfg} (hu : cfg.windows = false) (hc : cfg.NoNewBreaks) {n level : Nat} {s : Bytes}
    (h8 : Utf8 s) (ho' : OneLineFeed s → ¬ HasSeparator s) : dumpStr cfg.win n level s = (dumpStr cfg n level s).map crlf := by
  by_cases ho : OneLineFeed s
  · have hh : ∀ cfg : DumpCfg, dumpStr cfg n level s = .diverge := fun cfg => by
      rcases dumpStr_outcome cfg h8 with ⟨_, h⟩ | ⟨h, _⟩
      · exact h n level
      · exact absurd (endless_one_line ho (ho' ho)) h
    rw [hh, hh]; rfl
  unfold dumpStr
  split
  · rename_i h
    have hl : ∀ l ∈ (lines s).map (fun l => if l.isEmpty then ([] : Bytes) else indent2 level ++ trimEnd l), (0x0A : UInt8) ∉ l := by
      intro l hl
      rw [List.mem_map] at hl
      obtain ⟨x, hx, rfl⟩ := hl
      split
      · simp
      · rw [List.mem_append, not_or]
        exact ⟨spaces_free _, fun h => lines_free s x hx (trimEnd_sub x _ h)⟩
    simp only [Out.map, crlf_append, ← trim_crlf]
    rw [nl_unix hu, nl_win, crlf_join _ hl, show crlf (indent2 level) = indent2 level from crlf_free (spaces_free _)]
    rfl
  · rename_i h
    have hs : (0x0A : UInt8) ∉ s := fun hm => h (two_lines hm ho)
    cases (stringPlain n 0 false (Parser.new s)).1 with
    | ok a => simp only [Out.map]; rw [crlf_free hs]
    | err e => simp only [Out.map]; rw [crlf_free (debugStr_free hc hs)]; rfl
    | panic e => rfl
    | diverge => rfl

theorem truncNl_win {cfg : DumpCfg} (hu : cfg.windows = false) {b : Bytes} (h : b = [] ∨ ∃ a, b = a ++ cfg.nl) :
    truncNl cfg.win (crlf b) = (truncNl cfg b).map crlf := by
  unfold truncNl
  rw [nl_unix hu] at h ⊢
  rw [nl_win]
  rcases h with rfl | ⟨a, rfl⟩
  · rfl
  · rw [crlf_append]
    show (if 2 ≤ (crlf a ++ [0x0D, 0x0A]).length then _ else _) = _
    rw [if_pos (by simp), if_pos (by simp)]
    have e : ∀ (a z : Bytes), z.length = 2 → (a ++ z).take ((a ++ z).length - 2) = a := fun a z hz => by simp [hz]
    have e1 : ∀ (a z : Bytes), z.length = 1 → (a ++ z).take ((a ++ z).length - 1) = a := fun a z hz => by simp [hz]
    simp only [Out.map]
    rw [show ([0x0A] : Bytes).length = 1 from rfl, e1 _ _ rfl, show ([0x0D, 0x0A] : Bytes).length = 2 from rfl, show crlf [0x0A] = [0x0D, 0x0A] from rfl, e _ _ rfl]

theorem tagText_free {x : Node} (h : (0x0A : UInt8) ∉ x.tagOf) : (0x0A : UInt8) ∉ tagText x := by
  unfold tagText
  simp only
  split
  · split <;> simp [h]
  · simp

theorem findAnchor_mem {x : Node} : ∀ {A : Anchors} {a : Bytes}, findAnchor x A = .ok (some a) → ∃ v, (a, v) ∈ A
  | [], a, h => by simp [findAnchor] at h
  | (k, v) :: r, a, h => by
    rw [findAnchor] at h
    split at h
    · cases h; exact ⟨v, List.mem_cons_self ..⟩
    · obtain ⟨w, hw⟩ := findAnchor_mem h; exact ⟨w, List.mem_cons_of_mem _ hw⟩
    all_goals cases h

theorem anchorText_free {x : Node} {A : Anchors} (hA : ∀ kv ∈ A, (0x0A : UInt8) ∉ kv.1) :
    (anchorText x A).map crlf = anchorText x A := by
  unfold anchorText
  cases h : findAnchor x A with
  | ok o =>
    cases o with
    | none => rfl
    | some a =>
      obtain ⟨v, hv⟩ := findAnchor_mem h
      have ha := hA _ hv
      simp only [Out.map]
      rw [crlf_free]
      simp at ha
      simp [ha]
  | err e => rfl
  | panic p => rfl
  | diverge => rfl

theorem Out.bind_map {α β : Type} {x : Out α} {k : α → α} {f g : α → Out β} {m : β → β}
    (h : ∀ a, x = .ok a → f (k a) = (g a).map m) :
    ((x.map k) >>= f) = (x >>= g).map m := by
  show Out.bind _ _ = (Out.bind _ _).map m
  cases x with
  | ok a => exact h a rfl
  | err e => rfl
  | panic p => rfl
  | diverge => rfl

theorem dumpItems_end {cfg : DumpCfg} {n : Nat} {A : Anchors} : ∀ {l : List Node} {level : Nat} {first : Bool} {t : Bytes},
    dumpItems cfg n A level first l = .ok t → t = [] ∨ ∃ a, t = a ++ cfg.nl
  | [], level, first, t, h => by rw [dumpItems] at h; cases h; exact .inl rfl
  | x :: xs, level, first, t, h => by
    rw [dumpItems, Out.bind_ok_iff] at h
    obtain ⟨s, _, h⟩ := h
    rw [Out.bind_ok_iff] at h
    obtain ⟨r, hr, h⟩ := h
    cases h
    rcases dumpItems_end hr with rfl | ⟨a, rfl⟩
    · exact .inr ⟨_, List.append_nil _⟩
    · exact .inr ⟨_, (List.append_assoc ..).symm⟩

theorem dumpEntries_end {cfg : DumpCfg} {n : Nat} {A : Anchors} : ∀ {l : List (Node × Node)} {root : Root} {level : Nat} {first : Bool}
    {t : Bytes}, dumpEntries cfg n A root level first l = .ok t → t = [] ∨ ∃ a, t = a ++ cfg.nl
  | [], root, level, first, t, h => by rw [dumpEntries] at h; cases h; exact .inl rfl
  | (k, v) :: xs, root, level, first, t, h => by
    rw [dumpEntries, Out.bind_ok_iff] at h
    obtain ⟨s, hs, h⟩ := h
    rw [Out.bind_ok_iff] at h
    obtain ⟨r, hr, h⟩ := h
    cases h
    rw [dumpEntry, Out.bind_ok_iff] at hs
    obtain ⟨_, _, hs⟩ := hs
    rw [Out.bind_ok_iff] at hs
    obtain ⟨_, _, hs⟩ := hs
    cases hs
    rcases dumpEntries_end hr with rfl | ⟨a, rfl⟩
    · exact .inr ⟨_, List.append_nil _⟩
    · exact .inr ⟨_, (List.append_assoc ..).symm⟩

/-- What the table and the escapes must not do. -/
structure WinOk (cfg : DumpCfg) (A : Anchors) : Prop where
  unix : cfg.windows = false
  esc : cfg.NoNewBreaks
  anch : ∀ kv ∈ A, (0x0A : UInt8) ∉ kv.1

mutual
theorem dumpNode_win {cfg : DumpCfg} {n : Nat} {A : Anchors} (W : WinOk cfg A) : ∀ (x : Node) (root : Root) (level : Nat), Everywhere PlainTexts x →
    dumpNode cfg.win n A root level x = (dumpNode cfg n A root level x).map crlf
  | .mk p t y, root, level, hx => by
    have hk := everywhere_mk.1 hx
    rw [dumpNode, dumpNode, dumpYaml_win W y root level ⟨p, t, hx _ Occurs.self⟩ hk.2]
    conv => lhs; rw [← anchorText_free W.anch]
    refine Out.bind_map fun a ha => Out.bind_map fun b hb => ?_
    show Out.ok _ = Out.ok _
    rw [crlf_append, crlf_append, crlf_free (tagText_free hk.1.tag)]
theorem dumpYaml_win {cfg : DumpCfg} {n : Nat} {A : Anchors} (W : WinOk cfg A) : ∀ (y : Yaml) (root : Root) (level : Nat), (∃ p t, PlainTexts (.mk p t y)) → Yaml.Kids (Everywhere PlainTexts) y →
    dumpYaml cfg.win n A root level y = (dumpYaml cfg n A root level y).map crlf
  | .null, root, level, _, _ => rfl
  | .bool v, root, level, _, _ => by cases v <;> rfl
  | .int s, root, level, ⟨_, _, h⟩, _ => by rw [dumpYaml, dumpYaml, Out.map, crlf_free (h.word s (.inl rfl))]
  | .float s, root, level, ⟨_, _, h⟩, _ => by rw [dumpYaml, dumpYaml, Out.map, crlf_free (h.word s (.inr (.inl rfl)))]
  | .alias s, root, level, ⟨_, _, h⟩, _ => by
    have := h.word s (.inr (.inr rfl))
    rw [dumpYaml, dumpYaml, Out.map, crlf_free (by simp [this])]
  | .str s, root, level, ⟨_, _, h⟩, _ => by rw [dumpYaml, dumpYaml, dumpStr_win W.unix W.esc (h.utf8 s rfl) (h.string s rfl)]
  | .seq l, root, level, _, hk => by
    rw [dumpYaml, dumpYaml, dumpItems_win W l level true hk]
    refine Out.bind_map fun b hb => ?_
    rw [← crlf_nl W.unix, ← crlf_append, truncNl_win W.unix]
    rcases dumpItems_end hb with rfl | ⟨a, rfl⟩
    · exact .inr ⟨[], List.append_nil _⟩
    · exact .inr ⟨cfg.nl ++ a, (List.append_assoc ..).symm⟩
  | .map m, root, level, _, hk => by
    rw [dumpYaml, dumpYaml, dumpEntries_win W m root level true hk]
    refine Out.bind_map fun b hb => ?_
    have e : (if root = .map then cfg.win.nl else []) = crlf (if root = .map then cfg.nl else []) := by
      split
      · exact (crlf_nl W.unix).symm
      · rfl
    rw [e, ← crlf_append, truncNl_win W.unix]
    rcases dumpEntries_end hb with rfl | ⟨a, rfl⟩
    · split
      · exact .inr ⟨[], List.append_nil _⟩
      · exact .inl rfl
    · exact .inr ⟨_, (List.append_assoc ..).symm⟩
theorem dumpItems_win {cfg : DumpCfg} {n : Nat} {A : Anchors} (W : WinOk cfg A) : ∀ (l : List Node) (level : Nat) (first : Bool), (∀ x ∈ l, Everywhere PlainTexts x) →
    dumpItems cfg.win n A level first l = (dumpItems cfg n A level first l).map crlf
  | [], level, first, _ => rfl
  | x :: xs, level, first, h => by
    rw [dumpItems, dumpItems, dumpNode_win W x _ _ (h x (List.mem_cons_self ..)),
      dumpItems_win W xs level false fun y hy => h y (List.mem_cons_of_mem _ hy)]
    refine Out.bind_map fun a ha => Out.bind_map fun b hb => ?_
    show Out.ok _ = Out.ok _
    have e : crlf (if (!first || level != 0) = true then indent2 level else []) = (if (!first || level != 0) = true then indent2 level else []) := by
      split
      · exact crlf_free (spaces_free _)
      · rfl
    rw [crlf_append, crlf_append, crlf_append, crlf_append, e, crlf_nl W.unix]; rfl
theorem dumpEntries_win {cfg : DumpCfg} {n : Nat} {A : Anchors} (W : WinOk cfg A) : ∀ (l : List (Node × Node)) (root : Root) (level : Nat) (first : Bool),
    (∀ k v, (k, v) ∈ l → Everywhere PlainTexts k ∧ Everywhere PlainTexts v) →
    dumpEntries cfg.win n A root level first l = (dumpEntries cfg n A root level first l).map crlf
  | [], root, level, first, _ => rfl
  | (k, v) :: es, root, level, first, h => by
    obtain ⟨hk, hv⟩ := h k v (List.mem_cons_self ..)
    rw [dumpEntries, dumpEntries, dumpEntry_win W (k, v) root level first hk hv,
      dumpEntries_win W es root level false fun k v hy => h k v (List.mem_cons_of_mem _ hy)]
    refine Out.bind_map fun a ha => Out.bind_map fun b hb => ?_
    show Out.ok _ = Out.ok _
    rw [crlf_append]
theorem dumpEntry_win {cfg : DumpCfg} {n : Nat} {A : Anchors} (W : WinOk cfg A) : ∀ (e : Node × Node) (root : Root) (level : Nat) (first : Bool),
    Everywhere PlainTexts e.1 → Everywhere PlainTexts e.2 →
    dumpEntry cfg.win n A root level first e = (dumpEntry cfg n A root level first e).map crlf
  | (k, v), root, level, first, hk, hv => by
    rw [dumpEntry, dumpEntry, dumpNode_win W k _ _ hk, dumpNode_win W v _ _ hv]
    refine Out.bind_map fun a ha => Out.bind_map fun b hb => ?_
    show Out.ok _ = Out.ok _
    have i : ∀ l, crlf (indent2 l) = indent2 l := fun l => crlf_free (spaces_free _)
    simp only [crlf_append, apply_ite crlf, i, crlf_nl W.unix]; rfl
end


theorem dumpDocs_win {cfg : DumpCfg} (hu : cfg.windows = false) (hc : cfg.NoNewBreaks) {n : Nat} {As : List Anchors}
    (hA : ∀ A ∈ As, ∀ kv ∈ A, (0x0A : UInt8) ∉ kv.1) : ∀ (ns : List Node) (i : Nat), (∀ x ∈ ns, Everywhere PlainTexts x) →
    dumpDocs cfg.win n As i ns = (dumpDocs cfg n As i ns).map crlf
  | [], i, _ => rfl
  | x :: xs, i, h => by
    have hA' : ∀ kv ∈ As.getD i [], (0x0A : UInt8) ∉ kv.1 := by
      intro kv hkv
      rw [List.getD_eq_getElem?_getD] at hkv
      cases hg : As[i]? with
      | none => rw [hg] at hkv; simp at hkv
      | some A => rw [hg] at hkv; exact hA A (List.mem_of_getElem? hg) kv hkv
    rw [dumpDocs, dumpDocs, dumperDump, dumperDump, dumpNode_win ⟨hu, hc, hA'⟩ x _ _ (h x (List.mem_cons_self ..)),
      dumpDocs_win hu hc hA xs (i + 1) fun y hy => h y (List.mem_cons_of_mem _ hy)]
    refine Out.bind_map fun a ha => Out.bind_map fun b hb => ?_
    show Out.ok _ = Out.ok _
    simp only [crlf_append, apply_ite crlf, crlf_nl hu, ← trimStart_crlf]; rfl

end YamlPeg
