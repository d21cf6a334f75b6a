import Verif.Proof.Layout
import Verif.Proof.Hang
/-!
# An indentation that outlives its document

Behind a document whose last value begins in the column of its key, the loader keeps
column 0 as the indentation of the content of the next document.  A plain scalar on
the line of the next `---` then never ends (`ind` in `string_plain`, grammar.rs:128-183).
-/

namespace YamlPeg
open M

theorem scalarAtom_plain_div {T E : Bytes} (hT : PlainText T) (hE : ∃ c r, E = c :: r ∧ (c = 0x0A ∨ c = 0x0D))
    {k : Ctx} {level : Nat} (hk : k.want level = 0) (n : Nat) (L : Loader) (pre : Bytes) :
    (scalarAtom n level false (ld L (st k pre [] (T ++ E)))).1 = .diverge := by
  obtain ⟨c, r, rfl, hc⟩ := hE
  have hb : plainBody false (c :: r) false T = true :=
    plainBody_append hT.body hT.noColon (trimEnd_last hT.trim)
  rw [scalarAtom_plain _ _ _ _ _ _ _ (hT.notNum_append _) (hT.atomHead _)]
  exact bind_div (try_div (lift_div (stringPlain_hangs hk (.nl hc) hb hT.utf8 _ _ _)))

/-- A text with no other document behind `s`, with another text instead of its end. -/
def Stream.withEnd (s : Stream) (E : Bytes) : Stream := { s with tail := .stop E }

theorem loaderParse_stale {s : Stream} (h : s.ok) {G : Bytes} (hs : s.tail = .stop G) (hG : AfterLines s.first.kind G)
    (hc : ¬ s.first.calm) {T E : Bytes} (hT : PlainLine T) (hE : ∃ c r, E = c :: r ∧ (c = 0x0A ∨ c = 0x0D)) :
    ∃ N, ∀ n, N ≤ n → ∀ L : Loader, L.docInd = L.anchors.length → s.fine L.cyclicMode →
      (loaderParse n (ld L (st .start [] [] (s.text ++ (b!"--- " ++ (T ++ E)))))).1 = .diverge := by
  have hwf := Stream.ok_wf h
  generalize hR : G ++ (b!"---" ++ (0x20 :: (T ++ E))) = R
  have htxt : s.text ++ (b!"--- " ++ (T ++ E)) = (s.withEnd R).text := by
    simp only [Stream.withEnd, Stream.text, Stream.head, Tail.text, hs, ← hR]; simp
  have hgap := hG.gap
  obtain ⟨q, hq⟩ := hgap _ (mark_stop (0x20 :: (T ++ E)))
  have hDE : DocEnd R [] R := by rw [← hR]; exact docEnd_gap hq (.inr (by simp))
  have hfit : Fits s.first.kind R := by
    rw [← hR]; exact hG.fits (Blk.okN_kind0 _ h.1) (.inr ⟨0x2D, _, rfl, by decide⟩)
  have hhead : (s.withEnd R).wfHead := ⟨hwf.1, hfit, hwf.opening.2.2⟩
  obtain ⟨mid, sp, hhd, hstart, N0, hopen⟩ := opening_read hhead hDE
  have hk0 := dirsRun_indent s.dirs .start
  have hw0 : (dirsRun .start s.dirs).want 0 = 0 := by
    have : (dirsRun .start s.dirs).want 0 = Ctx.start.want 0 := by simp only [Ctx.want, hk0.1]
    rw [this, Ctx.start_want]
  have e0 : (dirsRun .start s.dirs).consumed = 0 := hk0.2
  obtain ⟨k', hk', hcw, N1, hN1⟩ := doc_read (k := dirsRun .start s.dirs) (sp := sp) hwf.1 hw0
    (.inr (.inl (by rw [hk0.1]; simp [Ctx.start]))) hfit hDE hstart
  have hzero : k'.want 1 = 0 := hcw.2 hc rfl
  refine ⟨N0 + N1 + 1, fun n hn L hd hfine => ?_⟩
  have hpos : (dirsRun .start s.dirs).consumed + ([] ++ mid ++ sp).length = s.head.length := by
    rw [e0]
    have : s.head = mid ++ sp := hhd
    rw [this]; simp
  obtain ⟨L', hL', hdL', hcyc, hd⟩ := hN1 n (by omega) L [] mid hd (by rw [hpos]; exact hfine.1)
  have ho := hopen n (by omega) L
  rw [htxt, loaderParse_split, bind_ok ho]
  refine (congrArg Prod.fst (bind_ok hd)).trans ?_
  obtain ⟨m, hm⟩ : ∃ m, n = m + 1 := ⟨n - 1, by omega⟩
  have hm' : docsLoop n n = docsLoop n (m + 1) := by rw [hm]
  rw [hm', docsLoop, ← hR, bind_ok (lift_of (orDefault_ok (gap_of_spec hq ..))), bind_ok (lift_of (food_st ..))]
  have hne : (b!"---" ++ (0x20 :: (T ++ E))).isEmpty = false := by rfl
  simp only [hne, Bool.false_eq_true, if_false]
  rw [bind_ok (isOk_ok (lift_of (symSeq_hit ..)))]
  simp only [if_true]
  refine bind_div ?_
  obtain ⟨c, r, rfl, hcf⟩ := hT.first
  obtain ⟨f1, f2, f3, f4, f5, f6, f7⟩ := isPlainFirst_facts hcf
  refine doc_div_space (c := c) (r := r ++ E) ?_ fun n p L' => scalarAtom_plain_div hT.plain hE hzero n L' p
  simp at f2
  simp [valueHead, f1, f2, f3, f4]

end YamlPeg
