import Verif.Model.Indicator
/-! # Facts about `indicated_msg` -/

namespace YamlPeg

/-- Bytes of `l :: ls` joined with newlines. -/
def joinNl : List Bytes → Bytes
  | [] => []
  | [l] => l
  | l :: ls => l ++ 0x0A :: joinNl ls

theorem splitNl_ne_nil (d : Bytes) : splitNl d ≠ [] := by
  cases d with
  | nil => simp [splitNl]
  | cons c r =>
    simp only [splitNl]
    split
    · simp
    · split <;> simp

theorem joinNl_splitNl (d : Bytes) : joinNl (splitNl d) = d := by
  induction d with
  | nil => rfl
  | cons c r ih =>
    simp only [splitNl]
    split
    · rename_i h
      have : c = 0x0A := by simpa using h
      subst this
      have := splitNl_ne_nil r
      cases hs : splitNl r with
      | nil => contradiction
      | cons l ls =>
        rw [hs] at ih
        simp only [joinNl, List.nil_append, ih]
    · cases hs : splitNl r with
      | nil => exact absurd hs (splitNl_ne_nil r)
      | cons l ls =>
        rw [hs] at ih
        cases ls with
        | nil => simp only [joinNl] at ih ⊢; rw [ih]
        | cons l' ls' => simp only [joinNl] at ih ⊢; rw [← ih]; rfl

theorem splitNl_no_nl (d : Bytes) : ∀ l ∈ splitNl d, (0x0A : UInt8) ∉ l := by
  induction d with
  | nil => simp [splitNl]
  | cons c r ih =>
    simp only [splitNl]
    split
    · intro l hl
      rcases List.mem_cons.1 hl with rfl | h
      · simp
      · exact ih l h
    · rename_i hc
      have hc : c ≠ 0x0A := by simpa using hc
      cases hs : splitNl r with
      | nil => exact absurd hs (splitNl_ne_nil r)
      | cons l ls =>
        rw [hs] at ih
        intro l' hl'
        rcases List.mem_cons.1 hl' with rfl | h
        · intro hm
          rcases List.mem_cons.1 hm with h | h
          · exact hc h.symm
          · exact ih l (List.mem_cons_self ..) h
        · exact ih l' (List.mem_cons_of_mem _ h)

/-- The loop succeeds exactly up to the end of the joined text. -/
theorem indicatedLoop_isSome (ls : List Bytes) (line p : Nat) (h : ls ≠ []) :
    (indicatedLoop ls line p).isSome ↔ p ≤ (joinNl ls).length := by
  induction ls generalizing line p with
  | nil => exact absurd rfl h
  | cons l ls ih =>
    simp only [indicatedLoop]
    cases ls with
    | nil =>
      simp only [joinNl]
      split
      · simp; omega
      · simp [indicatedLoop]; omega
    | cons l' ls' =>
      split
      · simp [joinNl]; omega
      · rw [ih (line + 1) _ (by simp)]
        simp [joinNl]; omega

theorem indicatedMsg_isSome (doc : Bytes) (p : Nat) :
    (indicatedMsg doc p).isSome ↔ p ≤ doc.length := by
  rw [indicatedMsg, indicatedLoop_isSome _ _ _ (splitNl_ne_nil _), joinNl_splitNl]

end YamlPeg
