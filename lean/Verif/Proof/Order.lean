import Verif.Model.Loader
/-!
# Tables are kept in the order of their names
-/

namespace YamlPeg

/-- The names of a table increase strictly in the lexicographic order of their bytes. -/
def Ordered {V : Type} (t : List (Bytes × V)) : Prop := t.Pairwise fun x y => x.1 < y.1

theorem bytesLt_iff : ∀ a b : Bytes, bytesLt a b = true ↔ a < b
  | a, [] => by cases a <;> simp [bytesLt]
  | [], y :: ys => by simp [bytesLt]
  | x :: xs, y :: ys => by
    rw [bytesLt, List.cons_lt_cons_iff, ← bytesLt_iff xs ys]
    simp

theorem bytes_total : ∀ a b : Bytes, a ≠ b → ¬ a < b → b < a
  | [], [], h, _ => absurd rfl h
  | a :: as, [], _, _ => by simp
  | [], b :: bs, _, h => absurd (by simp) h
  | a :: as, b :: bs, h, h' => by
    rw [List.cons_lt_cons_iff] at h' ⊢
    by_cases hab : a = b
    · subst hab
      have := bytes_total as bs (by simpa using h) (fun hc => h' (.inr ⟨rfl, hc⟩))
      exact .inr ⟨rfl, this⟩
    · have h1 : ¬ a < b := fun hc => h' (.inl hc)
      have hn : a.toNat ≠ b.toNat := fun hc => hab (UInt8.toNat_inj.1 hc)
      rw [UInt8.lt_iff_toNat_lt] at h1
      refine .inl ?_
      rw [UInt8.lt_iff_toNat_lt]
      omega

theorem mem_mapInsert {V : Type} {k : Bytes} {v : V} : ∀ {m : List (Bytes × V)} {x : Bytes × V},
    x ∈ mapInsert k v m → x = (k, v) ∨ x ∈ m
  | [], x, h => by simpa [mapInsert] using h
  | (k', v') :: r, x, h => by
    rw [mapInsert] at h
    split at h
    · simp only [List.mem_cons] at h ⊢; grind
    · split at h
      · simp only [List.mem_cons] at h ⊢; grind
      · rw [List.mem_cons] at h
        rcases h with h | h
        · exact .inr (by simp [h])
        · rcases mem_mapInsert h with h | h
          · exact .inl h
          · exact .inr (by simp [h])

theorem Ordered.insert {V : Type} {k : Bytes} {v : V} : ∀ {m : List (Bytes × V)}, Ordered m →
    Ordered (mapInsert k v m)
  | [], _ => by simp [mapInsert, Ordered]
  | (k', v') :: r, h => by
    unfold Ordered at h
    rw [List.pairwise_cons] at h
    rw [mapInsert]
    split
    · rename_i hk
      have hk : k = k' := by simpa using hk
      exact List.pairwise_cons.2 ⟨fun x hx => by rw [hk]; exact h.1 x hx, h.2⟩
    · rename_i hk
      have hk : k ≠ k' := by simpa using hk
      split
      · rename_i hl
        rw [bytesLt_iff] at hl
        refine List.pairwise_cons.2 ⟨fun x hx => ?_, List.pairwise_cons.2 h⟩
        rcases List.mem_cons.1 hx with rfl | hx
        · exact hl
        · exact List.lt_trans hl (h.1 x hx)
      · rename_i hl
        have hl : ¬ k < k' := fun hc => hl ((bytesLt_iff k k').2 hc)
        have hl := bytes_total k k' hk hl
        refine List.pairwise_cons.2 ⟨fun x hx => ?_, Ordered.insert h.2⟩
        rcases mem_mapInsert hx with rfl | hx
        · exact hl
        · exact h.1 x hx

/-- In an ordered table the lookup finds exactly the pairs. -/
theorem Ordered.get {V : Type} : ∀ {m : List (Bytes × V)}, Ordered m → ∀ k v,
    mapGet k m = some v ↔ (k, v) ∈ m
  | [], _, k, v => by simp [mapGet]
  | (k', v') :: r, h, k, v => by
    unfold Ordered at h
    rw [List.pairwise_cons] at h
    rw [mapGet, List.mem_cons]
    split
    · rename_i hk
      have hk : k = k' := by simpa using hk
      subst hk
      constructor
      · intro h'; cases h'; exact .inl rfl
      · rintro (h' | h')
        · cases h'; rfl
        · exact absurd (h.1 _ h') (List.lt_irrefl k)
    · rename_i hk
      have hk : k ≠ k' := by simpa using hk
      rw [Ordered.get h.2]
      constructor
      · exact .inr
      · rintro (h' | h')
        · cases h'; exact absurd rfl hk
        · exact h'

end YamlPeg
