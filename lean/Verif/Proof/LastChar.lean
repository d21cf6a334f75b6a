import Verif.Proof.Utf8
import Verif.Proof.PropText
import Verif.Proof.Charset
/-! # The last character of a text -/

namespace YamlPeg

theorem utf8_last {l : Bytes} (h : Utf8 l) (hne : l ≠ []) :
    ∃ a x rest, l = a ++ x :: rest ∧ CharShape x rest rest.length := by
  induction h with
  | nil => simp at hne
  | char x rest k hk hu ih =>
    have hle : k ≤ rest.length := by have := utf8Step_le x rest; rw [hk] at this; exact this
    by_cases hd : rest.drop k = []
    · have : k = rest.length := by
        have := congrArg List.length hd; simp at this; omega
      subst this
      exact ⟨[], x, rest, rfl, (utf8Step_true_iff _ _ _).1 hk⟩
    · obtain ⟨a, x', rest', he, hs⟩ := ih hd
      refine ⟨x :: (rest.take k ++ a), x', rest', ?_, hs⟩
      have := List.take_append_drop k rest
      rw [he] at this
      rw [List.cons_append, List.append_assoc, this]

theorem isWs2_ascii (x : UInt8) {c : UInt8} (hc : c < 0x80) : isWs2 x c = false := by
  have : ∀ c : UInt8, c < 0x80 → (c == 0x85 || c == 0xA0) = false :=
    fun c => of_decide_eq_true <| byte_forall (P := fun c => decide <| c < 0x80 → (c == 0x85 || c == 0xA0) = false) (by decide +kernel) c
  simp [isWs2, this c hc]

theorem isWs3_ascii (x y : UInt8) {c : UInt8} (hc : c < 0x80) : isWs3 x y c = false := by
  have : ∀ c : UInt8, c < 0x80 → (c == 0x80) = false ∧ ((0x80 ≤ c && c ≤ 0x8A) || c == 0xA8 || c == 0xA9 || c == 0xAF) = false
      ∧ (c == 0x9F) = false :=
    fun c => of_decide_eq_true <| byte_forall (P := fun c => decide <| c < 0x80 → (c == 0x80) = false ∧ ((0x80 ≤ c && c ≤ 0x8A) || c == 0xA8 || c == 0xA9 || c == 0xAF) = false
      ∧ (c == 0x9F) = false) (by decide +kernel) c
  obtain ⟨h1, h2, h3⟩ := this c hc
  simp only [isWs3, h1, h2, h3]; simp

theorem isWs3_lead (x c : UInt8) {y : UInt8} (hy : (0xC2 ≤ y && y ≤ 0xDF) = true) : isWs3 x y c = false := by
  have : ∀ y : UInt8, (0xC2 ≤ y && y ≤ 0xDF) = true → (y == 0x9A) = false ∧ (y == 0x80) = false ∧ (y == 0x81) = false :=
    fun y => of_decide_eq_true <| byte_forall (P := fun y => decide <| (0xC2 ≤ y && y ≤ 0xDF) = true → (y == 0x9A) = false ∧ (y == 0x80) = false ∧ (y == 0x81) = false)
      (by decide +kernel) y
  obtain ⟨h1, h2, h3⟩ := this y hy
  simp [isWs3, h1, h2, h3]

theorem endsWithWs_append {l : Bytes} (h : Utf8 l) (hne : l ≠ []) (a : Bytes) :
    endsWithWs (a ++ l) = endsWithWs l := by
  obtain ⟨p, x, rest, rfl, hs⟩ := utf8_last h hne
  have key : ∀ q : Bytes, endsWithWs (q ++ x :: rest) = endsWithWs (x :: rest) := by
    intro q
    rcases hs with ⟨h0, hk⟩ | ⟨_, h1, hk, b1, r, rfl, _⟩ | ⟨_, _, _, hk, b1, b2, r, rfl, _⟩ |
      ⟨_, _, _, _, hk, b1, b2, b3, r, rfl, _⟩
    · have : rest = [] := by simpa using hk
      subst this
      simp only [endsWithWs, List.reverse_append, List.reverse_cons, List.reverse_nil, List.nil_append,
        List.singleton_append]
      congr 1
      cases q.reverse with
      | nil => rfl
      | cons d r =>
        simp only [isWs2_ascii _ h0, Bool.false_or]
        cases r <;> simp [isWs3_ascii _ _ h0]
    · have : r = [] := by simpa using hk
      subst this
      simp only [endsWithWs, List.reverse_append, List.reverse_cons, List.reverse_nil, List.nil_append,
        List.cons_append]
      congr 2
      cases q.reverse <;> simp [isWs3_lead _ _ h1]
    · have : r = [] := by simpa using hk
      subst this
      simp [endsWithWs]
    · have : r = [] := by simpa using hk
      subst this
      simp [endsWithWs]
  rw [← List.append_assoc, key, key]

end YamlPeg
