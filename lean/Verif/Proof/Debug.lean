import Verif.Model.Debug
import Verif.Proof.Utf8
import Verif.Proof.Decimal
import Verif.Proof.NodeEq
/-! # `{:?}` is a prefix code -/

namespace YamlPeg

/-! ## Hexadecimal text -/

def hexByte (n : Nat) : UInt8 := (Nat.digitChar n).toNat.toUInt8

theorem hexByte_inj : ∀ n < 16, ∀ m < 16, hexByte n = hexByte m → n = m := by decide
theorem hexByte_ne : ∀ n < 16, hexByte n ≠ 0x7D := by decide

theorem natHex_lt {n : Nat} (h : n < 16) : natHex n = [hexByte n] := by
  simp only [natHex, Nat.toDigits_of_lt_base h, List.map_cons, List.map_nil, hexByte]

theorem natHex_ge {n : Nat} (h : 16 ≤ n) : natHex n = natHex (n / 16) ++ [hexByte (n % 16)] := by
  simp only [natHex, Nat.toDigits_of_base_le (by decide : 1 < 16) h, List.map_append, List.map_cons,
    List.map_nil, hexByte]

theorem natHex_ne_nil (n : Nat) : natHex n ≠ [] := by
  by_cases h : n < 16
  · simp [natHex_lt h]
  · simp [natHex_ge (Nat.not_lt.1 h)]

theorem natHex_inj (n m : Nat) (h : natHex n = natHex m) : n = m := by
  induction n using Nat.strongRecOn generalizing m with
  | _ n ih =>
    by_cases hn : n < 16 <;> by_cases hm : m < 16
    · rw [natHex_lt hn, natHex_lt hm] at h
      exact hexByte_inj n hn m hm (by simpa using h)
    · rw [natHex_lt hn, natHex_ge (by omega)] at h
      have h1 := congrArg List.length h
      have h0 := List.length_pos_iff.2 (natHex_ne_nil (m / 16))
      simp only [List.length_append, List.length_cons, List.length_nil] at h1; omega
    · rw [natHex_lt hm, natHex_ge (by omega)] at h
      have h1 := congrArg List.length h
      have h0 := List.length_pos_iff.2 (natHex_ne_nil (n / 16))
      simp only [List.length_append, List.length_cons, List.length_nil] at h1; omega
    · rw [natHex_ge (n := n) (by omega), natHex_ge (n := m) (by omega)] at h
      obtain ⟨h1, h2⟩ := List.append_inj' h rfl
      have h3 := ih (n / 16) (by omega) (m / 16) h1
      have h4 := hexByte_inj _ (Nat.mod_lt n (by decide)) _ (Nat.mod_lt m (by decide)) (by simpa using h2)
      omega

theorem natHex_brace (n : Nat) : ∀ x ∈ natHex n, x ≠ 0x7D := by
  induction n using Nat.strongRecOn with
  | _ n ih =>
    intro x hx
    by_cases hn : n < 16
    · rw [natHex_lt hn] at hx
      simp at hx; subst hx; exact hexByte_ne n hn
    · rw [natHex_ge (by omega)] at hx
      rcases List.mem_append.1 hx with hx | hx
      · exact ih _ (by omega) x hx
      · simp at hx; subst hx; exact hexByte_ne _ (Nat.mod_lt n (by decide))

/-- A text that ends at the first stop byte is read off uniquely. -/
theorem cut_unique {P : UInt8 → Prop} {c : UInt8} (hc : ¬ P c) : ∀ {a a' r r' : Bytes}, (∀ x ∈ a, P x) → (∀ x ∈ a', P x) →
    a ++ c :: r = a' ++ c :: r' → a = a' ∧ r = r'
  | [], [], _, _, _, _, h => by simpa using h
  | [], x :: a', _, _, _, h2, h => by
    exfalso
    have : c = x := by simpa using (List.cons.inj h).1
    exact hc (this ▸ h2 x (by simp))
  | x :: a, [], _, _, h1, _, h => by
    exfalso
    have : x = c := by simpa using (List.cons.inj h).1
    exact hc (this ▸ h1 x (by simp))
  | x :: a, y :: a', _, _, h1, h2, h => by
    obtain ⟨e1, e2⟩ := List.cons.inj h
    obtain ⟨e3, e4⟩ := cut_unique hc (fun z hz => h1 z (by simp [hz])) (fun z hz => h2 z (by simp [hz])) e2
    exact ⟨by rw [e1, e3], e4⟩

/-! ## One character -/

/-- The code point of a UTF-8 encoded character. -/
def codePoint : Bytes → Nat
  | [a] => a.toNat
  | [a, b] => (a.toNat - 0xC0) * 64 + (b.toNat - 0x80)
  | [a, b, c] => (a.toNat - 0xE0) * 4096 + (b.toNat - 0x80) * 64 + (c.toNat - 0x80)
  | [a, b, c, d] => (a.toNat - 0xF0) * 262144 + (b.toNat - 0x80) * 4096 + (c.toNat - 0x80) * 64 + (d.toNat - 0x80)
  | _ => 0

/-- `ch` is the encoding of one character. -/
def OneChar (ch : Bytes) : Prop := ∃ c t, ch = c :: t ∧ utf8Step c t = (true, t.length)

/-- What `escape_debug` does to a non-ASCII character: it stays, or it becomes
`\u{..}` with its code point. -/
def EscapesWell (cfg : DumpCfg) : Prop := ∀ ch, OneChar ch → 1 < ch.length →
  cfg.escNonAscii ch = ch ∨ cfg.escNonAscii ch = b!"\\u{" ++ natHex (codePoint ch) ++ b!"}"

theorem oneChar_shape {ch : Bytes} (h : OneChar ch) :
    (∃ a, ch = [a] ∧ a.toNat < 128) ∨
    (∃ a b, ch = [a, b] ∧ (194 ≤ a.toNat ∧ a.toNat ≤ 223) ∧ (128 ≤ b.toNat ∧ b.toNat ≤ 191)) ∨
    (∃ a b c, ch = [a, b, c] ∧ (224 ≤ a.toNat ∧ a.toNat ≤ 239) ∧ (128 ≤ b.toNat ∧ b.toNat ≤ 191) ∧
      (a.toNat = 224 → 160 ≤ b.toNat) ∧ (128 ≤ c.toNat ∧ c.toNat ≤ 191)) ∨
    (∃ a b c d, ch = [a, b, c, d] ∧ (240 ≤ a.toNat ∧ a.toNat ≤ 244) ∧ (128 ≤ b.toNat ∧ b.toNat ≤ 191) ∧
      (a.toNat = 240 → 144 ≤ b.toNat) ∧ (128 ≤ c.toNat ∧ c.toNat ≤ 191) ∧ (128 ≤ d.toNat ∧ d.toNat ≤ 191)) := by
  obtain ⟨c, t, rfl, hs⟩ := h
  rw [utf8Step_true_iff] at hs
  rcases hs with ⟨h0, hk⟩ | ⟨h0, h1, hk, b1, r, rfl, hb⟩ | ⟨h0, h1, h2, hk, b1, b2, r, rfl, hb, hb2⟩ |
      ⟨h0, h1, h2, h3, hk, b1, b2, b3, r, rfl, hb, hb2, hb3⟩
  · left
    exact ⟨c, by rw [List.length_eq_zero_iff.1 hk], by simpa [UInt8.lt_iff_toNat_lt] using h0⟩
  · right; left
    have : r = [] := List.length_eq_zero_iff.1 (by simp only [List.length_cons] at hk; omega)
    subst this
    simp only [isCont, Bool.and_eq_true, decide_eq_true_eq, UInt8.le_iff_toNat_le, UInt8.toNat_ofNat] at h1 hb
    exact ⟨c, b1, rfl, h1, hb⟩
  · right; right; left
    have : r = [] := List.length_eq_zero_iff.1 (by simp only [List.length_cons] at hk; omega)
    subst this
    simp only [ok3, isCont, Bool.and_eq_true, Bool.or_eq_true, decide_eq_true_eq, beq_iff_eq, UInt8.le_iff_toNat_le,
      ← UInt8.toNat_inj, UInt8.toNat_ofNat] at h2 hb hb2
    exact ⟨c, b1, b2, rfl, h2, by omega, by omega, hb2⟩
  · right; right; right
    have : r = [] := List.length_eq_zero_iff.1 (by simp only [List.length_cons] at hk; omega)
    subst this
    simp only [ok4, isCont, Bool.and_eq_true, Bool.or_eq_true, decide_eq_true_eq, beq_iff_eq, UInt8.le_iff_toNat_le,
      ← UInt8.toNat_inj, UInt8.toNat_ofNat] at h3 hb hb2 hb3
    exact ⟨c, b1, b2, b3, rfl, h3, by omega, by omega, hb2, hb3⟩

theorem cp2 {a b a' b' : Nat} (h : 194 ≤ a ∧ a ≤ 223) (h2 : 128 ≤ b ∧ b ≤ 191) (g : 194 ≤ a' ∧ a' ≤ 223)
    (g2 : 128 ≤ b' ∧ b' ≤ 191) (e : (a - 0xC0) * 64 + (b - 0x80) = (a' - 0xC0) * 64 + (b' - 0x80)) :
    a = a' ∧ b = b' := by omega

theorem cp3 {a b c a' b' c' : Nat} (h : 224 ≤ a ∧ a ≤ 239) (h2 : 128 ≤ b ∧ b ≤ 191) (h3 : 128 ≤ c ∧ c ≤ 191)
    (g : 224 ≤ a' ∧ a' ≤ 239) (g2 : 128 ≤ b' ∧ b' ≤ 191) (g3 : 128 ≤ c' ∧ c' ≤ 191)
    (e : (a - 0xE0) * 4096 + (b - 0x80) * 64 + (c - 0x80) = (a' - 0xE0) * 4096 + (b' - 0x80) * 64 + (c' - 0x80)) :
    a = a' ∧ b = b' ∧ c = c' := by omega

theorem cp4 {a b c d a' b' c' d' : Nat} (h : 240 ≤ a ∧ a ≤ 244) (h2 : 128 ≤ b ∧ b ≤ 191) (h3 : 128 ≤ c ∧ c ≤ 191)
    (h4 : 128 ≤ d ∧ d ≤ 191) (g : 240 ≤ a' ∧ a' ≤ 244) (g2 : 128 ≤ b' ∧ b' ≤ 191) (g3 : 128 ≤ c' ∧ c' ≤ 191)
    (g4 : 128 ≤ d' ∧ d' ≤ 191)
    (e : (a - 0xF0) * 262144 + (b - 0x80) * 4096 + (c - 0x80) * 64 + (d - 0x80) =
      (a' - 0xF0) * 262144 + (b' - 0x80) * 4096 + (c' - 0x80) * 64 + (d' - 0x80)) :
    a = a' ∧ b = b' ∧ c = c' ∧ d = d' := by omega

theorem codePoint_inj {a a' : Bytes} (h : OneChar a) (h' : OneChar a') (e : codePoint a = codePoint a') : a = a' := by
  rcases oneChar_shape h with ⟨a1, rfl, h1⟩ | ⟨a1, a2, rfl, h1, h2⟩ | ⟨a1, a2, a3, rfl, h1, h2, h3, h4⟩ |
    ⟨a1, a2, a3, a4, rfl, h1, h2, h3, h4, h5⟩ <;>
  rcases oneChar_shape h' with ⟨b1, rfl, g1⟩ | ⟨b1, b2, rfl, g1, g2⟩ | ⟨b1, b2, b3, rfl, g1, g2, g3, g4⟩ |
    ⟨b1, b2, b3, b4, rfl, g1, g2, g3, g4, g5⟩ <;>
  clear h h' <;> dsimp only [codePoint] at e
  · rw [UInt8.toNat_inj.1 e]
  · exfalso; omega
  · exfalso; omega
  · exfalso; omega
  · exfalso; omega
  · obtain ⟨e1, e2⟩ := cp2 h1 h2 g1 g2 e
    rw [UInt8.toNat_inj.1 e1, UInt8.toNat_inj.1 e2]
  · exfalso; omega
  · exfalso; omega
  · exfalso; omega
  · exfalso; omega
  · obtain ⟨e1, e2, e3⟩ := cp3 h1 h2 h4 g1 g2 g4 e
    rw [UInt8.toNat_inj.1 e1, UInt8.toNat_inj.1 e2, UInt8.toNat_inj.1 e3]
  · exfalso; omega
  · exfalso; omega
  · exfalso; omega
  · exfalso; omega
  · obtain ⟨e1, e2, e3, e4⟩ := cp4 h1 h2 h4 h5 g1 g2 g4 g5 e
    rw [UInt8.toNat_inj.1 e1, UInt8.toNat_inj.1 e2, UInt8.toNat_inj.1 e3, UInt8.toNat_inj.1 e4]

/-- The three forms of an escaped character. -/
inductive EscForm (ch : Bytes) : Bytes → Prop
  | raw (c : UInt8) (t : Bytes) : ch = c :: t → c ≠ 0x22 → c ≠ 0x5C → EscForm ch ch
  | short (y x : UInt8) : ch = [y] → x ≠ 0x75 →
      (y, x) ∈ [(0x00, 0x30), (0x09, 0x74), (0x0D, 0x72), (0x0A, 0x6E), (0x22, 0x22), (0x5C, (0x5C : UInt8))] →
      EscForm ch [0x5C, x]
  | uni : EscForm ch (0x5C :: 0x75 :: 0x7B :: natHex (codePoint ch) ++ [0x7D])

theorem escDebug_form {cfg : DumpCfg} (hc : EscapesWell cfg) {ch : Bytes} (h : OneChar ch) :
    EscForm ch (escDebugChar cfg ch) := by
  obtain ⟨c, t, rfl, hs⟩ := h
  cases t with
  | nil =>
    by_cases h1 : c = 0
    · subst h1; exact .short _ 0x30 rfl (by decide) (by decide)
    by_cases h2 : c = 0x09
    · subst h2; exact .short _ 0x74 rfl (by decide) (by decide)
    by_cases h3 : c = 0x0D
    · subst h3; exact .short _ 0x72 rfl (by decide) (by decide)
    by_cases h4 : c = 0x0A
    · subst h4; exact .short _ 0x6E rfl (by decide) (by decide)
    by_cases h5 : c = 0x22
    · subst h5; exact .short _ 0x22 rfl (by decide) (by decide)
    by_cases h6 : c = 0x5C
    · subst h6; exact .short _ 0x5C rfl (by decide) (by decide)
    simp only [escDebugChar, beq_iff_eq, h1, h2, h3, h4, h5, h6, if_false]
    split
    · exact .uni
    · exact .raw c [] rfl h5 h6
  | cons b t =>
    have hn : ¬ c < 0x80 := by
      intro hlt
      simp [utf8Step, hlt] at hs
    simp only [escDebugChar]
    rcases hc (c :: b :: t) ⟨c, b :: t, rfl, hs⟩ (by simp) with e | e
    · rw [e]
      refine .raw c (b :: t) rfl ?_ ?_ <;> (rintro rfl; exact hn (by decide))
    · rw [e]; exact .uni

theorem oneChar_prefix {a a' r r' : Bytes} (h : OneChar a) (h' : OneChar a') (e : a ++ r = a' ++ r') : a = a' ∧ r = r' := by
  obtain ⟨c, t, rfl, hs⟩ := h
  obtain ⟨c', t', rfl, hs'⟩ := h'
  obtain ⟨e1, e2⟩ := List.cons.inj e
  subst e1
  have h1 := utf8Step_append c t r hs
  have h2 := utf8Step_append c t' r' hs'
  change t ++ r = t' ++ r' at e2
  rw [e2, h2] at h1
  obtain ⟨e3, e4⟩ := List.append_inj e2 (by simpa using h1.symm)
  exact ⟨by rw [e3], e4⟩

theorem escForm_ne {ch e r : Bytes} (h : EscForm ch e) : (e ++ r).head? ≠ some 0x22 ∧ e ≠ [] := by
  cases h with
  | raw c t hc h1 => subst hc; simpa using h1
  | short => simp
  | uni => simp

theorem escForm_unique {a a' x x' r r' : Bytes} (ha : OneChar a) (ha' : OneChar a') (h : EscForm a x) (h' : EscForm a' x')
    (e : x ++ r = x' ++ r') : a = a' ∧ r = r' := by
  cases h with
  | raw c t hc h1 h2 =>
    cases h' with
    | raw => exact oneChar_prefix ha ha' e
    | short => subst hc; exact absurd (List.cons.inj e).1 h2
    | uni => subst hc; exact absurd (List.cons.inj e).1 h2
  | short y x hy hx hm =>
    cases h' with
    | raw c t hc h1 h2 => subst hc; exact absurd (List.cons.inj e).1.symm h2
    | short y' x' hy' hx' hm' =>
      simp only [List.cons_append, List.nil_append, List.cons.injEq, true_and] at e
      obtain ⟨rfl, e⟩ := e
      subst hy hy'
      simp only [List.mem_cons, Prod.mk.injEq, List.not_mem_nil, or_false] at hm hm'
      refine ⟨?_, e⟩
      rcases hm with ⟨rfl, rfl⟩ | ⟨rfl, rfl⟩ | ⟨rfl, rfl⟩ | ⟨rfl, rfl⟩ | ⟨rfl, rfl⟩ | ⟨rfl, rfl⟩ <;>
        simp_all
    | uni =>
      simp only [List.cons_append, List.nil_append, List.cons.injEq, true_and] at e
      exact absurd e.1 hx
  | uni =>
    cases h' with
    | raw c t hc h1 h2 => subst hc; exact absurd (List.cons.inj e).1.symm h2
    | short y' x' hy' hx' hm' =>
      simp only [List.cons_append, List.nil_append, List.cons.injEq, true_and] at e
      exact absurd e.1.symm hx'
    | uni =>
      simp only [List.cons_append, List.append_assoc, List.nil_append, List.cons.injEq, true_and] at e
      obtain ⟨e1, e2⟩ := cut_unique (P := (· ≠ 0x7D)) (by simp) (natHex_brace _) (natHex_brace _) e
      exact ⟨codePoint_inj ha ha' (natHex_inj _ _ e1), e2⟩

/-! ## Strings -/

theorem charsAux_utf8 {s : Bytes} (h : Utf8 s) (n : Nat) (hn : s.length ≤ n) :
    (∀ ch ∈ charsAux n s, OneChar ch) ∧ (charsAux n s).flatten = s := by
  induction h generalizing n with
  | nil => cases n <;> simp [charsAux]
  | char c rest k hk _ ih =>
    cases n with
    | zero => simp at hn
    | succ n =>
      have hle := utf8Step_le c rest
      rw [hk] at hle
      obtain ⟨h1, h2⟩ := ih n (by simp at hn ⊢; omega)
      have hone : OneChar (c :: rest.take k) := by
        refine ⟨c, rest.take k, rfl, ?_⟩
        rw [List.length_take, Nat.min_eq_left hle]
        rw [utf8Step_true_iff] at hk ⊢
        rcases hk with h | ⟨g0, g1, rfl, b1, r, rfl, hb⟩ | ⟨g0, g1, g2, rfl, b1, b2, r, rfl, hb⟩ |
            ⟨g0, g1, g2, g3, rfl, b1, b2, b3, r, rfl, hb⟩
        · exact .inl h
        · exact .inr (.inl ⟨g0, g1, rfl, b1, [], by simp, hb⟩)
        · exact .inr (.inr (.inl ⟨g0, g1, g2, rfl, b1, b2, [], by simp, hb⟩))
        · exact .inr (.inr (.inr ⟨g0, g1, g2, g3, rfl, b1, b2, b3, [], by simp, hb⟩))
      simp only [charsAux, hk]
      refine ⟨?_, ?_⟩
      · intro ch hch
        rcases List.mem_cons.1 hch with rfl | hch
        · exact hone
        · exact h1 ch hch
      · simp [h2]

theorem escList_unique {cfg : DumpCfg} (hc : EscapesWell cfg) : ∀ {l l' : List Bytes} {r r' : Bytes},
    (∀ ch ∈ l, OneChar ch) → (∀ ch ∈ l', OneChar ch) →
    (l.map (escDebugChar cfg)).flatten ++ 0x22 :: r = (l'.map (escDebugChar cfg)).flatten ++ 0x22 :: r' → l = l' ∧ r = r'
  | [], [], _, _, _, _, e => by simpa using e
  | [], a :: l', r, r', _, h2, e => by
    exfalso
    have := (escForm_ne (r := (l'.map (escDebugChar cfg)).flatten ++ 0x22 :: r') (escDebug_form hc (h2 a (by simp)))).1
    apply this
    simp only [List.map_cons, List.flatten_cons, List.append_assoc, List.map_nil, List.flatten_nil, List.nil_append] at e
    rw [← e]; rfl
  | a :: l, [], r, r', h1, _, e => by
    exfalso
    have := (escForm_ne (r := (l.map (escDebugChar cfg)).flatten ++ 0x22 :: r) (escDebug_form hc (h1 a (by simp)))).1
    apply this
    simp only [List.map_cons, List.flatten_cons, List.append_assoc, List.map_nil, List.flatten_nil, List.nil_append] at e
    rw [e]; rfl
  | a :: l, a' :: l', r, r', h1, h2, e => by
    simp only [List.map_cons, List.flatten_cons, List.append_assoc] at e
    obtain ⟨e1, e2⟩ := escForm_unique (h1 a (by simp)) (h2 a' (by simp)) (escDebug_form hc (h1 a (by simp)))
      (escDebug_form hc (h2 a' (by simp))) e
    obtain ⟨e3, e4⟩ := escList_unique hc (fun x hx => h1 x (by simp [hx])) (fun x hx => h2 x (by simp [hx])) e2
    exact ⟨by rw [e1, e3], e4⟩

theorem debugStr_unique {cfg : DumpCfg} (hc : EscapesWell cfg) {s s' r r' : Bytes} (hs : Utf8 s) (hs' : Utf8 s')
    (e : debugStr cfg s ++ r = debugStr cfg s' ++ r') : s = s' ∧ r = r' := by
  obtain ⟨h1, h2⟩ := charsAux_utf8 hs s.length (Nat.le_refl _)
  obtain ⟨h1', h2'⟩ := charsAux_utf8 hs' s'.length (Nat.le_refl _)
  have e' : ((chars s).map (escDebugChar cfg)).flatten ++ 0x22 :: r =
      ((chars s').map (escDebugChar cfg)).flatten ++ 0x22 :: r' := by
    simpa only [debugStr, List.append_assoc, List.append_cancel_left_eq, List.cons_append, List.nil_append, List.cons.injEq,
      true_and] using e
  obtain ⟨e1, e2⟩ := escList_unique hc h1 h1' e'
  refine ⟨?_, e2⟩
  rw [← h2, ← h2']
  exact congrArg List.flatten e1

/-! ## Nodes -/

/-- The text of a leaf. -/
def Yaml.ownText : Yaml → Option Bytes
  | .int s => some s
  | .float s => some s
  | .str s => some s
  | .alias s => some s
  | _ => none

/-- Every text in the node is valid UTF-8 (in Rust every `String` is). -/
def ValidTexts (n : Node) : Prop := Everywhere (fun m => ∀ s, m.yaml.ownText = some s → Utf8 s) n

mutual
/-- The data alone: all positions and tags are dropped. -/
def Node.dataOnly : Node → Node
  | .mk _ _ y => .mk 0 [] y.dataOnly
def Yaml.dataOnly : Yaml → Yaml
  | .seq l => .seq (dataOnlyL l)
  | .map m => .map (dataOnlyM m)
  | y => y
def dataOnlyL : List Node → List Node
  | [] => []
  | x :: xs => x.dataOnly :: dataOnlyL xs
def dataOnlyM : List (Node × Node) → List (Node × Node)
  | [] => []
  | e :: es => dataOnlyE e :: dataOnlyM es
def dataOnlyE : Node × Node → Node × Node
  | (k, v) => (k.dataOnly, v.dataOnly)
end

theorem debug_head (cfg : DumpCfg) (n : Node) (r : Bytes) : (n.debug cfg ++ r).head? = some 0x4E := by
  cases n; rfl

def YValid (y : Yaml) : Prop := (∀ s, y.ownText = some s → Utf8 s) ∧ Yaml.Kids ValidTexts y

theorem validTexts_mk {p : Nat} {t : Bytes} {y : Yaml} : ValidTexts (.mk p t y) ↔ YValid y := by
  rw [ValidTexts, everywhere_mk]; rfl

set_option linter.unusedSimpArgs false in
mutual
theorem debug_unique {cfg : DumpCfg} (hc : EscapesWell cfg) : ∀ (a c : Node) (r r' : Bytes), ValidTexts a → ValidTexts c →
    a.debug cfg ++ r = c.debug cfg ++ r' → a.dataOnly = c.dataOnly ∧ r = r'
  | .mk p t y, .mk p' t' y', r, r', ha, hc', e => by
    simp only [Node.debug, List.append_assoc, List.append_cancel_left_eq] at e
    obtain ⟨e1, e2⟩ := debugY_unique hc y y' r r' (validTexts_mk.1 ha) (validTexts_mk.1 hc') e
    exact ⟨by simp only [Node.dataOnly, e1], e2⟩
theorem debugY_unique {cfg : DumpCfg} (hc : EscapesWell cfg) : ∀ (a c : Yaml) (r r' : Bytes), YValid a → YValid c →
    a.debug cfg ++ r = c.debug cfg ++ r' → a.dataOnly = c.dataOnly ∧ r = r'
  | .null, c, r, r', _, _, e => by
    cases c <;> simp [Yaml.debug, debugTuple] at e
    exact ⟨rfl, e⟩
  | .bool v, c, r, r', _, _, e => by
    cases c with
    | bool v' =>
      cases v <;> cases v' <;> simp [Yaml.debug, debugTuple] at e <;> exact ⟨rfl, e⟩
    | _ => simp [Yaml.debug, debugTuple] at e
  | .int s, c, r, r', ha, hc', e => by
    cases c <;> simp [Yaml.debug, debugTuple] at e
    obtain ⟨e1, e2⟩ := debugStr_unique hc (ha.1 _ rfl) (hc'.1 _ rfl) e
    exact ⟨by rw [e1], by simpa using e2⟩
  | .float s, c, r, r', ha, hc', e => by
    cases c <;> simp [Yaml.debug, debugTuple] at e
    obtain ⟨e1, e2⟩ := debugStr_unique hc (ha.1 _ rfl) (hc'.1 _ rfl) e
    exact ⟨by rw [e1], by simpa using e2⟩
  | .str s, c, r, r', ha, hc', e => by
    cases c <;> simp [Yaml.debug, debugTuple] at e
    obtain ⟨e1, e2⟩ := debugStr_unique hc (ha.1 _ rfl) (hc'.1 _ rfl) e
    exact ⟨by rw [e1], by simpa using e2⟩
  | .alias s, c, r, r', ha, hc', e => by
    cases c <;> simp [Yaml.debug, debugTuple] at e
    obtain ⟨e1, e2⟩ := debugStr_unique hc (ha.1 _ rfl) (hc'.1 _ rfl) e
    exact ⟨by rw [e1], by simpa using e2⟩
  | .seq l, c, r, r', ha, hc', e => by
    cases c <;> simp [Yaml.debug, debugTuple] at e
    rename_i l'
    obtain ⟨e1, e2⟩ := debugL_unique hc l l' false _ _ ha.2 hc'.2 e
    exact ⟨by simp only [Yaml.dataOnly, e1], by simpa using e2⟩
  | .map l, c, r, r', ha, hc', e => by
    cases c <;> simp [Yaml.debug, debugTuple] at e
    rename_i l'
    obtain ⟨e1, e2⟩ := debugM_unique hc l l' false _ _ ha.2 hc'.2 e
    exact ⟨by simp only [Yaml.dataOnly, e1], by simpa using e2⟩
theorem debugL_unique {cfg : DumpCfg} (hc : EscapesWell cfg) : ∀ (a c : List Node) (b : Bool) (r r' : Bytes),
    (∀ x ∈ a, ValidTexts x) → (∀ x ∈ c, ValidTexts x) →
    debugItems cfg b a ++ 0x5D :: r = debugItems cfg b c ++ 0x5D :: r' → dataOnlyL a = dataOnlyL c ∧ r = r'
  | [], [], b, r, r', _, _, e => by simpa [debugItems] using e
  | [], x :: c, b, r, r', _, _, e => by
    exfalso
    cases x; cases b <;> simp [debugItems, Node.debug] at e
  | x :: a, [], b, r, r', _, _, e => by
    exfalso
    cases x; cases b <;> simp [debugItems, Node.debug] at e
  | x :: a, y :: c, b, r, r', ha, hc', e => by
    simp only [debugItems, List.append_assoc, List.append_cancel_left_eq] at e
    obtain ⟨e1, e2⟩ := debug_unique hc x y _ _ (ha x (by simp)) (hc' y (by simp)) e
    obtain ⟨e3, e4⟩ := debugL_unique hc a c true _ _ (fun z hz => ha z (by simp [hz])) (fun z hz => hc' z (by simp [hz])) e2
    exact ⟨by simp only [dataOnlyL, e1, e3], e4⟩
theorem debugM_unique {cfg : DumpCfg} (hc : EscapesWell cfg) : ∀ (a c : List (Node × Node)) (b : Bool) (r r' : Bytes),
    (∀ k v, (k, v) ∈ a → ValidTexts k ∧ ValidTexts v) → (∀ k v, (k, v) ∈ c → ValidTexts k ∧ ValidTexts v) →
    debugEntries cfg b a ++ 0x7D :: r = debugEntries cfg b c ++ 0x7D :: r' → dataOnlyM a = dataOnlyM c ∧ r = r'
  | [], [], b, r, r', _, _, e => by simpa [debugEntries] using e
  | [], (⟨_, _, _⟩, v) :: c, b, r, r', _, _, e => by
    exfalso
    cases b <;> simp [debugEntries, debugEntry, Node.debug] at e
  | (⟨_, _, _⟩, v) :: a, [], b, r, r', _, _, e => by
    exfalso
    cases b <;> simp [debugEntries, debugEntry, Node.debug] at e
  | (k, v) :: a, (k', v') :: c, b, r, r', ha, hc', e => by
    simp only [debugEntries, debugEntry, List.append_assoc, List.append_cancel_left_eq] at e
    obtain ⟨e1, e2⟩ := debug_unique hc k k' _ _ (ha k v (by simp)).1 (hc' k' v' (by simp)).1 e
    rw [List.append_cancel_left_eq] at e2
    obtain ⟨e3, e4⟩ := debug_unique hc v v' _ _ (ha k v (by simp)).2 (hc' k' v' (by simp)).2 e2
    obtain ⟨e5, e6⟩ := debugM_unique hc a c true _ _ (fun z w hz => ha z w (by simp [hz])) (fun z w hz => hc' z w (by simp [hz])) e4
    exact ⟨by simp only [dataOnlyM, dataOnlyE, e1, e3, e5], e6⟩
end

mutual
theorem debug_dataOnly (cfg : DumpCfg) : ∀ a : Node, a.dataOnly.debug cfg = a.debug cfg
  | .mk _ _ y => by simp only [Node.dataOnly, Node.debug, debugY_dataOnly cfg y]
theorem debugY_dataOnly (cfg : DumpCfg) : ∀ a : Yaml, a.dataOnly.debug cfg = a.debug cfg
  | .null => rfl
  | .bool _ => rfl
  | .int _ => rfl
  | .float _ => rfl
  | .str _ => rfl
  | .alias _ => rfl
  | .seq l => by simp only [Yaml.dataOnly, Yaml.debug, debugL_dataOnly cfg l]
  | .map m => by simp only [Yaml.dataOnly, Yaml.debug, debugM_dataOnly cfg m]
theorem debugL_dataOnly (cfg : DumpCfg) : ∀ (a : List Node) (b : Bool), debugItems cfg b (dataOnlyL a) = debugItems cfg b a
  | [], _ => rfl
  | x :: xs, b => by simp only [dataOnlyL, debugItems, debug_dataOnly cfg x, debugL_dataOnly cfg xs]
theorem debugM_dataOnly (cfg : DumpCfg) : ∀ (a : List (Node × Node)) (b : Bool), debugEntries cfg b (dataOnlyM a) = debugEntries cfg b a
  | [], _ => rfl
  | (k, v) :: xs, b => by
    simp only [dataOnlyM, dataOnlyE, debugEntries, debugEntry, debug_dataOnly cfg k, debug_dataOnly cfg v, debugM_dataOnly cfg xs]
end

/-! ## The indented form -/

theorem padLines_inj : ∀ (nl : Bool) (a c : Bytes), padLines nl a = padLines nl c → a = c
  | _, [], [], _ => rfl
  | nl, [], x :: c, h => by cases nl <;> simp [padLines] at h
  | nl, x :: a, [], h => by cases nl <;> simp [padLines] at h
  | nl, x :: a, y :: c, h => by
    simp only [padLines, List.append_cancel_left_eq, List.cons.injEq] at h
    obtain ⟨rfl, h2⟩ := h
    rw [padLines_inj _ _ _ h2]

theorem altField_inj {a c : Bytes} (h : altField a = altField c) : a = c :=
  List.append_cancel_right (padLines_inj _ _ _ h)

/-- The state of the adapter behind a text. -/
def endsNl (nl : Bool) : Bytes → Bool
  | [] => nl
  | c :: r => endsNl (c == 0x0A) r

theorem padLines_append : ∀ (nl : Bool) (a c : Bytes), padLines nl (a ++ c) = padLines nl a ++ padLines (endsNl nl a) c
  | _, [], _ => rfl
  | nl, x :: a, c => by simp only [List.cons_append, padLines, endsNl, padLines_append, List.append_assoc]

theorem endsNl_append : ∀ (nl : Bool) (a c : Bytes), endsNl nl (a ++ c) = endsNl (endsNl nl a) c
  | _, [], _ => rfl
  | nl, x :: a, c => by simp only [List.cons_append, endsNl, endsNl_append]

theorem altField_eq (x : Bytes) : altField x = padLines true (x ++ b!",\n") := rfl

/-- Fields one after the other are one padded text. -/
theorem altFields_eq : ∀ l : List Bytes, (l.map altField).flatten = padLines true (l.map (· ++ b!",\n")).flatten
  | [] => rfl
  | x :: l => by
    simp only [List.map_cons, List.flatten_cons, padLines_append, altFields_eq l, altField_eq, endsNl_append]
    rfl

/-- A text without line breaks and control characters. -/
def OneLine (x : Bytes) : Prop := ∀ b ∈ x, 0x20 ≤ b ∧ b ≠ 0x7F

theorem oneLine_append {a c : Bytes} (ha : OneLine a) (hc : OneLine c) : OneLine (a ++ c) := fun b hb =>
  (List.mem_append.1 hb).elim (ha b) (hc b)

theorem hexByte_line : ∀ n < 16, 0x20 ≤ hexByte n ∧ hexByte n ≠ 0x7F := by decide

theorem natHex_line (n : Nat) : OneLine (natHex n) := by
  induction n using Nat.strongRecOn with
  | _ n ih =>
    by_cases h : n < 16
    · rw [natHex_lt h]
      intro b hb
      rw [List.mem_singleton] at hb
      subst hb
      exact hexByte_line n h
    · rw [natHex_ge (by omega)]
      refine oneLine_append (ih _ (by omega)) fun b hb => ?_
      rw [List.mem_singleton] at hb
      subst hb
      exact hexByte_line _ (Nat.mod_lt _ (by decide))

theorem escDebug_line {cfg : DumpCfg} (hc : EscapesWell cfg) {ch : Bytes} (h : OneChar ch) : OneLine (escDebugChar cfg ch) := by
  obtain ⟨c, t, rfl, hs⟩ := h
  cases t with
  | nil =>
    simp only [escDebugChar]
    repeat' split
    all_goals first
      | exact (by decide : ∀ b ∈ (b!"\\0"), (0x20 : UInt8) ≤ b ∧ b ≠ 0x7F)
      | exact (by decide : ∀ b ∈ (b!"\\t"), (0x20 : UInt8) ≤ b ∧ b ≠ 0x7F)
      | exact (by decide : ∀ b ∈ (b!"\\r"), (0x20 : UInt8) ≤ b ∧ b ≠ 0x7F)
      | exact (by decide : ∀ b ∈ (b!"\\n"), (0x20 : UInt8) ≤ b ∧ b ≠ 0x7F)
      | exact (by decide : ∀ b ∈ (b!"\\\""), (0x20 : UInt8) ≤ b ∧ b ≠ 0x7F)
      | exact (by decide : ∀ b ∈ (b!"\\\\"), (0x20 : UInt8) ≤ b ∧ b ≠ 0x7F)
      | exact oneLine_append (oneLine_append (by decide : ∀ b ∈ (b!"\\u{"), (0x20 : UInt8) ≤ b ∧ b ≠ 0x7F) (natHex_line _))
          (by decide : ∀ b ∈ (b!"}"), (0x20 : UInt8) ≤ b ∧ b ≠ 0x7F)
      | skip
    rename_i h
    intro b hb
    rw [List.mem_singleton] at hb
    subst hb
    simp only [Bool.or_eq_true, decide_eq_true_eq, beq_iff_eq, not_or] at h
    exact ⟨UInt8.not_lt.1 h.1, h.2⟩
  | cons d t =>
    have hsh := oneChar_shape ⟨c, d :: t, rfl, hs⟩
    simp only [escDebugChar]
    rcases hc (c :: d :: t) ⟨c, d :: t, rfl, hs⟩ (by simp) with e | e
    · rw [e]
      intro b hb
      have h80 : 0x80 ≤ b := by
        rw [UInt8.le_iff_toNat_le]
        change 128 ≤ b.toNat
        rcases hsh with ⟨a, e, _⟩ | ⟨a, b1, e, _, _⟩ | ⟨a, b1, b2, e, _, _, _, _⟩ | ⟨a, b1, b2, b3, e, _, _, _, _, _⟩
        · exact absurd e (by simp)
        all_goals
          rw [e] at hb
          simp only [List.mem_cons, List.not_mem_nil, or_false] at hb
          rcases hb with rfl | rfl | rfl | rfl <;> omega
      exact ⟨UInt8.le_trans (by decide) h80, by rintro rfl; exact absurd h80 (by decide)⟩
    · rw [e]
      exact oneLine_append (oneLine_append (by decide : ∀ b ∈ (b!"\\u{"), (0x20 : UInt8) ≤ b ∧ b ≠ 0x7F) (natHex_line _))
          (by decide : ∀ b ∈ (b!"}"), (0x20 : UInt8) ≤ b ∧ b ≠ 0x7F)

theorem debugStr_line {cfg : DumpCfg} (hc : EscapesWell cfg) {s : Bytes} (h : Utf8 s) : OneLine (debugStr cfg s) := by
  obtain ⟨h1, _⟩ := charsAux_utf8 h s.length (Nat.le_refl _)
  refine oneLine_append (oneLine_append (by decide : ∀ b ∈ (b!"\""), (0x20 : UInt8) ≤ b ∧ b ≠ 0x7F) ?_)
    (by decide : ∀ b ∈ (b!"\""), (0x20 : UInt8) ≤ b ∧ b ≠ 0x7F)
  intro b hb
  obtain ⟨x, hx, hb⟩ := List.mem_flatten.1 hb
  obtain ⟨ch, hch, rfl⟩ := List.mem_map.1 hx
  exact escDebug_line hc (h1 ch hch) b hb

theorem tuple_line {name field : Bytes} (h1 : OneLine name) (h2 : OneLine field) : OneLine (debugTuple name field) :=
  oneLine_append (oneLine_append (oneLine_append h1 (by decide : ∀ b ∈ (b!"("), (0x20 : UInt8) ≤ b ∧ b ≠ 0x7F)) h2)
    (by decide : ∀ b ∈ (b!")"), (0x20 : UInt8) ≤ b ∧ b ≠ 0x7F)

mutual
theorem debug_line {cfg : DumpCfg} (hc : EscapesWell cfg) : ∀ a : Node, ValidTexts a → OneLine (a.debug cfg)
  | .mk _ _ y, h => by
    simp only [Node.debug]
    exact oneLine_append (by unfold OneLine; decide) (debugY_line hc y (validTexts_mk.1 h))
theorem debugY_line {cfg : DumpCfg} (hc : EscapesWell cfg) : ∀ a : Yaml, YValid a → OneLine (a.debug cfg)
  | .null, _ => by simp only [Yaml.debug, OneLine]; decide
  | .bool v, _ => by
    simp only [Yaml.debug]
    exact tuple_line (by unfold OneLine; decide) (by cases v <;> (unfold OneLine; decide))
  | .int s, h => by
    simp only [Yaml.debug]
    exact tuple_line (by unfold OneLine; decide) (debugStr_line hc (h.1 _ rfl))
  | .float s, h => by
    simp only [Yaml.debug]
    exact tuple_line (by unfold OneLine; decide) (debugStr_line hc (h.1 _ rfl))
  | .str s, h => by
    simp only [Yaml.debug]
    exact tuple_line (by unfold OneLine; decide) (debugStr_line hc (h.1 _ rfl))
  | .alias s, h => by
    simp only [Yaml.debug]
    exact tuple_line (by unfold OneLine; decide) (debugStr_line hc (h.1 _ rfl))
  | .seq l, h => by
    simp only [Yaml.debug]
    exact tuple_line (by unfold OneLine; decide)
      (oneLine_append (oneLine_append (by unfold OneLine; decide) (debugL_line hc l false h.2)) (by unfold OneLine; decide))
  | .map m, h => by
    simp only [Yaml.debug]
    exact tuple_line (by unfold OneLine; decide)
      (oneLine_append (oneLine_append (by unfold OneLine; decide) (debugM_line hc m false h.2)) (by unfold OneLine; decide))
theorem debugL_line {cfg : DumpCfg} (hc : EscapesWell cfg) : ∀ (a : List Node) (b : Bool), (∀ x ∈ a, ValidTexts x) →
    OneLine (debugItems cfg b a)
  | [], _, _ => by simp only [debugItems, OneLine]; decide
  | x :: xs, b, h => by
    simp only [debugItems]
    exact oneLine_append (oneLine_append (by cases b <;> (unfold OneLine; decide)) (debug_line hc x (h x (by simp))))
      (debugL_line hc xs true fun z hz => h z (by simp [hz]))
theorem debugM_line {cfg : DumpCfg} (hc : EscapesWell cfg) : ∀ (a : List (Node × Node)) (b : Bool),
    (∀ k v, (k, v) ∈ a → ValidTexts k ∧ ValidTexts v) → OneLine (debugEntries cfg b a)
  | [], _, _ => by simp only [debugEntries, OneLine]; decide
  | (k, v) :: xs, b, h => by
    simp only [debugEntries, debugEntry]
    exact oneLine_append (oneLine_append (by cases b <;> (unfold OneLine; decide))
      (oneLine_append (oneLine_append (debug_line hc k (h k v (by simp)).1) (by unfold OneLine; decide))
        (debug_line hc v (h k v (by simp)).2)))
      (debugM_line hc xs true fun z w hz => h z w (by simp [hz]))
end

theorem nodeAlt_eq (cfg : DumpCfg) (n : Node) : n.debugAlt cfg = n.debug cfg := by
  cases n; simp only [Node.debugAlt, Node.debug, Node.yaml]

/-- The items of the indented form, before the padding. -/
theorem altItems_unique {cfg : DumpCfg} (hc : EscapesWell cfg) : ∀ (a c : List Node), (∀ x ∈ a, ValidTexts x) →
    (∀ x ∈ c, ValidTexts x) →
    ((a.map fun n => n.debug cfg).map (· ++ b!",\n")).flatten = ((c.map fun n => n.debug cfg).map (· ++ b!",\n")).flatten →
    dataOnlyL a = dataOnlyL c
  | [], [], _, _, _ => rfl
  | [], x :: c, _, _, e => by cases x; simp [Node.debug] at e
  | x :: a, [], _, _, e => by cases x; simp [Node.debug] at e
  | x :: a, y :: c, ha, hc', e => by
    simp only [List.map_cons, List.flatten_cons, List.append_assoc] at e
    obtain ⟨e1, e2⟩ := debug_unique hc x y _ _ (ha x (by simp)) (hc' y (by simp)) e
    rw [List.append_cancel_left_eq] at e2
    simp only [dataOnlyL, e1, altItems_unique hc a c (fun z hz => ha z (by simp [hz])) (fun z hz => hc' z (by simp [hz])) e2]

theorem altEntries_unique {cfg : DumpCfg} (hc : EscapesWell cfg) : ∀ (a c : List (Node × Node)),
    (∀ k v, (k, v) ∈ a → ValidTexts k ∧ ValidTexts v) → (∀ k v, (k, v) ∈ c → ValidTexts k ∧ ValidTexts v) →
    ((a.map fun e => e.1.debug cfg ++ b!": " ++ e.2.debug cfg).map (· ++ b!",\n")).flatten =
      ((c.map fun e => e.1.debug cfg ++ b!": " ++ e.2.debug cfg).map (· ++ b!",\n")).flatten →
    dataOnlyM a = dataOnlyM c
  | [], [], _, _, _ => rfl
  | [], (⟨_, _, _⟩, v) :: c, _, _, e => by simp [Node.debug] at e
  | (⟨_, _, _⟩, v) :: a, [], _, _, e => by simp [Node.debug] at e
  | (k, v) :: a, (k', v') :: c, ha, hc', e => by
    simp only [List.map_cons, List.flatten_cons, List.append_assoc] at e
    obtain ⟨e1, e2⟩ := debug_unique hc k k' _ _ (ha k v (by simp)).1 (hc' k' v' (by simp)).1 e
    rw [List.append_cancel_left_eq] at e2
    obtain ⟨e3, e4⟩ := debug_unique hc v v' _ _ (ha k v (by simp)).2 (hc' k' v' (by simp)).2 e2
    rw [List.append_cancel_left_eq] at e4
    simp only [dataOnlyM, dataOnlyE, e1, e3,
      altEntries_unique hc a c (fun z w hz => ha z w (by simp [hz])) (fun z w hz => hc' z w (by simp [hz]))
        (by simpa only [List.append_assoc] using e4)]

theorem setAlt_inj {o c : Bytes} {a d : List Bytes} (h : debugSetAlt o c a = debugSetAlt o c d) :
    (a.map (· ++ b!",\n")).flatten = (d.map (· ++ b!",\n")).flatten := by
  simp only [debugSetAlt, List.append_assoc, List.append_cancel_left_eq] at h
  have h2 := List.append_cancel_right (by simpa only [List.append_assoc] using h :
    (if a.isEmpty then [] else b!"\n") ++ (a.map altField).flatten ++ c =
      (if d.isEmpty then [] else b!"\n") ++ (d.map altField).flatten ++ c)
  cases a with
  | nil =>
    cases d with
    | nil => rfl
    | cons y d => simp at h2
  | cons x a =>
    cases d with
    | nil => simp at h2
    | cons y d =>
      simp only [List.isEmpty_cons, Bool.false_eq_true, if_false, List.append_cancel_left_eq, altFields_eq] at h2
      exact padLines_inj _ _ _ h2

theorem tupleAlt_inj {name a c : Bytes} (h : debugTupleAlt name a = debugTupleAlt name c) : a = c := by
  simp only [debugTupleAlt] at h
  exact altField_inj (List.append_cancel_left (List.append_cancel_right h))

theorem bytes_nil_unique {s s' : Bytes} {cfg : DumpCfg} (hc : EscapesWell cfg) (hs : Utf8 s) (hs' : Utf8 s')
    (h : debugStr cfg s = debugStr cfg s') : s = s' :=
  (debugStr_unique (r := []) (r' := []) hc hs hs' (by rw [h])).1

theorem yamlAlt_unique {cfg : DumpCfg} (hc : EscapesWell cfg) (a c : Yaml) (ha : YValid a) (hc' : YValid c)
    (e : a.debugAlt cfg = c.debugAlt cfg) : a.dataOnly = c.dataOnly := by
  cases a <;> cases c <;> simp only [Yaml.debugAlt] at e
  any_goals (exfalso; have h := congrArg (List.take 2) e; simp [debugTupleAlt] at h; done)
  · rfl
  · have h := tupleAlt_inj e
    rename_i v v'
    cases v <;> cases v' <;> first | rfl | exact absurd h (by decide)
  · rw [bytes_nil_unique hc (ha.1 _ rfl) (hc'.1 _ rfl) (tupleAlt_inj e)]
  · rw [bytes_nil_unique hc (ha.1 _ rfl) (hc'.1 _ rfl) (tupleAlt_inj e)]
  · rw [bytes_nil_unique hc (ha.1 _ rfl) (hc'.1 _ rfl) (tupleAlt_inj e)]
  · have h := setAlt_inj (tupleAlt_inj e)
    simp only [nodeAlt_eq] at h
    simp only [Yaml.dataOnly, altItems_unique hc _ _ ha.2 hc'.2 h]
  · have h := setAlt_inj (tupleAlt_inj e)
    simp only [nodeAlt_eq] at h
    simp only [Yaml.dataOnly, altEntries_unique hc _ _ ha.2 hc'.2 h]
  · rw [bytes_nil_unique hc (ha.1 _ rfl) (hc'.1 _ rfl) (tupleAlt_inj e)]

theorem itemsAlt_dataOnly (cfg : DumpCfg) : ∀ l : List Node,
    (dataOnlyL l).map (fun n => n.debug cfg) = l.map fun n => n.debug cfg
  | [] => rfl
  | x :: l => by simp only [dataOnlyL, List.map_cons, debug_dataOnly, itemsAlt_dataOnly cfg l]

theorem entriesAlt_dataOnly (cfg : DumpCfg) : ∀ l : List (Node × Node),
    (dataOnlyM l).map (fun e => e.1.debug cfg ++ b!": " ++ e.2.debug cfg) =
      l.map fun e => e.1.debug cfg ++ b!": " ++ e.2.debug cfg
  | [] => rfl
  | (k, v) :: l => by simp only [dataOnlyM, dataOnlyE, List.map_cons, debug_dataOnly, entriesAlt_dataOnly cfg l]

theorem yamlAlt_dataOnly (cfg : DumpCfg) (a : Yaml) : a.dataOnly.debugAlt cfg = a.debugAlt cfg := by
  cases a <;> first | rfl | skip
  · simp only [Yaml.dataOnly, Yaml.debugAlt, nodeAlt_eq, itemsAlt_dataOnly]
  · simp only [Yaml.dataOnly, Yaml.debugAlt, nodeAlt_eq, entriesAlt_dataOnly]

end YamlPeg
