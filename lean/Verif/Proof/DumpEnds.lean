import Verif.Proof.PlainHang
import Verif.Proof.NodeEq
/-!
# When the dumper returns
-/

namespace YamlPeg
open M

theorem Out.bind_ok_iff {α β : Type} {x : Out α} {f : α → Out β} {t : β} :
    (x >>= f) = .ok t ↔ ∃ a, x = .ok a ∧ f a = .ok t := by
  show Out.bind x f = _ ↔ _
  cases x <;> simp [Out.bind]

/-- The strings below a node are all printed with fuel `n`. -/
def StrsOk (cfg : DumpCfg) (n : Nat) (x : Node) : Prop :=
  ∀ m, Occurs m x → ∀ s, m.yaml = .str s → ∃ t, dumpStr cfg n 0 s = .ok t

/-- No sequence below the node has an empty map among its items. -/
def NoEmptyItem (x : Node) : Prop :=
  ∀ m, Occurs m x → ∀ l, m.yaml = .seq l → ∀ y ∈ l, y.yaml ≠ .map []

/-- The anchors can be compared with all nodes below. -/
def AnchorsOk (anchors : Anchors) (x : Node) : Prop :=
  ∀ m, Occurs m x → ∃ r, findAnchor m anchors = .ok r

theorem dumpStr_level {cfg : DumpCfg} {n : Nat} {s : Bytes} (level : Nat) :
    (∃ t, dumpStr cfg n level s = .ok t) ↔ ∃ t, dumpStr cfg n 0 s = .ok t := by
  unfold dumpStr
  split
  · simp
  · rfl

theorem truncNl_iff {cfg : DumpCfg} {b : Bytes} : (∃ t, truncNl cfg b = .ok t) ↔ cfg.nl.length ≤ b.length := by
  unfold truncNl
  split <;> simp_all

theorem truncNl_cases (cfg : DumpCfg) (b : Bytes) : (∃ t, truncNl cfg b = .ok t) ∨ truncNl cfg b = .panic .underflow := by
  unfold truncNl
  split
  · exact .inl ⟨_, rfl⟩
  · exact .inr rfl

theorem anchorText_iff {m : Node} {anchors : Anchors} : (∃ t, anchorText m anchors = .ok t) ↔ ∃ r, findAnchor m anchors = .ok r := by
  unfold anchorText Out.map
  cases findAnchor m anchors <;> simp

/-- Everything that matters: `StrsOk`, `NoEmptyItem`, `AnchorsOk`. -/
structure DumpOk (cfg : DumpCfg) (n : Nat) (anchors : Anchors) (x : Node) : Prop where
  strs : StrsOk cfg n x
  items : NoEmptyItem x
  anch : AnchorsOk anchors x

theorem dumpOk_mk {cfg : DumpCfg} {n : Nat} {anchors : Anchors} {p : Nat} {t : Bytes} {y : Yaml} :
    DumpOk cfg n anchors (.mk p t y) ↔
      (∀ s, y = .str s → ∃ t, dumpStr cfg n 0 s = .ok t) ∧ (∀ l, y = .seq l → ∀ x ∈ l, x.yaml ≠ .map []) ∧
      (∃ r, findAnchor (.mk p t y) anchors = .ok r) ∧ Yaml.Kids (DumpOk cfg n anchors) y := by
  let P : Node → Prop := fun m => (∀ s, m.yaml = .str s → ∃ t, dumpStr cfg n 0 s = .ok t) ∧
    (∀ l, m.yaml = .seq l → ∀ x ∈ l, x.yaml ≠ .map []) ∧ ∃ r, findAnchor m anchors = .ok r
  have h : ∀ x, DumpOk cfg n anchors x ↔ Everywhere P x := fun x =>
    ⟨fun ⟨h1, h2, h3⟩ m hm => ⟨h1 m hm, h2 m hm, h3 m hm⟩,
     fun h => ⟨fun m hm => (h m hm).1, fun m hm => (h m hm).2.1, fun m hm => (h m hm).2.2⟩⟩
  rw [h, everywhere_mk]
  have hk : Yaml.Kids (Everywhere P) y ↔ Yaml.Kids (DumpOk cfg n anchors) y := by
    cases y <;> simp [Yaml.Kids, h]
  rw [hk]
  simp only [P, Node.yaml, and_assoc]

mutual
theorem dumpNode_iff (cfg : DumpCfg) (n : Nat) (anchors : Anchors) : ∀ (x : Node) (root : Root) (level : Nat),
    (∃ t, dumpNode cfg n anchors root level x = .ok t) ↔
      DumpOk cfg n anchors x ∧ (root ≠ .map → x.yaml ≠ .map [])
  | .mk p t y, root, level => by
    have h := dumpYaml_iff cfg n anchors y root level
    rw [dumpOk_mk]
    constructor
    · rintro ⟨r, hr⟩
      rw [dumpNode, Out.bind_ok_iff] at hr
      obtain ⟨a, ha, hr⟩ := hr
      rw [Out.bind_ok_iff] at hr
      obtain ⟨b, hb, _⟩ := hr
      obtain ⟨h1, h2, h3, h4⟩ := h.1 ⟨b, hb⟩
      exact ⟨⟨h1, h2, anchorText_iff.1 ⟨a, ha⟩, h3⟩, h4⟩
    · rintro ⟨⟨h1, h2, h3, h4⟩, h5⟩
      obtain ⟨a, ha⟩ := anchorText_iff.2 h3
      obtain ⟨b, hb⟩ := h.2 ⟨h1, h2, h4, h5⟩
      rw [dumpNode]
      exact ⟨_, Out.bind_ok_iff.2 ⟨a, ha, Out.bind_ok_iff.2 ⟨b, hb, rfl⟩⟩⟩
theorem dumpYaml_iff (cfg : DumpCfg) (n : Nat) (anchors : Anchors) : ∀ (y : Yaml) (root : Root) (level : Nat),
    (∃ t, dumpYaml cfg n anchors root level y = .ok t) ↔
      (∀ s, y = .str s → ∃ t, dumpStr cfg n 0 s = .ok t) ∧ (∀ l, y = .seq l → ∀ x ∈ l, x.yaml ≠ .map []) ∧
      Yaml.Kids (DumpOk cfg n anchors) y ∧ (root ≠ .map → y ≠ .map [])
  | .null, root, level => by simp [dumpYaml, Yaml.Kids]
  | .bool _, root, level => by simp [dumpYaml, Yaml.Kids]
  | .int _, root, level => by simp [dumpYaml, Yaml.Kids]
  | .float _, root, level => by simp [dumpYaml, Yaml.Kids]
  | .alias _, root, level => by simp [dumpYaml, Yaml.Kids]
  | .str s, root, level => by
    rw [dumpYaml, dumpStr_level]
    simp [Yaml.Kids]
  | .seq l, root, level => by
    have h := dumpItems_iff cfg n anchors l level true
    rw [dumpYaml]
    constructor
    · rintro ⟨r, hr⟩
      rw [Out.bind_ok_iff] at hr
      obtain ⟨a, ha, _⟩ := hr
      have := h.1 ⟨a, ha⟩
      refine ⟨by simp, ?_, fun x hx => (this x hx).1, by simp⟩
      rintro _ ⟨⟩ x hx
      exact (this x hx).2
    · rintro ⟨_, h2, h3, _⟩
      obtain ⟨a, ha⟩ := h.2 fun x hx => ⟨h3 x hx, h2 l rfl x hx⟩
      obtain ⟨r, hr⟩ := (truncNl_iff (cfg := cfg) (b := cfg.nl ++ a)).2 (by simp)
      exact ⟨r, Out.bind_ok_iff.2 ⟨a, ha, hr⟩⟩
  | .map m, root, level => by
    have h := dumpEntries_iff cfg n anchors m root level true
    rw [dumpYaml]
    constructor
    · rintro ⟨r, hr⟩
      rw [Out.bind_ok_iff] at hr
      obtain ⟨a, ha, hr⟩ := hr
      refine ⟨by simp, by simp, fun k v hx => (h.1 ⟨a, ha⟩) k v hx, ?_⟩
      intro hroot hm
      cases hm
      rw [dumpEntries] at ha
      cases ha
      have := truncNl_iff.1 ⟨r, hr⟩
      rw [if_neg hroot] at this
      revert this
      unfold DumpCfg.nl
      cases cfg.windows <;> decide
    · rintro ⟨_, _, h3, h4⟩
      obtain ⟨a, ha⟩ := h.2 h3
      have hlen : cfg.nl.length ≤ ((if root = .map then cfg.nl else []) ++ a).length := by
        by_cases hroot : root = .map
        · rw [if_pos hroot]; simp
        · have hm : m ≠ [] := fun e => h4 hroot (by rw [e])
          have := dumpEntries_len cfg n anchors m root level true hm ha
          simp; omega
      obtain ⟨r, hr⟩ := truncNl_iff.2 hlen
      exact ⟨r, Out.bind_ok_iff.2 ⟨a, ha, hr⟩⟩
theorem dumpItems_iff (cfg : DumpCfg) (n : Nat) (anchors : Anchors) : ∀ (l : List Node) (level : Nat) (first : Bool),
    (∃ t, dumpItems cfg n anchors level first l = .ok t) ↔
      ∀ x ∈ l, DumpOk cfg n anchors x ∧ x.yaml ≠ .map []
  | [], level, first => by simp [dumpItems]
  | x :: xs, level, first => by
    have h1 := dumpNode_iff cfg n anchors x .array (level + 1)
    have h2 := dumpItems_iff cfg n anchors xs level false
    rw [dumpItems, List.forall_mem_cons, ← h2]
    simp only [ne_eq, reduceCtorEq, not_false_eq_true, true_implies] at h1
    rw [← h1]
    constructor
    · rintro ⟨r, hr⟩
      rw [Out.bind_ok_iff] at hr
      obtain ⟨a, ha, hr⟩ := hr
      rw [Out.bind_ok_iff] at hr
      obtain ⟨b, hb, _⟩ := hr
      exact ⟨⟨a, ha⟩, ⟨b, hb⟩⟩
    · rintro ⟨⟨a, ha⟩, ⟨b, hb⟩⟩
      exact ⟨_, Out.bind_ok_iff.2 ⟨a, ha, Out.bind_ok_iff.2 ⟨b, hb, rfl⟩⟩⟩
theorem dumpEntries_iff (cfg : DumpCfg) (n : Nat) (anchors : Anchors) : ∀ (l : List (Node × Node)) (root : Root)
    (level : Nat) (first : Bool),
    (∃ t, dumpEntries cfg n anchors root level first l = .ok t) ↔
      ∀ k v, (k, v) ∈ l → DumpOk cfg n anchors k ∧ DumpOk cfg n anchors v
  | [], root, level, first => by simp [dumpEntries]
  | e :: es, root, level, first => by
    have h1 := dumpEntry_iff cfg n anchors e root level first
    have h2 := dumpEntries_iff cfg n anchors es root level false
    have h3 : (∀ k v, (k, v) ∈ e :: es → DumpOk cfg n anchors k ∧ DumpOk cfg n anchors v) ↔
        (DumpOk cfg n anchors e.1 ∧ DumpOk cfg n anchors e.2) ∧
        ∀ k v, (k, v) ∈ es → DumpOk cfg n anchors k ∧ DumpOk cfg n anchors v := by
      constructor
      · intro h
        exact ⟨h e.1 e.2 (by simp), fun k v hm => h k v (by simp [hm])⟩
      · rintro ⟨h, h'⟩ k v hm
        rcases List.mem_cons.1 hm with hm | hm
        · rw [← hm] at h; exact h
        · exact h' k v hm
    rw [h3, ← h1, ← h2, dumpEntries]
    constructor
    · rintro ⟨r, hr⟩
      rw [Out.bind_ok_iff] at hr
      obtain ⟨a, ha, hr⟩ := hr
      rw [Out.bind_ok_iff] at hr
      obtain ⟨b, hb, _⟩ := hr
      exact ⟨⟨a, ha⟩, ⟨b, hb⟩⟩
    · rintro ⟨⟨a, ha⟩, ⟨b, hb⟩⟩
      exact ⟨_, Out.bind_ok_iff.2 ⟨a, ha, Out.bind_ok_iff.2 ⟨b, hb, rfl⟩⟩⟩
theorem dumpEntry_iff (cfg : DumpCfg) (n : Nat) (anchors : Anchors) : ∀ (e : Node × Node) (root : Root)
    (level : Nat) (first : Bool),
    (∃ t, dumpEntry cfg n anchors root level first e = .ok t) ↔ DumpOk cfg n anchors e.1 ∧ DumpOk cfg n anchors e.2
  | (k, v), root, level, first => by
    have h1 := dumpNode_iff cfg n anchors k .map (level + 1)
    have h2 := dumpNode_iff cfg n anchors v .map (valueLevel root level first v.yaml)
    simp only [ne_eq, not_true_eq_false, false_implies, and_true] at h1 h2
    rw [← h1, ← h2, dumpEntry]
    constructor
    · rintro ⟨r, hr⟩
      rw [Out.bind_ok_iff] at hr
      obtain ⟨a, ha, hr⟩ := hr
      rw [Out.bind_ok_iff] at hr
      obtain ⟨b, hb, _⟩ := hr
      exact ⟨⟨a, ha⟩, ⟨b, hb⟩⟩
    · rintro ⟨⟨a, ha⟩, ⟨b, hb⟩⟩
      exact ⟨_, Out.bind_ok_iff.2 ⟨a, ha, Out.bind_ok_iff.2 ⟨b, hb, rfl⟩⟩⟩
theorem dumpEntries_len (cfg : DumpCfg) (n : Nat) (anchors : Anchors) : ∀ (l : List (Node × Node)) (root : Root)
    (level : Nat) (first : Bool) {t : Bytes}, l ≠ [] → dumpEntries cfg n anchors root level first l = .ok t →
    cfg.nl.length ≤ t.length
  | [], root, level, first, t, h, _ => absurd rfl h
  | (k, v) :: es, root, level, first, t, _, h => by
    rw [dumpEntries, Out.bind_ok_iff] at h
    obtain ⟨a, ha, h⟩ := h
    rw [Out.bind_ok_iff] at h
    obtain ⟨b, hb, h⟩ := h
    rw [dumpEntry, Out.bind_ok_iff] at ha
    obtain ⟨c, hc, ha⟩ := ha
    rw [Out.bind_ok_iff] at ha
    obtain ⟨d, hd, ha⟩ := ha
    cases h
    cases ha
    simp
    omega
end

theorem dumpDocs_iff (cfg : DumpCfg) (n : Nat) (anchors : List Anchors) : ∀ (ns : List Node) (i : Nat),
    (∃ t, dumpDocs cfg n anchors i ns = .ok t) ↔
      ∀ j x, ns[j]? = some x → DumpOk cfg n (anchors.getD (i + j) []) x ∧ x.yaml ≠ .map []
  | [], i => by simp [dumpDocs]
  | x :: xs, i => by
    have h1 := dumpNode_iff cfg n (anchors.getD i []) x .scalar 0
    have h2 := dumpDocs_iff cfg n anchors xs (i + 1)
    simp only [ne_eq, reduceCtorEq, not_false_eq_true, true_implies] at h1
    have h3 : (∀ j y, (x :: xs)[j]? = some y → DumpOk cfg n (anchors.getD (i + j) []) y ∧ y.yaml ≠ .map []) ↔
        (DumpOk cfg n (anchors.getD i []) x ∧ x.yaml ≠ .map []) ∧
        ∀ j y, xs[j]? = some y → DumpOk cfg n (anchors.getD (i + 1 + j) []) y ∧ y.yaml ≠ .map [] := by
      constructor
      · intro h
        refine ⟨h 0 x rfl, fun j y hy => ?_⟩
        have := h (j + 1) y (by simpa using hy)
        rwa [show i + (j + 1) = i + 1 + j by omega] at this
      · rintro ⟨h, h'⟩ j y hy
        cases j with
        | zero => simp at hy; subst hy; exact h
        | succ j =>
          have := h' j y (by simpa using hy)
          rwa [show i + 1 + j = i + (j + 1) by omega] at this
    rw [h3, ← h2]
    simp only [ne_eq]
    rw [← h1, dumpDocs]
    constructor
    · rintro ⟨r, hr⟩
      rw [Out.bind_ok_iff] at hr
      obtain ⟨a, ha, hr⟩ := hr
      simp only [] at hr
      rw [Out.bind_ok_iff] at hr
      obtain ⟨b, hb, _⟩ := hr
      exact ⟨⟨a, ha⟩, ⟨b, hb⟩⟩
    · rintro ⟨⟨a, ha⟩, ⟨b, hb⟩⟩
      exact ⟨_, Out.bind_ok_iff.2 ⟨a, ha, Out.bind_ok_iff.2 ⟨b, hb, rfl⟩⟩⟩

/-! ## Strings -/

/-- A separator that ends a plain scalar. -/
def SepAt (E : Bytes) : Prop := b!": " <+: E ∨ b!":\n" <+: E ∨ b!":\r" <+: E ∨ b!" #" <+: E

/-- The dumper never finishes such a string if it counts as one line: it holds a line
break in front of every separator, or it begins with a flow indicator. -/
def Endless (s : Bytes) : Prop :=
  ∃ A c B, s = A ++ c :: B ∧ (c = 0x0A ∨ c = 0x0D ∨ (A = [] ∧ c ∈ b!"[]{}")) ∧
    ∀ A1 A2, A = A1 ++ A2 → A2 ≠ [] → ¬ SepAt (A2 ++ c :: B)

theorem stopB_sep {E : Bytes} : stopB E = true ↔ E = [] ∨ SepAt E := by
  unfold stopB SepAt
  split
  · simp
  · rename_i r
    cases r with
    | nil => simp [colonStop, List.prefix_iff_eq_append]
    | cons c r =>
      simp only [colonStop, Bool.or_eq_true, beq_iff_eq, List.cons_prefix_cons, List.nil_prefix]
      constructor
      · rintro ((rfl | rfl) | rfl) <;> simp
      · rintro (h | h | h | h | h) <;> simp_all
  · simp
  · rename_i h1 h2 h3
    simp only [Bool.false_eq_true, false_iff, not_or]
    refine ⟨h1, ?_, ?_, ?_, ?_⟩
    · rintro ⟨t, rfl⟩; exact h2 _ rfl
    · rintro ⟨t, rfl⟩; exact h2 _ rfl
    · rintro ⟨t, rfl⟩; exact h2 _ rfl
    · rintro ⟨t, rfl⟩; exact h3 _ rfl

theorem plainBody_facts {E : Bytes} : ∀ {T : Bytes} {ne : Bool}, plainBody false E ne T = true →
    (∀ c ∈ T, c ≠ 0x0A ∧ c ≠ 0x0D) ∧ (ne = false → ∀ c r, T = c :: r → c ∉ b!"[]{}") ∧
    ∀ T1 T2, T = T1 ++ T2 → T2 ≠ [] → ¬ SepAt (T2 ++ E)
  | [], ne, _ => by
    refine ⟨by simp, by simp, ?_⟩
    intro T1 T2 h h'
    simp at h; exact absurd h.2 h'
  | c :: s, ne, h => by
    simp only [plainBody, Bool.and_eq_true, Bool.not_eq_true', Bool.and_eq_false_iff, bne_iff_ne, Bool.false_or] at h
    obtain ⟨⟨⟨⟨⟨⟨b1, b2⟩, b3⟩, b4⟩, b5⟩, b6⟩, b7⟩ := h
    obtain ⟨i1, _, i3⟩ := plainBody_facts b7
    refine ⟨?_, ?_, ?_⟩
    · intro x hx
      rcases List.mem_cons.1 hx with rfl | hx
      · exact ⟨b1, b2⟩
      · exact i1 x hx
    · rintro rfl _ _ ⟨⟩
      simpa using b5
    · intro T1 T2 hT hne
      cases T1 with
      | cons x T1 =>
        simp at hT
        exact i3 T1 T2 hT.2 hne
      | nil =>
        simp at hT
        subst hT
        intro hs
        have := stopB_sep.2 (.inr hs)
        simp only [List.cons_append] at this
        unfold stopB at this
        split at this
        · simp_all
        · simp_all
        · rename_i he
          simp only [List.cons.injEq] at he
          rw [he.2] at b4
          simp [he.1] at b4
        · cases this

/-- Whether a string that counts as one line is finished. -/
theorem plain_endless {s : Bytes} (hu : Utf8 s) :
    (Endless s ∧ ∀ n, (stringPlain n 0 false (Parser.new s)).1 = .diverge) ∨
    (¬ Endless s ∧ ∀ n, s.length < n →
      (∃ t, (stringPlain n 0 false (Parser.new s)).1 = .ok t) ∨ (stringPlain n 0 false (Parser.new s)).1 = .err .mismatch) := by
  obtain ⟨T, E, rfl, hb, h | h⟩ := plain_outcome hu
  · refine .inl ⟨?_, h.2⟩
    obtain ⟨c, r, rfl⟩ : ∃ c r, E = c :: r := by obtain ⟨c, r, h, _⟩ := h.1.head; exact ⟨c, r, h⟩
    refine ⟨T, c, r, rfl, ?_, (plainBody_facts hb).2.2⟩
    cases h.1 with
    | nl hc => rcases hc with h | h <;> simp [h]
    | flow hc hi hcomma =>
      simp only [Bool.false_eq_true, false_or, imp_false] at hi hcomma
      simp at hc ⊢
      rcases hc with h | h | h | h | h <;> simp_all
  · refine .inr ⟨?_, fun n hn => ?_⟩
    · rintro ⟨A, c, B, he, hc, hsep⟩
      obtain ⟨f1, f2, _⟩ := plainBody_facts hb
      by_cases hl : A.length < T.length
      · obtain ⟨T2, rfl⟩ : ∃ T2, T = A ++ c :: T2 := by
          have h1 : (A ++ c :: B).take T.length = T := by rw [← he]; simp
          rw [List.take_append, List.take_of_length_le (by omega)] at h1
          obtain ⟨j, hj⟩ : ∃ j, T.length - A.length = j + 1 := ⟨T.length - A.length - 1, by omega⟩
          rw [hj, List.take_succ_cons] at h1
          exact ⟨_, h1.symm⟩
        rcases hc with rfl | rfl | ⟨rfl, hc⟩
        · exact (f1 0x0A (by simp)).1 rfl
        · exact (f1 0x0D (by simp)).2 rfl
        · exact f2 rfl c T2 rfl hc
      · obtain ⟨A2, rfl⟩ : ∃ A2, A = T ++ A2 := by
          have h1 : (T ++ E).take A.length = A := by rw [he]; simp
          rw [List.take_append, List.take_of_length_le (by omega)] at h1
          exact ⟨_, h1.symm⟩
        rw [List.append_assoc, List.append_cancel_left_eq] at he
        have hst := h.1
        rw [stopB_sep, he] at hst
        rcases hst with hst | hst
        · simp at hst
        · by_cases h2 : A2 = []
          · subst h2
            have := stopB_sep.2 (.inr hst)
            simp only [List.nil_append, List.append_nil] at this hc
            rcases hc with rfl | rfl | ⟨_, hc⟩
            · cases this
            · cases this
            · simp at hc; rcases hc with rfl | rfl | rfl | rfl <;> cases this
          · exact hsep T A2 rfl h2 hst
    · rw [h.2 n (by simp at hn; omega)]
      split
      · exact .inr rfl
      · exact .inl ⟨_, rfl⟩

/-- A string the dumper never finishes. -/
def Hanging (s : Bytes) : Prop := (lines s).length < 2 ∧ Endless s

theorem dumpStr_outcome (cfg : DumpCfg) {s : Bytes} (hu : Utf8 s) :
    (Hanging s ∧ ∀ n level, dumpStr cfg n level s = .diverge) ∨
    (¬ Hanging s ∧ ∀ n level, s.length < n → ∃ t, dumpStr cfg n level s = .ok t) := by
  by_cases hl : (lines s).length < 2
  · rcases plain_endless hu with ⟨h1, h2⟩ | ⟨h1, h2⟩
    · refine .inl ⟨⟨hl, h1⟩, fun n level => ?_⟩
      rw [dumpStr, if_neg (by omega), h2]
    · refine .inr ⟨fun h => h1 h.2, fun n level hn => ?_⟩
      rw [dumpStr, if_neg (by omega)]
      rcases h2 n hn with ⟨t, h⟩ | h <;> rw [h] <;> simp
  · refine .inr ⟨fun h => hl h.1, fun n level _ => ?_⟩
    rw [dumpStr, if_pos (by omega)]
    simp

theorem occurs_size {m x : Node} (h : Occurs m x) : sizeOf m ≤ sizeOf x := by
  induction h with
  | self => exact Nat.le_refl _
  | item hx _ ih =>
    have := List.sizeOf_lt_of_mem hx
    simp only [Node.mk.sizeOf_spec, Yaml.seq.sizeOf_spec]
    omega
  | key hx _ ih =>
    have := List.sizeOf_lt_of_mem hx
    simp only [Node.mk.sizeOf_spec, Yaml.map.sizeOf_spec, Prod.mk.sizeOf_spec] at *
    omega
  | value hx _ ih =>
    have := List.sizeOf_lt_of_mem hx
    simp only [Node.mk.sizeOf_spec, Yaml.map.sizeOf_spec, Prod.mk.sizeOf_spec] at *
    omega

theorem sizeOf_bytes (s : Bytes) : s.length < sizeOf s := by
  induction s with
  | nil => simp
  | cons c r ih => simp; omega

/-- All strings below the node are valid text (in Rust every `String` is). -/
def TextOk (x : Node) : Prop := Everywhere (fun m => ∀ s, m.yaml = .str s → Utf8 s) x

theorem strsOk_iff (cfg : DumpCfg) {x : Node} (hx : TextOk x) (n : Nat) (hn : sizeOf x ≤ n) :
    StrsOk cfg n x ↔ ∀ m, Occurs m x → ∀ s, m.yaml = .str s → ¬ Hanging s := by
  constructor
  · intro h m hm s hs hh
    rcases dumpStr_outcome cfg (hx m hm s hs) with ⟨_, h2⟩ | ⟨h2, _⟩
    · obtain ⟨t, ht⟩ := h m hm s hs
      rw [h2] at ht; cases ht
    · exact h2 hh
  · intro h m hm s hs
    rcases dumpStr_outcome cfg (hx m hm s hs) with ⟨h1, _⟩ | ⟨_, h2⟩
    · exact absurd h1 (h m hm s hs)
    · refine h2 n 0 ?_
      have h1 := occurs_size hm
      have h2 := sizeOf_bytes s
      obtain ⟨p, t, y⟩ := m
      simp only [Node.yaml] at hs
      subst hs
      simp only [Node.mk.sizeOf_spec, Yaml.str.sizeOf_spec] at h1
      omega

theorem strsOk_not (cfg : DumpCfg) {x : Node} (hx : TextOk x) (n : Nat) (h : StrsOk cfg n x) :
    ∀ m, Occurs m x → ∀ s, m.yaml = .str s → ¬ Hanging s := by
  intro m hm s hs hh
  rcases dumpStr_outcome cfg (hx m hm s hs) with ⟨_, h2⟩ | ⟨h2, _⟩
  · obtain ⟨t, ht⟩ := h m hm s hs
    rw [h2] at ht; cases ht
  · exact h2 hh

theorem findAnchor_readable {m : Node} (hm : Readable m) : ∀ {a : Anchors}, (∀ kv ∈ a, Readable kv.2) →
    ∃ r, findAnchor m a = .ok r
  | [], _ => ⟨none, rfl⟩
  | (k, v) :: r, h => by
    rw [findAnchor, eq?_ok v (h (k, v) (by simp)) m hm]
    cases Node.eqb v m with
    | true => exact ⟨_, rfl⟩
    | false => exact findAnchor_readable hm fun kv hkv => h kv (by simp [hkv])

/-- The whole story for nodes and anchors with readable numbers (or no anchors at all). -/
theorem dump_iff (cfg : DumpCfg) (ns : List Node) (anchors : List Anchors) (ht : ∀ x ∈ ns, TextOk x)
    (ha : (∀ a ∈ anchors, a = []) ∨ (∀ x ∈ ns, Readable x) ∧ ∀ a ∈ anchors, ∀ kv ∈ a, Readable kv.2) :
    (∃ text, Ends (fun n => dump cfg n ns anchors) (.ok text)) ↔
      ∀ x ∈ ns, x.yaml ≠ .map [] ∧ NoEmptyItem x ∧ ∀ m, Occurs m x → ∀ s, m.yaml = .str s → ¬ Hanging s := by
  have hanch : ∀ i, ∀ x ∈ ns, AnchorsOk (anchors.getD i []) x := by
    intro i x hx m hm
    rw [List.getD_eq_getElem?_getD]
    cases h : anchors[i]? with
    | none => exact ⟨none, rfl⟩
    | some a =>
      have ham := List.mem_of_getElem? h
      rcases ha with ha | ⟨h1, h2⟩
      · rw [ha a ham]; exact ⟨none, rfl⟩
      · exact findAnchor_readable (fun m' hm' => h1 x hx m' (hm'.trans hm)) (h2 a ham)
  constructor
  · rintro ⟨text, _, N, hN⟩ x hx
    obtain ⟨j, hj⟩ := List.mem_iff_getElem?.1 hx
    have := (dumpDocs_iff cfg N anchors ns 0).1 ⟨text, hN N (Nat.le_refl _)⟩ j x hj
    exact ⟨this.2, this.1.items, strsOk_not cfg (ht x hx) N this.1.strs⟩
  · intro h
    have key : ∀ n, sizeOf ns ≤ n → ∃ t, dump cfg n ns anchors = .ok t := by
      intro n hn
      refine (dumpDocs_iff cfg n anchors ns 0).2 fun j x hj => ?_
      have hx := List.mem_of_getElem? hj
      obtain ⟨h1, h2, h3⟩ := h x hx
      have := List.sizeOf_lt_of_mem hx
      exact ⟨⟨(strsOk_iff cfg (ht x hx) n (by omega)).2 h3, h2, hanch _ x hx⟩, h1⟩
    obtain ⟨t, ht'⟩ := key _ (Nat.le_refl _)
    refine ⟨t, by simp, sizeOf ns, fun n hn => ?_⟩
    have := Props.C49_dump_stable cfg ns anchors _ n hn (by rw [ht']; simp)
    rw [← ht']; exact this

/-! ## What happens otherwise -/

/-- Either it is fine, or it is the underflow panic and `E` holds, or it hangs and `H` holds. -/
def Fate {α : Type} (E H : Prop) : Out α → Prop
  | .ok _ => True
  | .err _ => False
  | .panic p => p = .underflow ∧ E
  | .diverge => H

theorem Fate.bind {α β : Type} {E H : Prop} {x : Out α} {f : α → Out β} (hx : Fate E H x) (hf : ∀ a, Fate E H (f a)) :
    Fate E H (x >>= f) := by
  show Fate E H (Out.bind x f)
  cases x with
  | ok a => exact hf a
  | err e => exact hx
  | panic p => exact hx
  | diverge => exact hx

/-- What one node must satisfy. -/
def FateHere (cfg : DumpCfg) (n : Nat) (anchors : Anchors) (E H : Prop) (m : Node) : Prop :=
  (∀ s, m.yaml = .str s → ∀ level, Fate E H (dumpStr cfg n level s)) ∧
  (∀ l, m.yaml = .seq l → ∀ y ∈ l, y.yaml = .map [] → E) ∧ ∃ r, findAnchor m anchors = .ok r

mutual
theorem dumpNode_fate {cfg : DumpCfg} {n : Nat} {anchors : Anchors} {E H : Prop} : ∀ (x : Node) (root : Root) (level : Nat),
    Everywhere (FateHere cfg n anchors E H) x → (root ≠ .map → x.yaml = .map [] → E) →
    Fate E H (dumpNode cfg n anchors root level x)
  | .mk p t y, root, level, h, he => by
    have hh := everywhere_mk.1 h
    obtain ⟨a, ha⟩ := anchorText_iff.2 hh.1.2.2
    rw [dumpNode, ha]
    refine Fate.bind (x := .ok a) trivial fun _ => Fate.bind ?_ fun _ => trivial
    exact dumpYaml_fate y root level hh.1.1 hh.1.2.1 hh.2 he
theorem dumpYaml_fate {cfg : DumpCfg} {n : Nat} {anchors : Anchors} {E H : Prop} : ∀ (y : Yaml) (root : Root) (level : Nat),
    (∀ s, y = .str s → ∀ level, Fate E H (dumpStr cfg n level s)) →
    (∀ l, y = .seq l → ∀ y ∈ l, y.yaml = .map [] → E) →
    Yaml.Kids (Everywhere (FateHere cfg n anchors E H)) y → (root ≠ .map → y = .map [] → E) →
    Fate E H (dumpYaml cfg n anchors root level y)
  | .null, root, level, _, _, _, _ => trivial
  | .bool _, root, level, _, _, _, _ => trivial
  | .int _, root, level, _, _, _, _ => trivial
  | .float _, root, level, _, _, _, _ => trivial
  | .alias _, root, level, _, _, _, _ => trivial
  | .str s, root, level, h, _, _, _ => by rw [dumpYaml]; exact h s rfl level
  | .seq l, root, level, _, h2, h3, _ => by
    rw [dumpYaml]
    refine Fate.bind (dumpItems_fate l level true fun x hx => ⟨h3 x hx, h2 l rfl x hx⟩) fun a => ?_
    obtain ⟨t, ht⟩ := (truncNl_iff (cfg := cfg) (b := cfg.nl ++ a)).2 (by simp)
    rw [ht]; trivial
  | .map m, root, level, _, _, h3, h4 => by
    rw [dumpYaml]
    have hf := dumpEntries_fate m root level true h3
    by_cases hm : root ≠ .map ∧ m = []
    · obtain ⟨hr, rfl⟩ := hm
      rw [dumpEntries]
      refine Fate.bind (x := .ok []) trivial fun a => ?_
      rcases truncNl_cases cfg ((if root = .map then cfg.nl else []) ++ a) with ⟨t, h⟩ | h
      · rw [h]; trivial
      · rw [h]; exact ⟨rfl, h4 hr rfl⟩
    · cases hd : dumpEntries cfg n anchors root level true m with
      | ok a =>
        show Fate E H (truncNl cfg _)
        have hlen : cfg.nl.length ≤ ((if root = .map then cfg.nl else []) ++ a).length := by
          by_cases hroot : root = .map
          · rw [if_pos hroot]; simp
          · have := dumpEntries_len cfg n anchors m root level true (fun e => hm ⟨hroot, e⟩) hd
            simp; omega
        obtain ⟨t, ht⟩ := truncNl_iff.2 hlen
        rw [ht]; trivial
      | err e => rw [hd] at hf; exact hf
      | panic p => rw [hd] at hf; exact hf
      | diverge => rw [hd] at hf; exact hf
theorem dumpItems_fate {cfg : DumpCfg} {n : Nat} {anchors : Anchors} {E H : Prop} : ∀ (l : List Node) (level : Nat) (first : Bool),
    (∀ x ∈ l, Everywhere (FateHere cfg n anchors E H) x ∧ (x.yaml = .map [] → E)) →
    Fate E H (dumpItems cfg n anchors level first l)
  | [], level, first, _ => trivial
  | x :: xs, level, first, h => by
    rw [dumpItems]
    refine Fate.bind (dumpNode_fate x .array (level + 1) (h x (by simp)).1 fun _ => (h x (by simp)).2) fun _ =>
      Fate.bind (dumpItems_fate xs level false fun y hy => h y (by simp [hy])) fun _ => trivial
theorem dumpEntries_fate {cfg : DumpCfg} {n : Nat} {anchors : Anchors} {E H : Prop} : ∀ (l : List (Node × Node)) (root : Root)
    (level : Nat) (first : Bool),
    (∀ k v, (k, v) ∈ l → Everywhere (FateHere cfg n anchors E H) k ∧ Everywhere (FateHere cfg n anchors E H) v) →
    Fate E H (dumpEntries cfg n anchors root level first l)
  | [], root, level, first, _ => trivial
  | e :: es, root, level, first, h => by
    rw [dumpEntries]
    refine Fate.bind (dumpEntry_fate e root level first (h e.1 e.2 (by simp))) fun _ =>
      Fate.bind (dumpEntries_fate es root level false fun k v hm => h k v (by simp [hm])) fun _ => trivial
theorem dumpEntry_fate {cfg : DumpCfg} {n : Nat} {anchors : Anchors} {E H : Prop} : ∀ (e : Node × Node) (root : Root)
    (level : Nat) (first : Bool),
    Everywhere (FateHere cfg n anchors E H) e.1 ∧ Everywhere (FateHere cfg n anchors E H) e.2 →
    Fate E H (dumpEntry cfg n anchors root level first e)
  | (k, v), root, level, first, h => by
    rw [dumpEntry]
    refine Fate.bind (dumpNode_fate k .map (level + 1) h.1 (by simp)) fun _ =>
      Fate.bind (dumpNode_fate v .map _ h.2 (by simp)) fun _ => trivial
end

theorem dumpDocs_fate {cfg : DumpCfg} {n : Nat} {anchors : List Anchors} {E H : Prop} : ∀ (ns : List Node) (i : Nat),
    (∀ x ∈ ns, (∀ i, Everywhere (FateHere cfg n (anchors.getD i []) E H) x) ∧ (x.yaml = .map [] → E)) →
    Fate E H (dumpDocs cfg n anchors i ns)
  | [], i, _ => trivial
  | x :: xs, i, h => by
    rw [dumpDocs]
    exact Fate.bind (dumpNode_fate x .scalar 0 ((h x (by simp)).1 i) fun _ => (h x (by simp)).2) fun _ =>
      Fate.bind (dumpDocs_fate xs (i + 1) fun y hy => h y (by simp [hy])) fun _ => trivial

theorem dump_fate (cfg : DumpCfg) (ns : List Node) (anchors : List Anchors) (ht : ∀ x ∈ ns, TextOk x)
    (ha : (∀ a ∈ anchors, a = []) ∨ (∀ x ∈ ns, Readable x) ∧ ∀ a ∈ anchors, ∀ kv ∈ a, Readable kv.2) (n : Nat)
    (hn : sizeOf ns ≤ n) :
    Fate (∃ x ∈ ns, x.yaml = .map [] ∨ ¬ NoEmptyItem x)
      (∃ x ∈ ns, ∃ m, Occurs m x ∧ ∃ s, m.yaml = .str s ∧ Hanging s) (dump cfg n ns anchors) := by
  refine dumpDocs_fate ns 0 fun x hx => ⟨fun i m hm => ⟨fun s hs level => ?_, fun l hl y hy hy' => ?_, ?_⟩, fun h => ⟨x, hx, .inl h⟩⟩
  · rcases dumpStr_outcome cfg (ht x hx m hm s hs) with ⟨h1, h2⟩ | ⟨h1, h2⟩
    · rw [h2]; exact ⟨x, hx, m, hm, s, hs, h1⟩
    · obtain ⟨t, ht⟩ := h2 n level (by
        have h1 := occurs_size hm
        have h2 := sizeOf_bytes s
        have h3 := List.sizeOf_lt_of_mem hx
        obtain ⟨p, t, y⟩ := m
        simp only [Node.yaml] at hs
        subst hs
        simp only [Node.mk.sizeOf_spec, Yaml.str.sizeOf_spec] at h1
        omega)
      rw [ht]; trivial
  · exact ⟨x, hx, .inr fun h => h m hm l hl y hy hy'⟩
  · rw [List.getD_eq_getElem?_getD]
    cases h : anchors[i]? with
    | none => exact ⟨none, rfl⟩
    | some a =>
      have ham := List.mem_of_getElem? h
      rcases ha with ha | ⟨h1, h2⟩
      · rw [ha a ham]; exact ⟨none, rfl⟩
      · exact findAnchor_readable (fun m' hm' => h1 x hx m' (hm'.trans hm)) (h2 a ham)

/-! ## Positions and core tags are not printed -/

theorem isColl_erase (y : Yaml) : y.erase.isColl = y.isColl := by cases y <;> rfl
theorem valueLevel_erase (root : Root) (level : Nat) (first : Bool) (y : Yaml) :
    valueLevel root level first y.erase = valueLevel root level first y := by cases y <;> rfl

theorem Node.erase_yaml (x : Node) : x.erase.yaml = x.yaml.erase := by cases x; rfl

theorem keptTag_other {t : Bytes} (h : ¬ PlainTag t) : keptTag t = t := by
  unfold keptTag
  rw [if_neg fun e => h (.inr e)]

theorem tagText_other {p p' : Nat} {t : Bytes} {y y' : Yaml} (h : t ≠ []) :
    tagText (.mk p t y) = tagText (.mk p' t y') := by
  have h1 : ∀ p y, (Node.mk p t y).tagOf = t := by
    intro p y
    unfold Node.tagOf Node.rawTag
    split
    · contradiction
    · rfl
  unfold tagText
  rw [h1, h1]

mutual
theorem dumpNode_erase {cfg : DumpCfg} {n : Nat} : ∀ (x : Node) (root : Root) (level : Nat),
    dumpNode cfg n [] root level x.erase = dumpNode cfg n [] root level x
  | .mk p t y, root, level => by
    by_cases ht : PlainTag t
    · rw [Node.erase, ht.kept, dumpNode_eq (.inl rfl), dumpNode_eq ht, dumpYaml_erase y root level]
    · have hne : t ≠ [] := fun e => ht (.inl e)
      rw [Node.erase, keptTag_other ht, dumpNode, dumpNode, dumpYaml_erase y root level,
        tagText_other (p' := p) (y' := y) hne]
      rfl
theorem dumpYaml_erase {cfg : DumpCfg} {n : Nat} : ∀ (y : Yaml) (root : Root) (level : Nat),
    dumpYaml cfg n [] root level y.erase = dumpYaml cfg n [] root level y
  | .null, root, level => rfl
  | .bool _, root, level => rfl
  | .int _, root, level => rfl
  | .float _, root, level => rfl
  | .alias _, root, level => rfl
  | .str _, root, level => rfl
  | .seq l, root, level => by
    rw [Yaml.erase, dumpYaml, dumpYaml, dumpItems_erase l level true]
  | .map m, root, level => by
    rw [Yaml.erase, dumpYaml, dumpYaml, dumpEntries_erase m root level true]
theorem dumpItems_erase {cfg : DumpCfg} {n : Nat} : ∀ (l : List Node) (level : Nat) (first : Bool),
    dumpItems cfg n [] level first (eraseNodes l) = dumpItems cfg n [] level first l
  | [], level, first => rfl
  | x :: xs, level, first => by
    rw [eraseNodes, dumpItems, dumpItems, dumpNode_erase x _ _, dumpItems_erase xs level false]
theorem dumpEntries_erase {cfg : DumpCfg} {n : Nat} : ∀ (l : List (Node × Node)) (root : Root) (level : Nat) (first : Bool),
    dumpEntries cfg n [] root level first (eraseEntries l) = dumpEntries cfg n [] root level first l
  | [], root, level, first => rfl
  | e :: es, root, level, first => by
    rw [eraseEntries, dumpEntries, dumpEntries, dumpEntry_erase e root level first, dumpEntries_erase es root level false]
theorem dumpEntry_erase {cfg : DumpCfg} {n : Nat} : ∀ (e : Node × Node) (root : Root) (level : Nat) (first : Bool),
    dumpEntry cfg n [] root level first (eraseEntry e) = dumpEntry cfg n [] root level first e
  | (k, v), root, level, first => by
    rw [eraseEntry, dumpEntry, dumpEntry, dumpNode_erase k _ _, Node.erase_yaml, Node.erase_yaml, valueLevel_erase,
      dumpNode_erase v _ _, isColl_erase, isColl_erase]
end

theorem dumpDocs_erase {cfg : DumpCfg} {n : Nat} : ∀ (ns : List Node) (i : Nat),
    dumpDocs cfg n [] i (ns.map Node.erase) = dumpDocs cfg n [] i ns
  | [], i => rfl
  | x :: xs, i => by
    rw [List.map_cons, dumpDocs, dumpDocs, dumperDump, dumperDump, List.getD_nil, dumpNode_erase x _ _, dumpDocs_erase xs (i + 1)]

/-- What is read back is dumped as the same text. -/
theorem dump_again {cfg : DumpCfg} {ns ns' : List Node}
    (h : ns'.map Node.noPos = ns.map Node.erase) (n : Nat) : dump cfg n ns' [] = dump cfg n ns [] := by
  have h2 : ns'.map Node.erase = ns.map Node.erase := by
    have := congrArg (List.map Node.erase) h
    simp only [List.map_map] at this
    rw [show (Node.erase ∘ Node.noPos) = Node.erase from funext fun x => Node.noPos_erase x,
      show (Node.erase ∘ Node.erase) = Node.erase from funext fun x => Node.erase_erase x] at this
    exact this
  show dumpDocs cfg n [] 0 ns' = dumpDocs cfg n [] 0 ns
  rw [← dumpDocs_erase ns' 0, h2, dumpDocs_erase ns 0]

end YamlPeg
