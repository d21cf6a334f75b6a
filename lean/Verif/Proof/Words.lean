import Verif.Proof.Leaves
/-! # More leaves: plain lines, and numbers that are not closed -/

namespace YamlPeg
open M

variable (k : Ctx) (L : Loader) (pre mid : Bytes)

/-- A text on which all three number parsers fail is left to `string_plain`. -/
theorem scalarAtom_read' {level : Nat} {flow : Bool} {T E : Bytes} {k' : Ctx} {tail : Bytes}
    (h0 : float (st k pre [] (T ++ E)) = (.err .mismatch, st k pre [] (T ++ E)))
    (h1 : sciFloat (st k pre [] (T ++ E)) = (.err .mismatch, st k pre [] (T ++ E)))
    (h2 : int (st k pre [] (T ++ E)) = (.err .mismatch, st k pre [] (T ++ E)))
    (h3 : atomHead (T ++ E) = true)
    (hE : PlainEnd k level flow T E k' tail) (hB : plainBody flow E false T = true)
    (hu : Utf8 T) (hne : T ≠ []) (htrim : trimEnd T = T) (n : Nat) (hn : T.length < n) :
    scalarAtom n level flow (ld L (st k pre [] (T ++ E))) =
      (.ok (some (resolvePlain T)), ld L (st k' pre T E)) := by
  rw [scalarAtom, bind_ok (try_err (lift_of h0))]
  simp only
  rw [bind_ok (try_err (lift_of h1))]
  simp only
  rw [bind_ok (try_err (lift_of h2))]
  simp only
  rw [bind_ok (try_err (lift_of (anchorUse_no _ _ _ (by intro r hr; rw [hr] at h3; simp [atomHead] at h3))))]
  simp only
  rw [bind_ok (try_err (lift_of (stringQuoted_no _ _ _ _ _ _ (by intro r hr; rw [hr] at h3; simp [atomHead] at h3))))]
  simp only
  rw [bind_ok (try_err (lift_of (stringQuoted_no _ _ _ _ _ _ (by intro r hr; rw [hr] at h3; simp [atomHead] at h3))))]
  simp only
  rw [bind_ok (try_ok (lift_of (stringPlain_read _ _ _ hE hB hu hne htrim n hn)))]
  simp

/-- What does not close an integer: the end of the input, and a comment. -/
def NumOpen (E : Bytes) : Prop := E = [] ∨ ∃ r, E = 0x20 :: 0x23 :: r

theorem int_open {sg d E : Bytes} (hsg : IsSign sg) (hd : IsDigits d) (hE : NumOpen E) :
    int (st k pre [] (sg ++ d ++ E)) = (.err .mismatch, st k pre [] (sg ++ d ++ E)) := by
  have hasc : ∀ x ∈ sg ++ d, x < 0x80 := by
    intro x hx; rcases List.mem_append.1 hx with h | h
    · exact hsg.ascii x h
    · exact hd.ascii x h
  have hnd : ∀ c r, E = c :: r → isDigit c = false := by
    rcases hE with rfl | ⟨r, rfl⟩
    · simp
    · rintro _ _ ⟨⟩; decide
  rw [List.append_assoc, int, bind_ok (numPrefix_read _ _ hsg hd E hnd), bind_ok (text_st ..),
    lossy_ascii _ hasc, bind_ok (int_tail _ _ _ _ _ ?_), bind_ok (ws_st ..)]
  · rcases hE with rfl | ⟨r, rfl⟩
    · rw [bind_err (by rw [bound_eq, if_neg]; simp [headIn])]
      simp
    · have : isBlank 0x20 = true ∧ isBlank 0x23 = false := by decide
      rw [bind_err (by rw [bound_eq, if_neg]; simp [List.dropWhile, this, headIn])]
      simp [List.takeWhile, List.dropWhile, this]
  · rcases hE with rfl | ⟨r, rfl⟩
    · simp
    · rintro _ _ ⟨⟩; decide

theorem plainBody_mem {inner : Bool} {E : Bytes} : ∀ {T : Bytes} {ne : Bool},
    (∀ c ∈ T, c ∉ b!"\n\r: []{},") → plainBody inner E ne T = true
  | [], _, _ => rfl
  | c :: s, ne, h => by
    have hc := h c (by simp)
    have ih := plainBody_mem (inner := inner) (E := E) (T := s) (ne := true) fun x hx => h x (by simp [hx])
    simp only [List.mem_cons, List.not_mem_nil, or_false, not_or] at hc
    rw [plainBody, ih]
    simp [hc]

theorem trimEnd_ascii {a : Bytes} {c : UInt8} (hc : c < 0x80) (hw : isWs1 c = false) :
    trimEnd (a ++ [c]) = a ++ [c] := by
  have h2 : ∀ x, isWs2 x c = false := by
    intro x
    simp only [isWs2]
    simp only [Bool.and_eq_false_iff]
    by_cases h : x = 0xC2
    · right
      have h1 : c ≠ 0x85 := by rintro rfl; revert hc; decide
      have h2 : c ≠ 0xA0 := by rintro rfl; revert hc; decide
      simp [h1, h2]
    · left; simp [h]
  have h3 : ∀ x y, isWs3 x y c = false := by
    intro x y
    have n1 : c ≠ 0x80 := by rintro rfl; revert hc; decide
    have hlt : ¬ (0x80 ≤ c) := by
      intro h; exact absurd hc (by simpa using h)
    cases hx : isWs3 x y c with
    | false => rfl
    | true =>
      exfalso
      simp only [isWs3, Bool.or_eq_true, Bool.and_eq_true, beq_iff_eq, decide_eq_true_eq] at hx
      have key : 0x80 ≤ c := by
        rcases hx with hx | hx
        all_goals grind
      exact hlt key
  simp only [trimEnd, List.reverse_append, List.reverse_cons, List.reverse_nil, List.nil_append,
    List.singleton_append]
  have : trimRev (c :: a.reverse) = c :: a.reverse := by
    unfold trimRev
    simp only [hw, Bool.false_eq_true, if_false]
    split
    · rename_i h; rw [h]
    · rename_i d r2 h
      simp only [h2, Bool.false_eq_true, if_false]
      split
      · rw [h]
      · simp only [h3, Bool.false_eq_true, if_false, h]
  rw [this]; simp

theorem isDigit_plainByte {x : UInt8} (h : isDigit x = true) : x ∉ b!"\n\r: []{}," ∧ isWs1 x = false ∧
    x ∉ b!"*'\"" := by
  have hx' : 0x30 ≤ x.toNat ∧ x.toNat ≤ 0x39 := by
    simpa [isDigit, UInt8.le_iff_toNat_le] using h
  refine ⟨?_, ?_, ?_⟩
  · intro hm; simp at hm
    rcases hm with rfl | rfl | rfl | rfl | rfl | rfl | rfl | rfl | rfl <;> simp at hx'
  · cases hw : isWs1 x with
    | false => rfl
    | true =>
      simp [isWs1, UInt8.le_iff_toNat_le] at hw
      rcases hw with hw | rfl
      · omega
      · simp at hx'
  · intro hm; simp at hm
    rcases hm with rfl | rfl | rfl <;> simp at hx'

theorem utf8_ascii : ∀ {s : Bytes}, (∀ x ∈ s, x < 0x80) → Utf8 s
  | [], _ => .nil
  | c :: s, h => by
    have hc := h c (by simp)
    refine .char c s 0 ?_ (by simpa using utf8_ascii fun x hx => h x (by simp [hx]))
    simp [utf8Step, hc]

theorem IsSign.cases {sg : Bytes} (h : IsSign sg) : sg = [] ∨ sg = [0x2D] := h

/-- The bytes of an unclosed number are a plain scalar. -/
theorem numText_plain {sg d f : Bytes} (hsg : IsSign sg) (hd : IsDigits d)
    (hf : f = [] ∨ ∃ f', f = 0x2E :: f' ∧ ∀ x ∈ f', isDigit x = true) :
    (∀ x ∈ sg ++ d ++ f, x < 0x80 ∧ x ∉ b!"\n\r: []{},") ∧ trimEnd (sg ++ d ++ f) = sg ++ d ++ f ∧
    resolvePlain (sg ++ d ++ f) = .str (sg ++ d ++ f) ∧
    (∀ E, atomHead (sg ++ d ++ f ++ E) = true) := by
  have hall : ∀ x ∈ sg ++ d ++ f, x = 0x2D ∨ x = 0x2E ∨ isDigit x = true := by
    intro x hx
    simp only [List.mem_append] at hx
    rcases hx with (h | h) | h
    · rcases hsg with rfl | rfl
      · simp at h
      · simp at h; exact .inl h
    · exact .inr (.inr (hd.2 x h))
    · rcases hf with rfl | ⟨f', rfl, hf⟩
      · simp at h
      · simp only [List.mem_cons] at h
        rcases h with rfl | h
        · exact .inr (.inl rfl)
        · exact .inr (.inr (hf x h))
  obtain ⟨x, d', hxd⟩ := List.exists_cons_of_ne_nil hd.1
  have hx := hd.2 x (by simp [hxd])
  have good : ∀ x ∈ sg ++ d ++ f, x < 0x80 ∧ x ∉ b!"\n\r: []{}," ∧ isWs1 x = false ∧ x ∉ b!"*'\"" := by
    intro y hy
    rcases hall y hy with rfl | rfl | h
    · decide
    · decide
    · exact ⟨isDigit_ascii h, isDigit_plainByte h⟩
  refine ⟨fun y hy => ⟨(good y hy).1, (good y hy).2.1⟩, ?_, ?_, ?_⟩
  · have hne : sg ++ d ++ f ≠ [] := by simp [hd.1]
    rcases List.eq_nil_or_concat (sg ++ d ++ f) with h | ⟨a, c, h⟩
    · exact absurd h hne
    · rw [h]
      rw [List.concat_eq_append] at h
      have := good c (by rw [h]; simp)
      simpa using trimEnd_ascii (a := a) this.1 this.2.2.1
  · have hmem : x ∈ sg ++ d ++ f := by simp [hxd]
    simp only [resolvePlain]
    have ne : ∀ k : Bytes, (∀ c ∈ k, isDigit c = false) → (sg ++ d ++ f == k) = false := by
      intro k hk
      simp only [beq_eq_false_iff_ne]
      intro he
      have := hk x (by rw [← he]; exact hmem)
      rw [hx] at this; simp at this
    simp only [ne b!"~" (by decide), ne b!"null" (by decide), ne b!"Null" (by decide), ne b!"NULL" (by decide),
      ne b!"true" (by decide), ne b!"True" (by decide), ne b!"TRUE" (by decide),
      ne b!"false" (by decide), ne b!"False" (by decide), ne b!"FALSE" (by decide),
      ne b!".nan" (by decide), ne b!".NaN" (by decide), ne b!".NAN" (by decide),
      ne b!".inf" (by decide), ne b!".Inf" (by decide), ne b!".INF" (by decide),
      ne b!"-.inf" (by decide), ne b!"-.Inf" (by decide), ne b!"-.INF" (by decide)]
    rfl
  · intro E
    have hne : sg ++ d ++ f ≠ [] := by simp [hd.1]
    obtain ⟨c, r, hc⟩ := List.exists_cons_of_ne_nil hne
    have := (good c (by rw [hc]; simp)).2.2.2
    rw [hc]
    simp only [List.cons_append, atomHead]
    simp at this ⊢
    exact ⟨⟨this.1, this.2.1⟩, this.2.2⟩

/-- An integer at the end of the input or in front of a comment is a string. -/
theorem intOpen_leaf {sg d : Bytes} (hsg : IsSign sg) (hd : IsDigits d) :
    LeafOK (.only NumOpen) (sg ++ d) (fun _ => .str (sg ++ d)) := by
  obtain ⟨h1, h2, h3, h4⟩ := numText_plain (f := []) hsg hd (.inl rfl)
  simp only [List.append_nil] at h1 h2 h3 h4
  refine ⟨fun k level E hw hE => ?_, by simpa using digits_leafText hsg hd []⟩
  have hP : NumOpen E ∧ stopB E = true := by
    rcases hE with ⟨h, _⟩ | ⟨h, hn, _⟩ | ⟨h, _⟩ | ⟨P, h, h'⟩
    · exact absurd rfl (h _)
    · rcases h _ rfl with rfl | ⟨r, rfl⟩ <;> exact absurd rfl hn
    · simp at h
    · cases h; exact h'
  have hnd : ∀ c r, E = c :: r → isDigit c = false ∧ c ≠ 0x2E ∧ c ∉ b!"eE" := by
    rcases hP.1 with rfl | ⟨r, rfl⟩
    · simp
    · rintro _ _ ⟨⟩; decide
  refine ⟨k, rfl, (sg ++ d).length + 1, fun a n e ha hn he L pre => ?_⟩
  obtain ⟨e, rfl⟩ : ∃ i, e = i + 1 := ⟨e - 1, by omega⟩
  refine ⟨pre, _, rfl, scalarTerm_atom _ ?_⟩
  rw [scalarAtom_read' (T := sg ++ d) (E := E) (k' := k) (tail := []) k L pre
    (float_no_point _ _ hsg hd fun c r h => ⟨(hnd c r h).1, (hnd c r h).2.1⟩)
    (sciFloat_no_e _ _ hsg hd fun c r h => ⟨(hnd c r h).1, (hnd c r h).2.2⟩)
    (int_open _ _ hsg hd hP.1) (h4 E) (.stop hP.2)
    (plainBody_mem fun c hc => (h1 c hc).2) (utf8_ascii fun x hx => (h1 x hx).1)
    (by simp [hd.1]) h2 n (by omega), h3]

theorem float_open {sg d f : Bytes} (hsg : IsSign sg) (hd : IsDigits d) (hf : ∀ x ∈ f, isDigit x = true) :
    float (st k pre [] (sg ++ d ++ 0x2E :: f)) = (.err .mismatch, st k pre [] (sg ++ d ++ 0x2E :: f)) := by
  have t := takeWhile_all hf [] (by simp)
  rw [List.append_nil] at t
  rw [List.append_assoc, float, bind_ok (numPrefix_read _ _ hsg hd (0x2E :: f) (by rintro _ _ ⟨⟩; decide)),
    bind_ok (sym_hit ..), bind_ok (by rw [takeWhile_more0, t.1, t.2]), bind_ok (text_st ..), bind_err (e := .mismatch)
      (s' := st k pre [] (sg ++ (d ++ 0x2E :: f)))]
  rw [floatTail_eq]
  simp only [List.takeWhile_nil, List.dropWhile_nil, List.getLast?_nil, List.dropLast_nil, List.append_nil]
  rw [bound_eq, if_neg]
  · simp
  · simp [headIn]

theorem int_point {sg d r : Bytes} (hsg : IsSign sg) (hd : IsDigits d) :
    int (st k pre [] (sg ++ d ++ 0x2E :: r)) = (.err .mismatch, st k pre [] (sg ++ d ++ 0x2E :: r)) := by
  have hasc : ∀ x ∈ sg ++ d, x < 0x80 := by
    intro x hx; rcases List.mem_append.1 hx with h | h
    · exact hsg.ascii x h
    · exact hd.ascii x h
  have hb : isBlank 0x2E = false := by decide
  rw [List.append_assoc, int, bind_ok (numPrefix_read _ _ hsg hd _ (by rintro _ _ ⟨⟩; decide)), bind_ok (text_st ..),
    lossy_ascii _ hasc, bind_ok (int_tail _ _ _ _ _ (by rintro _ _ ⟨⟩; decide)), bind_ok (ws_st ..)]
  rw [bind_err (by rw [bound_eq, if_neg]; simp [List.dropWhile, hb, headIn])]
  simp [List.takeWhile, List.dropWhile, hb]

/-- A decimal fraction at the end of the input is a string. -/
theorem floatOpen_leaf {sg d f : Bytes} (hsg : IsSign sg) (hd : IsDigits d) (hf : ∀ x ∈ f, isDigit x = true) :
    LeafOK (.only (· = [])) (sg ++ d ++ 0x2E :: f) (fun _ => .str (sg ++ d ++ 0x2E :: f)) := by
  obtain ⟨h1, h2, h3, h4⟩ := numText_plain (f := 0x2E :: f) hsg hd (.inr ⟨f, rfl, hf⟩)
  refine ⟨fun k level E hw hE => ?_, digits_leafText hsg hd _⟩
  have hP : E = [] := by
    rcases hE with ⟨h, _⟩ | ⟨h, _⟩ | ⟨h, _⟩ | ⟨P, h, h'⟩
    · exact absurd rfl (h _)
    · exact h _ rfl
    · simp at h
    · cases h; exact h'.1
  subst hP
  refine ⟨k, rfl, (sg ++ d ++ 0x2E :: f).length + 1, fun a n e ha hn he L pre => ?_⟩
  obtain ⟨e, rfl⟩ : ∃ i, e = i + 1 := ⟨e - 1, by omega⟩
  refine ⟨pre, _, rfl, scalarTerm_atom _ ?_⟩
  rw [scalarAtom_read' (T := sg ++ d ++ 0x2E :: f) (E := []) (k' := k) (tail := []) k L pre
    (by rw [List.append_nil]; exact float_open _ _ hsg hd hf)
    (by rw [List.append_nil]; exact sciFloat_no_e _ _ hsg hd (by rintro _ _ ⟨⟩; decide))
    (by rw [List.append_nil]; exact int_point _ _ hsg hd) (h4 []) (.stop rfl)
    (plainBody_mem fun c hc => (h1 c hc).2) (utf8_ascii fun x hx => (h1 x hx).1)
    (by simp) h2 n (by omega), h3]

/-! ## Plain lines -/

/-- A letter. -/
def isLetter (c : UInt8) : Bool := (0x41 ≤ c && c ≤ 0x5A) || (0x61 ≤ c && c ≤ 0x7A)

/-- A byte a plain scalar can start with: no control character, blank, digit or
indicator, nor `-` or `.` (the first byte of a non-ASCII character is fine). -/
def isPlainFirst (c : UInt8) : Bool :=
  0x20 < c && c != 0x7F && !isDigit c && !(b!"#&!|>-?*'\"[]{}.%,:@`").contains c

/-- A line of text: it starts with a letter or the like, does not end in white space or a
colon, and holds neither `: ` nor ` #` nor a line break. -/
structure PlainLine (T : Bytes) : Prop where
  utf8 : Utf8 T
  first : ∃ c r, T = c :: r ∧ isPlainFirst c = true
  last : endsWithWs T = false ∧ T.getLast? ≠ some 0x3A
  noBreak : ∀ c ∈ T, c ≠ 0x0A ∧ c ≠ 0x0D
  noColon : ¬ b!": " <:+: T
  noComment : ¬ b!" #" <:+: T

theorem trimEnd_of_endsWithWs {T : Bytes} (h : endsWithWs T = false) : trimEnd T = T := by
  simp only [trimEnd]
  have : trimRev T.reverse = T.reverse := by
    revert h
    simp only [endsWithWs]
    generalize T.reverse = R
    intro h
    match R, h with
    | [], _ => simp [trimRev]
    | [c], h => simp at h; simp [trimRev, h]
    | [c, d], h => simp at h; simp [trimRev, h]
    | c :: d :: a :: r, h => simp at h; simp [trimRev, h]
  rw [this]; simp

theorem plainBody_line : ∀ {T : Bytes}, (∀ c ∈ T, c ≠ 0x0A ∧ c ≠ 0x0D) → ¬ b!": " <:+: T → ¬ b!" #" <:+: T →
    T.getLast? ≠ some 0x3A → plainBody false [] true T = true
  | [], _, _, _, _ => rfl
  | c :: s, h1, h2, h3, h4 => by
    have hc := h1 c (by simp)
    have ih := plainBody_line (T := s) (fun x hx => h1 x (by simp [hx]))
      (fun h => h2 (h.trans (List.infix_cons_iff.2 (.inr (List.infix_refl s)))))
      (fun h => h3 (h.trans (List.infix_cons_iff.2 (.inr (List.infix_refl s)))))
      (by cases s with
          | nil => simp
          | cons x s => simpa [List.getLast?_cons_cons] using h4)
    rw [plainBody, ih]
    have e1 : (c == 0x3A && colonStop (s ++ [])) = false := by
      rw [Bool.and_eq_false_iff]
      by_cases hcc : c = 0x3A
      · subst hcc
        right
        cases s with
        | nil => simp at h4
        | cons x s =>
          simp only [List.cons_append, colonStop]
          have hx := h1 x (by simp)
          have : x ≠ 0x20 := by
            rintro rfl
            exact h2 ⟨[], s, rfl⟩
          simp [this, hx]
      · left; simp [hcc]
    have e2 : (c == 0x20 && (s ++ []).head? == some 0x23) = false := by
      rw [Bool.and_eq_false_iff]
      by_cases hcc : c = 0x20
      · subst hcc
        right
        cases s with
        | nil => rfl
        | cons x s =>
          have : x ≠ 0x23 := by
            rintro rfl
            exact h3 ⟨[], s, rfl⟩
          simp [this]
      · left; simp [hcc]
    simp only [e1, e2]
    simp [hc]

theorem isLetter_first {c : UInt8} (h : isLetter c = true) : isPlainFirst c = true := by
  have := byte_forall (P := fun c => !isLetter c || isPlainFirst c) (by decide +kernel) c
  simpa only [h, Bool.not_true, Bool.false_or] using this

theorem isPlainFirst_facts {c : UInt8} (h : isPlainFirst c = true) :
    tokHead c = true ∧ c ∉ b!"&!|>" ∧ c ≠ 0x2D ∧ c ≠ 0x3F ∧ c ∉ b!"*'\"" ∧ isDigit c = false ∧ c ∉ b!"[]{}" := by
  have := byte_forall (P := fun c => !isPlainFirst c || decide (tokHead c = true ∧ c ∉ b!"&!|>" ∧ c ≠ 0x2D ∧ c ≠ 0x3F ∧
    c ∉ b!"*'\"" ∧ isDigit c = false ∧ c ∉ b!"[]{}")) (by decide +kernel) c
  simp only [h, Bool.not_true, Bool.false_or, decide_eq_true_eq] at this
  exact this

theorem PlainLine.plain {T : Bytes} (h : PlainLine T) : PlainText T := by
  obtain ⟨hu, ⟨c, r, rfl, hc⟩, ⟨hl1, hl2⟩, hb, hcol, hcm⟩ := h
  obtain ⟨f1, f2, f3, f4, f5, f6, f7⟩ := isPlainFirst_facts hc
  refine ⟨hu, ⟨c, r, rfl, f1, f2, ?_⟩, ?_, ?_, hl2, trimEnd_of_endsWithWs hl1, .inl ⟨c, r, ?_, f6⟩⟩
  · rintro (h | h)
    · exact absurd h f3
    · exact absurd h f4
  · intro r'
    simp at f5
    refine ⟨?_, ?_, ?_⟩ <;> (intro h; simp at h; simp [h] at f5)
  · have := plainBody_line hb hcol hcm hl2
    rw [plainBody] at this ⊢
    simp only [Bool.and_eq_true] at this ⊢
    refine ⟨⟨⟨⟨⟨⟨this.1.1.1.1.1.1, this.1.1.1.1.1.2⟩, this.1.1.1.1.2⟩, this.1.1.1.2⟩, ?_⟩, this.1.2⟩, this.2⟩
    simp at f7 ⊢
    simp [f7]
  · unfold unsigned
    split
    · rename_i heq; simp at heq; exact absurd heq.1 f3
    · rfl

end YamlPeg
