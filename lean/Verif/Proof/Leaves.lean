import Verif.Proof.Stream
import Verif.Proof.Quoted
/-! # Kinds of leaves: plain scalars, numbers, quoted strings -/

namespace YamlPeg
open M

variable (k : Ctx) (L : Loader) (pre mid post : Bytes)

theorem LeafEnd.loosen {k : Ctx} {level : Nat} {E : Bytes} (h : LeafEnd .strict k level E) :
    LeafEnd .loose k level E := by
  rcases h with h | h | h | ⟨P, h, _⟩
  · exact .inl ⟨by simp, h.2⟩
  · exact .inr (.inl ⟨by simp, h.2⟩)
  · simp at h
  · simp at h

theorem LeafOK.strict {T : Bytes} {y : Nat → Yaml} (h : LeafOK .loose T y) : LeafOK .strict T y :=
  ⟨fun k level E hw hE => h.1 k level E hw hE.loosen, h.2⟩

theorem at_of_or {k k' : Ctx} {level : Nat} (h : k' = k ∨ k' = k.at level) : k'.at level = k.at level := by
  rcases h with rfl | rfl
  · rfl
  · simp

/-- The end of a leaf, in terms of `string_plain`. -/
theorem LeafEnd.plain {κ : EndKind} {k : Ctx} {level : Nat} {E : Bytes} (h : LeafEnd κ k level E) (T : Bytes) :
    ∃ k' tail, (k' = k ∨ k' = k.at level) ∧ PlainEnd k level false T E k' tail := by
  rcases h with ⟨_, r, rfl, hr⟩ | ⟨_, hn, t, taken, left, hg, hw, hp⟩ | ⟨_, hs⟩ | ⟨P, _, _, hs⟩
  · exact ⟨k, [], .inl rfl, .stop hr⟩
  · exact ⟨_, _, .inr rfl, .line hn hg hw hp⟩
  · exact ⟨k, [], .inl rfl, .stop hs⟩
  · exact ⟨k, [], .inl rfl, .stop hs⟩

/-- A strict end closes numbers. -/
theorem LeafEnd.num {k : Ctx} {level : Nat} {E : Bytes} (h : LeafEnd .strict k level E) : NumEnd E := by
  rcases h with ⟨_, r, rfl, hr⟩ | ⟨_, hn, _⟩ | h | ⟨P, h, _⟩
  · exact ⟨_, r, rfl, by decide⟩
  · rw [Ne, nlLen_zero_iff] at hn
    cases E with
    | nil => simp at hn
    | cons c r =>
      refine ⟨c, r, rfl, ?_⟩
      by_cases h1 : c = 0x0A
      · subst h1; decide
      · by_cases h2 : c = 0x0D
        · subst h2; decide
        · exfalso; apply hn; rintro _ _ ⟨⟩; exact ⟨h1, h2⟩
  · simp at h
  · simp at h

/-- `scalar_term` on a scalar. -/
theorem scalarTerm_atom {n d level : Nat} {flow : Bool} {y : Yaml} {l l' : Loader} (sc : ScalarCall)
    (h : scalarAtom n level flow l = (.ok (some y), l')) :
    scalarTerm sc n (d + 1) level flow l = (.ok y, l') := by
  rw [scalarTerm, scalarTermWith, bind_ok h]
  rfl

/-! ## Plain scalars -/

/-- A plain scalar on one line that stands for itself wherever a block node may
stand. -/
structure PlainText (T : Bytes) : Prop where
  utf8 : Utf8 T
  first : LeafText T
  quote : ∀ r, T ≠ 0x2A :: r ∧ T ≠ 0x27 :: r ∧ T ≠ 0x22 :: r
  body : plainBody false [] false T = true
  noColon : T.getLast? ≠ some 0x3A
  trim : trimEnd T = T
  notNum : (∃ c r, unsigned T = c :: r ∧ isDigit c = false) ∨
    ∃ c r, (unsigned T).dropWhile isDigit = c :: r ∧ c ∉ b!".eEox:{}[], \n\r" ∧ isBlank c = false

theorem unsigned_append {T : Bytes} (hne : T ≠ []) (E : Bytes) : unsigned (T ++ E) = unsigned T ++ E := by
  cases T with
  | nil => exact absurd rfl hne
  | cons c r =>
    by_cases h : c = 0x2D
    · subst h; rfl
    · unfold unsigned
      split
      · rename_i heq; simp at heq; exact absurd heq.1 h
      · split
        · rename_i heq; simp at heq; exact absurd heq.1 h
        · rfl

theorem dropWhile_append_cons {f : UInt8 → Bool} {T : Bytes} {c : UInt8} {r : Bytes}
    (h : T.dropWhile f = c :: r) (E : Bytes) : (T ++ E).dropWhile f = c :: (r ++ E) := by
  induction T with
  | nil => simp at h
  | cons x T ih =>
    simp only [List.dropWhile, List.cons_append] at h ⊢
    split at h
    · exact ih h
    · simp at h; rw [h.1, h.2]

theorem PlainText.ne {T : Bytes} (h : PlainText T) : T ≠ [] := by
  obtain ⟨c, r, hT, _⟩ := h.first
  rw [hT]; simp

theorem PlainText.notNum_append {T : Bytes} (h : PlainText T) (E : Bytes) : NotNum (T ++ E) := by
  rw [NotNum, unsigned_append h.ne]
  rcases h.notNum with ⟨c, r, h1, h2⟩ | ⟨c, r, h1, h2, h3⟩
  · left; rw [h1]; simp [List.takeWhile, h2]
  · right; exact ⟨c, r ++ E, dropWhile_append_cons h1 E, h2, h3⟩

theorem PlainText.atomHead {T : Bytes} (h : PlainText T) (E : Bytes) : atomHead (T ++ E) = true := by
  obtain ⟨c, r, rfl, _⟩ := h.first
  have := h.quote r
  simp only [List.cons_append, YamlPeg.atomHead]
  simp at this ⊢
  exact ⟨⟨this.1, this.2.1⟩, this.2.2⟩

theorem colonStop_append {s E : Bytes} (hne : s ≠ []) : colonStop (s ++ E) = colonStop s := by
  cases s with
  | nil => exact absurd rfl hne
  | cons c r => rfl

/-- Nothing behind a trimmed text that does not end in a colon changes how its
bytes are read. -/
theorem plainBody_append {inner : Bool} {E : Bytes} : ∀ {T : Bytes} {ne : Bool}, plainBody inner [] ne T = true →
    T.getLast? ≠ some 0x3A → T.getLast? ≠ some 0x20 → plainBody inner E ne T = true
  | [], _, _, _, _ => rfl
  | [c], ne, h, h1, h2 => by
    simp only [plainBody, List.nil_append] at h ⊢
    simp at h1 h2
    simp [h1, h2] at h ⊢
    exact h
  | c :: d :: s, ne, h, h1, h2 => by
    have e1 : colonStop (d :: s ++ E) = colonStop (d :: s ++ []) := rfl
    have e2 : (d :: s ++ E).head? = (d :: s ++ []).head? := rfl
    rw [plainBody] at h ⊢
    rw [e1, e2]
    simp only [Bool.and_eq_true] at h ⊢
    exact ⟨h.1, plainBody_append h.2 (by simpa using h1) (by simpa using h2)⟩

theorem trimEnd_last {T : Bytes} (h : trimEnd T = T) : T.getLast? ≠ some 0x20 := by
  intro hl
  have e : T = T.dropLast ++ [0x20] := by
    rcases List.eq_nil_or_concat T with rfl | ⟨a, b, rfl⟩
    · simp at hl
    · simp at hl; subst hl; simp
  have h2 : trimEnd T = trimEnd T.dropLast := by
    conv => lhs; rw [e]
    exact trimEnd_ws (by simp; decide)
  have hlen : ∀ s : Bytes, (trimRev s).length ≤ s.length := by
    intro s
    fun_induction trimRev s <;> simp only [List.length_cons, List.length_nil] <;> omega
  have := hlen T.dropLast.reverse
  have h3 : (trimEnd T).length ≤ T.dropLast.length := by
    rw [h2, trimEnd]; simpa using this
  rw [h] at h3
  have : T ≠ [] := by rintro rfl; simp at hl
  have : 0 < T.length := List.length_pos_iff.2 this
  simp at h3
  omega

theorem plain_leaf {T : Bytes} (h : PlainText T) : LeafOK .loose T (fun _ => resolvePlain T) := by
  refine ⟨fun k level E hw hE => ?_, h.first⟩
  obtain ⟨k', tail, hk', hp⟩ := hE.plain T
  refine ⟨k', at_of_or hk', T.length + 1, fun a n d ha hn hd L pre => ?_⟩
  obtain ⟨d, rfl⟩ : ∃ i, d = i + 1 := ⟨d - 1, by omega⟩
  refine ⟨pre, T, rfl, ?_⟩
  apply scalarTerm_atom
  exact scalarAtom_read _ _ _ (h.notNum_append E) (h.atomHead E) hp
    (plainBody_append h.body h.noColon (trimEnd_last h.trim)) h.utf8 h.ne h.trim n (by omega)

/-! ## Numbers -/

theorem digits_leafText {sg d : Bytes} (hsg : IsSign sg) (hd : IsDigits d) (r : Bytes) : LeafText (sg ++ d ++ r) := by
  obtain ⟨x, d', rfl⟩ := List.exists_cons_of_ne_nil hd.1
  have hx := hd.2 x (by simp)
  have hx' : 0x30 ≤ x ∧ x ≤ 0x39 := by simpa [isDigit] using hx
  have h1 : tokHead x = true ∧ x ∉ b!"&!|>" ∧ x ≠ 0x2D ∧ x ≠ 0x3F ∧ x ∉ b!":{}[] ,\n\r" := by
    refine ⟨?_, ?_, ?_, ?_, ?_⟩
    · simp only [tokHead, isAsciiWs, Bool.and_eq_true, Bool.not_eq_true', Bool.or_eq_false_iff, beq_eq_false_iff_ne,
        bne_iff_ne]
      refine ⟨⟨⟨⟨⟨?_, ?_⟩, ?_⟩, ?_⟩, ?_⟩, ?_⟩ <;> (rintro rfl; revert hx; decide)
    · intro h; simp at h; rcases h with rfl | rfl | rfl | rfl <;> (revert hx; decide)
    · rintro rfl; revert hx; decide
    · rintro rfl; revert hx; decide
    · intro h; simp at h
      rcases h with rfl | rfl | rfl | rfl | rfl | rfl | rfl | rfl | rfl <;> (revert hx; decide)
  rcases hsg with rfl | rfl
  · refine ⟨x, d' ++ r, by simp, h1.1, h1.2.1, ?_⟩
    rintro (h | h)
    · exact absurd h h1.2.2.1
    · exact absurd h h1.2.2.2.1
  · refine ⟨0x2D, x :: d' ++ r, by simp, by decide, by decide, ?_⟩
    rintro _
    exact ⟨x, d' ++ r, rfl, h1.2.2.2.2⟩

theorem int_leaf {sg d : Bytes} (hsg : IsSign sg) (hd : IsDigits d) :
    LeafOK .strict (sg ++ d) (fun _ => .int (sg ++ d)) := by
  refine ⟨fun k level E hw hE => ?_, by simpa using digits_leafText hsg hd []⟩
  refine ⟨k, rfl, 1, fun a n e ha hn he L pre => ?_⟩
  obtain ⟨e, rfl⟩ : ∃ i, e = i + 1 := ⟨e - 1, by omega⟩
  exact ⟨pre, _, rfl, scalarTerm_atom _ (scalarAtom_int _ _ _ hsg hd hE.num n level false)⟩

theorem radix_leaf {r radix : UInt8} (hr : (r = 0x78 ∧ radix = 16) ∨ (r = 0x6F ∧ radix = 8))
    {d : Bytes} (hne : d ≠ []) (hd : ∀ x ∈ d, asciiDigit radix x = true) :
    LeafOK .strict (0x30 :: r :: d) (fun _ => .int (0x30 :: r :: d)) := by
  refine ⟨fun k level E hw hE => ?_, ?_⟩
  · refine ⟨k, rfl, 1, fun a n e ha hn he L pre => ?_⟩
    obtain ⟨e, rfl⟩ : ∃ i, e = i + 1 := ⟨e - 1, by omega⟩
    exact ⟨pre, _, rfl, scalarTerm_atom _ (scalarAtom_radix _ _ _ hr hne hd hE.num n level false)⟩
  · exact digits_leafText (sg := []) (d := [0x30]) (.inl rfl) ⟨by simp, by simp; decide⟩ (r :: d)

theorem float_leaf {sg d f : Bytes} (hsg : IsSign sg) (hd : IsDigits d) (hf : ∀ x ∈ f, isDigit x = true) :
    LeafOK .strict (sg ++ d ++ 0x2E :: f)
      (fun _ => .float (trimEndMatches (sg ++ d ++ 0x2E :: f) b!".0")) := by
  refine ⟨fun k level E hw hE => ?_, digits_leafText hsg hd _⟩
  refine ⟨k, rfl, 1, fun a n e ha hn he L pre => ?_⟩
  obtain ⟨e, rfl⟩ : ∃ i, e = i + 1 := ⟨e - 1, by omega⟩
  exact ⟨pre, _, rfl, scalarTerm_atom _ (scalarAtom_float _ _ _ hsg hd hf hE.num n level false)⟩

theorem sci_leaf {sg d es ed : Bytes} {e : UInt8} (hsg : IsSign sg) (hd : IsDigits d)
    (he : e = 0x65 ∨ e = 0x45) (hes : es = [] ∨ es = [0x2B] ∨ es = [0x2D]) (hed : IsDigits ed) :
    LeafOK .strict (sg ++ d ++ e :: es ++ ed) (fun _ => .float (sg ++ d ++ e :: es ++ ed)) := by
  refine ⟨fun k level E hw hE => ?_, by have := digits_leafText hsg hd (e :: es ++ ed); simpa using this⟩
  refine ⟨k, rfl, 1, fun a n i ha hn hi L pre => ?_⟩
  obtain ⟨i, rfl⟩ : ∃ j, i = j + 1 := ⟨i - 1, by omega⟩
  exact ⟨pre, _, rfl, scalarTerm_atom _ (scalarAtom_sci _ _ _ hsg hd he hes hed hE.num n level false)⟩

/-! ## Quoted strings -/

theorem LeafEnd.head {κ : EndKind} {k : Ctx} {level : Nat} {E : Bytes} (h : LeafEnd κ k level E) :
    ∀ c r, E = c :: r → c = 0x3A ∨ c = 0x0A ∨ c = 0x0D ∨ c = 0x20 := by
  rintro c r rfl
  have stop : stopB (c :: r) = true → c = 0x3A ∨ c = 0x0A ∨ c = 0x0D ∨ c = 0x20 := by
    intro hs
    unfold stopB at hs
    split at hs
    · simp_all
    · simp_all
    · simp_all
    · simp at hs
  rcases h with ⟨_, r', he, _⟩ | ⟨_, hn, _⟩ | ⟨_, hs⟩ | ⟨P, _, _, hs⟩
  · simp at he; exact .inl he.1
  · rw [Ne, nlLen_zero_iff] at hn
    by_cases h1 : c = 0x0A
    · exact .inr (.inl h1)
    · by_cases h2 : c = 0x0D
      · exact .inr (.inr (.inl h2))
      · exfalso; apply hn; rintro _ _ ⟨⟩; exact ⟨h1, h2⟩
  · exact stop hs
  · exact stop hs

/-- The bytes of a single-quoted string. -/
def sqTok (c : UInt8) : QTok := if c = 0x27 then .quote else if c = 0x5C then .bs else .byte c

/-- The text of a single-quoted string: quotes doubled, between quotes. -/
def singleQuoted (s : Bytes) : Bytes := 0x27 :: (s.flatMap (fun c => if c = 0x27 then [0x27, 0x27] else [c]) ++ [0x27])

theorem sqTok_text (s : Bytes) :
    qText b!"''" (s.map sqTok) = s.flatMap (fun c => if c = 0x27 then [0x27, 0x27] else [c]) := by
  induction s with
  | nil => rfl
  | cons c s ih =>
    simp only [qText, List.map_cons, List.flatMap_cons] at ih ⊢
    rw [ih]
    congr 1
    simp only [sqTok]
    split
    · rfl
    · split
      · rename_i h; subst h; rfl
      · rfl

theorem sqTok_val (s : Bytes) : qVal 0x27 (s.map sqTok) = s := by
  induction s with
  | nil => rfl
  | cons c s ih =>
    simp only [qVal, List.map_cons, List.flatMap_cons] at ih ⊢
    rw [ih]
    simp only [sqTok]
    split
    · rename_i h; subst h; rfl
    · split
      · rename_i h; subst h; rfl
      · rfl

theorem mem_takeWhile {f : UInt8 → Bool} {x : UInt8} {s : Bytes} (h : x ∈ s.takeWhile f) : f x = true := by
  induction s with
  | nil => simp at h
  | cons c s ih =>
    simp only [List.takeWhile] at h
    split at h
    · rename_i hc
      simp only [List.mem_cons] at h
      rcases h with rfl | h
      · exact hc
      · exact ih h
    · simp at h

/-- Replacing ASCII bytes by ASCII text keeps the text valid. -/
theorem utf8_flatMap {g : UInt8 → Bytes} (hhi : ∀ c, ¬ c < 0x80 → g c = [c])
    (hlo : ∀ c, c < 0x80 → ∀ x ∈ g c, x < 0x80) {s : Bytes} (h : Utf8 s) : Utf8 (s.flatMap g) := by
  have main : ∀ (m : Nat) (s : Bytes), s.length ≤ m → Utf8 s → Utf8 (s.flatMap g) := by
    intro m
    induction m with
    | zero => intro s hs _; have : s = [] := by simpa using hs
              subst this; exact .nil
    | succ m ih =>
      intro s hs hu
      obtain ⟨a, t, e, hd⟩ : ∃ a t, s = a ++ t ∧ (∀ x ∈ a, ¬ x < 0x80) ∧ (t = [] ∨ ∃ c r, t = c :: r ∧ c < 0x80) := by
        refine ⟨s.takeWhile (fun x => !decide (x < 0x80)), s.dropWhile (fun x => !decide (x < 0x80)),
          (List.takeWhile_append_dropWhile).symm, ?_, ?_⟩
        · intro x hx; have := mem_takeWhile hx; simpa using this
        · cases hd : s.dropWhile (fun x => !decide (x < 0x80)) with
          | nil => exact .inl rfl
          | cons c r =>
            right
            have := List.head?_dropWhile_not (p := fun x : UInt8 => !decide (x < 0x80)) s
            rw [hd] at this; simp at this
            exact ⟨c, r, rfl, this⟩
      have hid : ∀ a : Bytes, (∀ x ∈ a, ¬ x < 0x80) → a.flatMap g = a := by
        intro a ha
        induction a with
        | nil => rfl
        | cons x a ih2 =>
          rw [List.flatMap_cons, hhi x (ha x (by simp)), ih2 fun y hy => ha y (by simp [hy])]; rfl
      subst e
      rcases hd.2 with rfl | ⟨c, r, rfl, hc⟩
      · rw [List.append_nil, hid a hd.1]; simpa using hu
      · have hcut := (Utf8.cut hc (a := a) (b := r)).1 hu
        have hr := ih r (by simp at hs; omega) hcut.2
        rw [List.flatMap_append, hid a hd.1, List.flatMap_cons]
        exact Utf8.append hcut.1 (Utf8.append (Utf8.ascii (hlo c hc)) hr)
  exact main _ s (Nat.le_refl _) h

theorem utf8_double {s : Bytes} (h : Utf8 s) :
    Utf8 (s.flatMap (fun c => if c = 0x27 then [0x27, 0x27] else [c])) := by
  apply utf8_flatMap _ _ h
  · intro c hc
    have : c ≠ 0x27 := by rintro rfl; exact hc (by decide)
    simp [this]
  · intro c hc x hx
    split at hx
    · simp at hx; subst hx; decide
    · simp at hx; subst hx; exact hc

theorem sqTok_ok {E s : Bytes} (hE : ∀ r, E ≠ 0x27 :: r) (hs : ∀ c ∈ s, c ≠ 0x0A ∧ c ≠ 0x0D) :
    qOK 0x27 b!"''" E (s.map sqTok) := by
  induction s with
  | nil =>
    show (b!"''").isPrefixOf (0x27 :: E) = false
    cases E with
    | nil => rfl
    | cons c r =>
      have : c ≠ 0x27 := by rintro rfl; exact hE r rfl
      simp [List.isPrefixOf, Ne.symm this]
  | cons c s ih =>
    have ih' := ih fun x hx => hs x (by simp [hx])
    have hc := hs c (by simp)
    simp only [List.map_cons, sqTok]
    split
    · exact ih'
    · split
      · exact ⟨by simp [List.isPrefixOf], ih'⟩
      · rename_i h1 h2
        exact ⟨by simp [hc.1, hc.2, h1, h2], ih'⟩

theorem scalarAtom_single {E s : Bytes} (hE : ∀ r, E ≠ 0x27 :: r) (hu : Utf8 s)
    (hs : ∀ c ∈ s, c ≠ 0x0A ∧ c ≠ 0x0D) {n : Nat} (hn : s.length < n) (level : Nat) (flow : Bool) :
    scalarAtom n level flow (ld L (st k pre [] (singleQuoted s ++ E))) =
      (.ok (some (.str s)), ld L (st k pre (singleQuoted s) E)) := by
  have hq : stringQuoted n 0x27 b!"''" (st k pre [] (singleQuoted s ++ E)) =
      (.ok s, st k pre (singleQuoted s) E) := by
    have := stringQuoted_read k pre [] (q := 0x27) (ig := b!"''") (E := E) (.inl ⟨rfl, rfl⟩)
      (ts := s.map sqTok) (by rw [sqTok_text]; exact utf8_double hu) (sqTok_ok hE hs) (n := n) (by simpa using hn)
    rw [sqTok_text, sqTok_val] at this
    simpa [singleQuoted] using this
  have hnum : NotNum (singleQuoted s ++ E) := .inl (by
    show List.takeWhile isDigit (unsigned (0x27 :: _)) = []
    simp [unsigned, List.takeWhile, show isDigit 0x27 = false by decide])
  rw [scalarAtom, bind_ok (try_err (lift_of (float_no _ _ _ hnum)))]
  simp only
  rw [bind_ok (try_err (lift_of (sciFloat_no _ _ _ hnum)))]
  simp only
  rw [bind_ok (try_err (lift_of (int_no _ _ _ hnum)))]
  simp only
  rw [bind_ok (try_err (lift_of (anchorUse_no _ _ _ (by rintro r; simp [singleQuoted]))))]
  simp only
  rw [bind_ok (try_ok (lift_of hq))]
  simp

theorem single_leaf {s : Bytes} (hu : Utf8 s) (hs : ∀ c ∈ s, c ≠ 0x0A ∧ c ≠ 0x0D) :
    LeafOK .loose (singleQuoted s) (fun _ => .str s) := by
  refine ⟨fun k level E hw hE => ?_, ⟨0x27, _, rfl, by decide, by decide, by simp⟩⟩
  refine ⟨k, rfl, s.length + 1, fun a n i ha hn hi L pre => ?_⟩
  obtain ⟨i, rfl⟩ : ∃ j, i = j + 1 := ⟨i - 1, by omega⟩
  refine ⟨pre, _, rfl, scalarTerm_atom _ (scalarAtom_single _ _ _ ?_ hu hs (by omega) level false)⟩
  rintro r rfl
  rcases hE.head _ _ rfl with h | h | h | h <;> simp at h


/-- Escape one byte: backslash, newline, carriage return, tab, backspace and
form feed get a backslash. -/
def escapeByte (c : UInt8) : Bytes :=
  if c = 0x5C then b!"\\\\" else if c = 0x0A then b!"\\n" else if c = 0x0D then b!"\\r"
  else if c = 0x09 then b!"\\t" else if c = 0x08 then b!"\\b" else if c = 0x0C then b!"\\f"
  else [c]

/-- Escape one byte for a double-quoted string. -/
def quoteByte (c : UInt8) : Bytes := if c = 0x22 then b!"\\\"" else escapeByte c

/-- The text of a double-quoted string. -/
def doubleQuoted (s : Bytes) : Bytes := 0x22 :: (s.flatMap quoteByte ++ [0x22])

def dqTok (c : UInt8) : List QTok :=
  if c = 0x22 then [.quote] else if c = 0x5C then [.bs, .bs] else if c = 0x0A then [.bs, .byte 0x6E]
  else if c = 0x0D then [.bs, .byte 0x72] else if c = 0x09 then [.bs, .byte 0x74]
  else if c = 0x08 then [.bs, .byte 0x62] else if c = 0x0C then [.bs, .byte 0x66] else [.byte c]

theorem dqTok_text (s : Bytes) : qText b!"\\\"" (s.flatMap dqTok) = s.flatMap quoteByte := by
  induction s with
  | nil => rfl
  | cons c s ih =>
    simp only [qText, List.flatMap_cons, List.flatMap_append] at ih ⊢
    rw [ih]
    congr 1
    simp only [dqTok, quoteByte, escapeByte]
    repeat' split
    all_goals rfl

theorem dqTok_val (s : Bytes) : qVal 0x22 (s.flatMap dqTok) = s.flatMap escapeByte := by
  induction s with
  | nil => rfl
  | cons c s ih =>
    simp only [qVal, List.flatMap_cons, List.flatMap_append] at ih ⊢
    rw [ih]
    congr 1
    simp only [dqTok, escapeByte]
    repeat' split
    all_goals first
      | rfl
      | (subst_vars; rfl)
      | simp_all

theorem utf8_quote {s : Bytes} (h : Utf8 s) : Utf8 (s.flatMap quoteByte) := by
  apply utf8_flatMap _ _ h
  · intro c hc
    have : ∀ d : UInt8, d < 0x80 → c ≠ d := by rintro d hd rfl; exact hc hd
    simp [quoteByte, escapeByte, this 0x22 (by decide), this 0x5C (by decide), this 0x0A (by decide),
      this 0x0D (by decide), this 0x09 (by decide), this 0x08 (by decide), this 0x0C (by decide)]
  · intro c hc x hx
    simp only [quoteByte, escapeByte] at hx
    repeat' split at hx
    all_goals first
      | (simp at hx; subst hx; exact hc)
      | (simp at hx; rcases hx with rfl | rfl <;> decide)
      | (simp at hx; subst hx; decide)

/-- No escape begins with a quote. -/
theorem quoteByte_head (c : UInt8) (r : Bytes) : ∃ x s, quoteByte c ++ r = x :: s ∧ x ≠ 0x22 := by
  simp only [quoteByte, escapeByte]
  repeat' split
  all_goals first
    | exact ⟨_, _, rfl, by decide⟩
    | exact ⟨_, _, rfl, by assumption⟩

theorem dqTok_ok {E : Bytes} : ∀ {s : Bytes}, s.getLast? ≠ some 0x5C →
    qOK 0x22 b!"\\\"" E (s.flatMap dqTok)
  | [], _ => by
    show (b!"\\\"").isPrefixOf (0x22 :: E) = false
    simp [List.isPrefixOf]
  | c :: s, hl => by
    have ih : qOK 0x22 b!"\\\"" E (s.flatMap dqTok) := by
      cases s with
      | nil => show (b!"\\\"").isPrefixOf (0x22 :: E) = false; simp [List.isPrefixOf]
      | cons d s => exact dqTok_ok (by simpa using hl)
    simp only [List.flatMap_cons, dqTok]
    have hb : ∀ x, (b!"\\\"").isPrefixOf (0x5C :: (qText b!"\\\"" (QTok.byte x :: s.flatMap dqTok) ++ 0x22 :: E)) =
        (0x22 == x) := by
      intro x
      simp [qText, QTok.text, List.isPrefixOf]
    split
    · exact ih
    · split
      · rename_i hc
        subst hc
        refine ⟨by simp [qText, QTok.text, List.isPrefixOf], ?_, ih⟩
        cases s with
        | nil => simp at hl
        | cons d s =>
          obtain ⟨x, u, hx, hne⟩ := quoteByte_head d (s.flatMap quoteByte)
          show (b!"\\\"").isPrefixOf (0x5C :: (qText b!"\\\"" ((d :: s).flatMap dqTok) ++ 0x22 :: E)) = false
          rw [dqTok_text, List.flatMap_cons, hx]
          simp [List.isPrefixOf, Ne.symm hne]
      · repeat' split
        all_goals first
          | exact ⟨(hb _).trans (by decide), by decide, ih⟩
          | (refine ⟨?_, ih⟩; simp_all)

theorem escape_escapeByte (s : Bytes) : escape (s.flatMap escapeByte) = s := by
  induction s with
  | nil => rfl
  | cons c r ih =>
    have hr : escapeGo false (r.flatMap escapeByte) = r := ih
    simp only [escape, List.flatMap_cons]
    by_cases h1 : c = 0x5C
    · subst h1; simp [escapeByte, escapeGo, hr]; rfl
    by_cases h2 : c = 0x0A
    · subst h2; simp [escapeByte, escapeGo, hr]; rfl
    by_cases h3 : c = 0x0D
    · subst h3; simp [escapeByte, escapeGo, hr]; rfl
    by_cases h4 : c = 0x09
    · subst h4; simp [escapeByte, escapeGo, hr]; rfl
    by_cases h5 : c = 0x08
    · subst h5; simp [escapeByte, escapeGo, hr]; rfl
    by_cases h6 : c = 0x0C
    · subst h6; simp [escapeByte, escapeGo, hr]; rfl
    simp [escapeByte, h1, h2, h3, h4, h5, h6, escapeGo, hr]

theorem dqTok_length (s : Bytes) : (s.flatMap dqTok).length ≤ 2 * s.length := by
  induction s with
  | nil => simp
  | cons c s ih =>
    have : (dqTok c).length ≤ 2 := by
      simp only [dqTok]; repeat' split
      all_goals simp
    simp only [List.flatMap_cons, List.length_append, List.length_cons]; omega

theorem scalarAtom_double {E s : Bytes} (hu : Utf8 s) (hl : s.getLast? ≠ some 0x5C) {n : Nat}
    (hn : 2 * s.length < n) (level : Nat) (flow : Bool) :
    scalarAtom n level flow (ld L (st k pre [] (doubleQuoted s ++ E))) =
      (.ok (some (.str s)), ld L (st k pre (doubleQuoted s) E)) := by
  have hq : stringQuoted n 0x22 b!"\\\"" (st k pre [] (doubleQuoted s ++ E)) =
      (.ok (s.flatMap escapeByte), st k pre (doubleQuoted s) E) := by
    have := stringQuoted_read k pre [] (q := 0x22) (ig := b!"\\\"") (E := E) (.inr ⟨rfl, rfl⟩)
      (ts := s.flatMap dqTok) (by rw [dqTok_text]; exact utf8_quote hu) (dqTok_ok hl) (n := n)
      (by have := dqTok_length s; omega)
    rw [dqTok_text, dqTok_val] at this
    simpa [doubleQuoted] using this
  have hnum : NotNum (doubleQuoted s ++ E) := .inl (by
    show List.takeWhile isDigit (unsigned (0x22 :: _)) = []
    simp [unsigned, show isDigit 0x22 = false by decide])
  rw [scalarAtom, bind_ok (try_err (lift_of (float_no _ _ _ hnum)))]
  simp only
  rw [bind_ok (try_err (lift_of (sciFloat_no _ _ _ hnum)))]
  simp only
  rw [bind_ok (try_err (lift_of (int_no _ _ _ hnum)))]
  simp only
  rw [bind_ok (try_err (lift_of (anchorUse_no _ _ _ (by rintro r; simp [doubleQuoted]))))]
  simp only
  rw [bind_ok (try_err (lift_of (stringQuoted_no _ _ _ _ _ _ (by rintro r; simp [doubleQuoted]))))]
  simp only
  rw [bind_ok (try_ok (lift_of hq))]
  simp [escape_escapeByte]

theorem double_leaf {s : Bytes} (hu : Utf8 s) (hl : s.getLast? ≠ some 0x5C) :
    LeafOK .loose (doubleQuoted s) (fun _ => .str s) := by
  refine ⟨fun k level E hw hE => ?_, ⟨0x22, _, rfl, by decide, by decide, by simp⟩⟩
  refine ⟨k, rfl, 2 * s.length + 1, fun a n i ha hn hi L pre => ?_⟩
  obtain ⟨i, rfl⟩ : ∃ j, i = j + 1 := ⟨i - 1, by omega⟩
  exact ⟨pre, _, rfl, scalarTerm_atom _ (scalarAtom_double _ _ _ hu hl (by omega) level false)⟩

end YamlPeg
