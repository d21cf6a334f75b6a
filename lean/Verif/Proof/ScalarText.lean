import Verif.Proof.Flow
import Verif.Proof.Fold
import Verif.Proof.NumVal
import Verif.Props.Scalars
/-!
# Scalars as text

`ScalarText κ T y`: the text `T` is one of the usual ways to write the scalar
`y`.  `κ` says what may follow it in a block document: `.loose`, a line break, a
` # comment` or the end of the input; `.strict`, a line break only.
-/

namespace YamlPeg
open M

inductive ScalarText : EndKind → Bytes → Yaml → Prop
  /-- a plain line that is no keyword is a string -/
  | plain {T : Bytes} : PlainLine T → (∀ kv ∈ Props.keywords, kv.1 ≠ T) → ScalarText .loose T (.str T)
  /-- keywords -/
  | keyword {T : Bytes} {y : Yaml} : (T, y) ∈ Props.keywords → ScalarText .loose T y
  /-- decimal integers -/
  | int {sg d : Bytes} : IsSign sg → IsDigits d → ScalarText .strict (sg ++ d) (.int (sg ++ d))
  /-- hexadecimal integers; the digits `a`, `A` are not understood -/
  | hex {d : Bytes} : d ≠ [] → (∀ c ∈ d, isRadixDigit 16 c = true ∧ c ≠ 0x61 ∧ c ≠ 0x41) →
      ScalarText .strict (0x30 :: 0x78 :: d) (.int (0x30 :: 0x78 :: d))
  /-- octal integers -/
  | oct {d : Bytes} : d ≠ [] → (∀ c ∈ d, isRadixDigit 8 c = true) →
      ScalarText .strict (0x30 :: 0x6F :: d) (.int (0x30 :: 0x6F :: d))
  /-- decimal fractions; trailing `.0` are cut -/
  | float {sg d f : Bytes} : IsSign sg → IsDigits d → (∀ x ∈ f, isDigit x = true) →
      ScalarText .strict (sg ++ d ++ 0x2E :: f) (.float (trimEndMatches (sg ++ d ++ 0x2E :: f) b!".0"))
  /-- scientific notation -/
  | sci {sg d es ed : Bytes} {e : UInt8} : IsSign sg → IsDigits d → (e = 0x65 ∨ e = 0x45) →
      (es = [] ∨ es = [0x2B] ∨ es = [0x2D]) → IsDigits ed →
      ScalarText .strict (sg ++ d ++ e :: es ++ ed) (.float (sg ++ d ++ e :: es ++ ed))
  /-- strings in single quotes -/
  | single {s : Bytes} : Utf8 s → (∀ c ∈ s, c ≠ 0x0A ∧ c ≠ 0x0D) → ScalarText .loose (singleQuoted s) (.str s)
  /-- strings in double quotes -/
  | double {s : Bytes} : Utf8 s → s.getLast? ≠ some 0x5C → ScalarText .loose (doubleQuoted s) (.str s)
  /-- strings in single quotes over several lines -/
  | singleFold {nl s : Bytes} {r : List (Break × Bytes)} : LineBreak nl → Utf8 s → (∀ c ∈ s, c ≠ 0x0A ∧ c ≠ 0x0D) →
      FoldMore s r → (∀ x ∈ r, ∀ c ∈ x.2, c ≠ 0x0A ∧ c ≠ 0x0D) →
      ScalarText .loose (singleFolded nl s r) (.str (foldVal s r))
  /-- strings in double quotes over several lines -/
  | doubleFold {nl s : Bytes} {r : List (Break × Bytes)} : LineBreak nl → Utf8 s → s.getLast? ≠ some 0x5C →
      FoldMore s r → (∀ x ∈ r, x.2.getLast? ≠ some 0x5C) →
      ScalarText .loose (doubleFolded nl s r) (.str (foldVal s r))

theorem ScalarText.leaf {κ : EndKind} {T : Bytes} {y : Yaml} (h : ScalarText κ T y) : LeafOK κ T (fun _ => y) := by
  cases h with
  | plain hT hk => have := plain_leaf hT.plain; rwa [Props.C16_other_text T hk] at this
  | keyword hk =>
    have := plain_leaf (Props.keyword_plain hk); rwa [show resolvePlain T = y from Props.C16_keywords _ hk] at this
  | int hsg hd => exact int_leaf hsg hd
  | hex hne hd => exact radix_leaf (.inl ⟨rfl, rfl⟩) hne fun c hc => Props.radix_ascii (.inl rfl) (hd c hc).1 (hd c hc).2
  | oct hne hd =>
    refine radix_leaf (.inr ⟨rfl, rfl⟩) hne fun c hc => Props.radix_ascii (.inr rfl) (hd c hc) ?_
    constructor <;> (rintro rfl; have := hd _ hc; revert this; decide)
  | float hsg hd hf => exact float_leaf hsg hd hf
  | sci hsg hd he hes hed => exact sci_leaf hsg hd he hes hed
  | single hu hs => exact single_leaf hu hs
  | double hu hl => exact double_leaf hu hl
  | singleFold hnl hu hs hr hrs => exact single_folded_leaf hnl hu hs hr hrs
  | doubleFold hnl hu hs hr hrs => exact double_folded_leaf hnl hu hs hr hrs

theorem ScalarText.noMark {κ : EndKind} {T : Bytes} {y : Yaml} (h : ScalarText κ T y) :
    docMark T = false ∧ ∀ r, T ≠ 0x25 :: r := by
  cases h with
  | plain hT hk => exact Props.letter_noMark hT.first
  | keyword hk => exact Props.keyword_noMark hk
  | int hsg hd => have := Props.sign_noMark (r := []) hsg hd; simpa using this
  | hex hne hd => simp [docMark, List.isPrefixOf]
  | oct hne hd => simp [docMark, List.isPrefixOf]
  | float hsg hd hf => exact Props.sign_noMark hsg hd
  | @sci sg d es ed e hsg hd he hes hed =>
    have := Props.sign_noMark (r := e :: es ++ ed) hsg hd
    simpa only [List.append_assoc, List.cons_append] using this
  | single hu hs => simp [docMark, List.isPrefixOf, singleQuoted]
  | double hu hl => simp [docMark, List.isPrefixOf, doubleQuoted]
  | singleFold => simp [docMark, List.isPrefixOf, singleFolded]
  | doubleFold => simp [docMark, List.isPrefixOf, doubleFolded]

theorem ScalarText.key {κ : EndKind} {T : Bytes} {y : Yaml} (h : ScalarText κ T y) : KeyOK T y := by
  refine ⟨?_, h.noMark.1⟩
  have := h.leaf
  cases h with
  | plain => exact this.strict
  | keyword => exact this.strict
  | single => exact this.strict
  | double => exact this.strict
  | singleFold => exact this.strict
  | doubleFold => exact this.strict
  | _ => exact this

/-! ## Inside flow collections -/

/-- A scalar that can stand in a flow collection: in quotes, or without the
characters `[ ] { } ,`. -/
def FlowText (T : Bytes) (y : Yaml) : Prop :=
  (∃ κ, ScalarText κ T y) ∧ ((∃ r, T = 0x27 :: r ∨ T = 0x22 :: r) ∨ ∀ c ∈ T, c ∉ b!"[]{},")

theorem plainBody_inner {E : Bytes} : ∀ {T : Bytes} {ne : Bool}, plainBody false E ne T = true →
    (∀ c ∈ T, c ∉ b!"[]{},") → plainBody true E ne T = true
  | [], _, _, _ => rfl
  | c :: s, ne, h, hc => by
    rw [plainBody] at h ⊢
    have ih := plainBody_inner (E := E) (T := s) (ne := true)
    simp only [Bool.and_eq_true] at h ⊢
    have h0 := hc c (by simp)
    refine ⟨⟨⟨h.1.1.1, ?_⟩, ?_⟩, ih h.2 fun x hx => hc x (by simp [hx])⟩
    · have : (b!"[]{}").contains c = false := by
        simp only [List.mem_cons, List.not_mem_nil, or_false, not_or] at h0
        simp [h0]
      rw [this]; rfl
    · have : c ≠ 0x2C := by rintro rfl; simp at h0
      simp [this]

/-- A scalar in quotes. -/
def Quoted (T : Bytes) : Prop := ∃ r, T = 0x27 :: r ∨ T = 0x22 :: r

/-- White space behind a scalar in a flow collection; behind a number, spaces
come first, then perhaps a line break (a tab would make `1.5` a string). -/
def Behind (κ : EndKind) (W : Bytes) : Prop :=
  AllWs W ∧ (κ = .strict → ∃ u w, W = u ++ w ∧ (∀ x ∈ u, x = 0x20) ∧ (w = [] ∨ ∃ r, w = 0x0A :: r ∨ w = 0x0D :: r))

theorem Behind.nil (κ : EndKind) : Behind κ [] := ⟨AllWs.nil, fun _ => ⟨[], [], rfl, by simp, .inl rfl⟩⟩

theorem Behind.num {W E : Bytes} (h : Behind .strict W) (hE : FlowStop E) : ∃ u w, W = u ++ w ∧ NumRest (W ++ E) u (w ++ E) := by
  obtain ⟨u, w, rfl, hu, hw⟩ := h.2 rfl
  refine ⟨u, w, rfl, by simp, hu, ?_⟩
  rcases hw with rfl | ⟨r, rfl | rfl⟩
  · obtain ⟨c, r, rfl, hc⟩ := hE
    refine ⟨c, r, rfl, ?_⟩
    simp at hc; rcases hc with rfl | rfl | rfl <;> decide
  · exact ⟨0x0A, _, rfl, by decide⟩
  · exact ⟨0x0D, _, rfl, by decide⟩

/-- Numbers, quoted strings, the others. -/
theorem ScalarText.three {κ : EndKind} {T : Bytes} {y : Yaml} (h : ScalarText κ T y) :
    κ = .strict ∨ Quoted T ∨ (κ = .loose ∧ PlainText T ∧ resolvePlain T = y) := by
  cases h with
  | plain hT hk => exact .inr (.inr ⟨rfl, hT.plain, Props.C16_other_text T hk⟩)
  | keyword hk => exact .inr (.inr ⟨rfl, Props.keyword_plain hk, Props.C16_keywords _ hk⟩)
  | single => exact .inr (.inl ⟨_, .inl rfl⟩)
  | double => exact .inr (.inl ⟨_, .inr rfl⟩)
  | singleFold => exact .inr (.inl ⟨_, .inl rfl⟩)
  | doubleFold => exact .inr (.inl ⟨_, .inr rfl⟩)
  | _ => exact .inl rfl

/-- A number in front of spaces and a byte that ends it. -/
theorem ScalarText.num {T : Bytes} {y : Yaml} (h : ScalarText .strict T y) {F u E : Bytes} (hE : NumRest F u E) (k : Ctx)
    (L : Loader) (pre : Bytes) (n level : Nat) :
    scalarAtom n level true (ld L (st k pre [] (T ++ F))) = (.ok (some y), ld L (st k pre (T ++ u) E)) := by
  cases h with
  | int hsg hd => exact scalarAtom_int' _ _ _ hsg hd hE n level true
  | hex hne hd =>
    exact scalarAtom_radix' _ _ _ (.inl ⟨rfl, rfl⟩) hne
      (fun c hc => Props.radix_ascii (.inl rfl) (hd c hc).1 (hd c hc).2) hE n level true
  | oct hne hd =>
    refine scalarAtom_radix' _ _ _ (.inr ⟨rfl, rfl⟩) hne
      (fun c hc => Props.radix_ascii (.inr rfl) (hd c hc) ?_) hE n level true
    constructor <;> (rintro rfl; have := hd _ hc; revert this; decide)
  | float hsg hd hf => exact scalarAtom_float' _ _ _ hsg hd hf hE n level true
  | sci hsg hd he hes hed => exact scalarAtom_sci' _ _ _ hsg hd he hes hed hE n level true

theorem PlainLine.notQuoted {T : Bytes} (hT : PlainLine T) : ¬Quoted T := by
  obtain ⟨c, s, rfl, hl⟩ := hT.first
  rintro ⟨r, h | h⟩ <;> (simp at h; rw [h.1] at hl; revert hl; decide)

theorem keyword_notQuoted {T : Bytes} {y : Yaml} (hk : (T, y) ∈ Props.keywords) : ¬Quoted T := by
  have key : ∀ kv ∈ Props.keywords, kv.1.head? ≠ some 0x27 ∧ kv.1.head? ≠ some 0x22 := by decide +kernel
  have := key _ hk
  rintro ⟨r, rfl | rfl⟩ <;> simp at this

/-- A quoted string, whatever follows it. -/
theorem ScalarText.quoted {κ : EndKind} {T : Bytes} {y : Yaml} (h : ScalarText κ T y) (hq : Quoted T) :
    ∃ N, ∀ n, N ≤ n → ∀ (E : Bytes) (k : Ctx) (L : Loader) (pre : Bytes) (level : Nat), (∀ r, E ≠ 0x27 :: r) →
      scalarAtom n level true (ld L (st k pre [] (T ++ E))) = (.ok (some y), ld L (st k pre T E)) := by
  have dig : ∀ {sg d E : Bytes}, IsSign sg → IsDigits d → ¬Quoted (sg ++ d ++ E) := by
    rintro sg d E hsg hd ⟨r, h⟩
    obtain ⟨x, d', rfl⟩ := List.exists_cons_of_ne_nil hd.1
    have hx := hd.2 x (by simp)
    rcases hsg with rfl | rfl
    · rcases h with h | h <;> (simp at h; rw [h.1] at hx; revert hx; decide)
    · simp at h
  cases h with
  | plain hT hk => exact absurd hq hT.notQuoted
  | keyword hk => exact absurd hq (keyword_notQuoted hk)
  | int hsg hd => exact absurd (by simpa using hq) (dig (E := []) hsg hd)
  | hex hne hd => obtain ⟨r, h⟩ := hq; simp at h
  | oct hne hd => obtain ⟨r, h⟩ := hq; simp at h
  | float hsg hd hf => exact absurd hq (dig hsg hd)
  | @sci sg d es ed e hsg hd he hes hed =>
    exact absurd (by simpa only [List.append_assoc, List.cons_append] using hq) (dig (E := e :: es ++ ed) hsg hd)
  | @single s hu hs =>
    exact ⟨s.length + 1, fun n hn E k L pre level hE => scalarAtom_single _ _ _ hE hu hs (by omega) level true⟩
  | @double s hu hl =>
    exact ⟨2 * s.length + 1, fun n hn E k L pre level hE => scalarAtom_double _ _ _ hu hl (by omega) level true⟩
  | @singleFold nl s r hnl hu hs hr hrs =>
    exact ⟨singleLen s r + 1, fun n hn E k L pre level hE =>
      scalarAtom_singleFolded _ _ _ hnl hE hu hs hr hrs (by omega) level true⟩
  | @doubleFold nl s r hnl hu hs hr hrs =>
    exact ⟨doubleLen s r + 1, fun n hn E k L pre level hE =>
      scalarAtom_doubleFolded _ _ _ hnl hu hs hr hrs (by omega) level true⟩

theorem PlainText.inner {T : Bytes} (h : PlainText T) (hc : ∀ c ∈ T, c ∉ b!"[]{},") (X : Bytes) :
    plainBody true X false T = true :=
  plainBody_inner (plainBody_append h.body h.noColon (trimEnd_last h.trim)) hc

theorem FlowText.noClose {T : Bytes} {y : Yaml} (h : FlowText T y) : ∀ r, T ≠ 0x5D :: r ∧ T ≠ 0x7D :: r := by
  intro r
  rcases h.2 with ⟨q, rfl | rfl⟩ | hc
  · simp
  · simp
  · constructor <;> (rintro rfl; have := hc _ (List.mem_cons_self ..); simp at this)

theorem FlowText.bare {T : Bytes} {y : Yaml} (h : FlowText T y) (hq : ¬Quoted T) : ∀ c ∈ T, c ∉ b!"[]{}," :=
  h.2.resolve_left hq

/-- A scalar and white space behind it. -/
theorem FlowText.atom {κ : EndKind} {T : Bytes} {y : Yaml} (h : FlowText T y) (hκ : ScalarText κ T y) {W : Bytes}
    (hW : Behind κ W) : AtomOK T (fun _ => y) (fun _ => True) W := by
  refine ⟨hκ.leaf.2, h.noClose, hW.1, fun k level E hw hE => ?_⟩
  by_cases hq : Quoted T
  · obtain ⟨N, hN⟩ := hκ.quoted hq
    refine ⟨k, [], W, rfl, rfl, N, fun n hn L pre _ _ => ?_⟩
    rw [List.append_nil]
    refine hN n hn (W ++ E) k L pre level ?_
    intro r he
    cases W with
    | nil => obtain ⟨c, r', rfl, hc⟩ := hE; simp at he; rw [he.1] at hc; revert hc; decide
    | cons x W => have := hW.1 x (by simp); simp at he; rw [he.1] at this; revert this; decide
  · rcases hκ.three with rfl | hq' | ⟨_, hT, rfl⟩
    · obtain ⟨u, w, hs, hnum⟩ := hW.num hE
      exact ⟨k, u, w, hs, rfl, 0, fun n hn L pre _ _ => hκ.num hnum k L pre n level⟩
    · exact absurd hq' hq
    · obtain ⟨u, w, hs, hp⟩ := stringPlain_ws hE hW.1 hw (hT.inner (h.bare hq)) hT.utf8 hT.ne hT.trim
      refine ⟨k.at level, u, w, hs, by simp, T.length + W.length + 1, fun n hn L pre _ _ => ?_⟩
      rw [scalarAtom_plain _ _ _ _ n level true (hT.notNum_append _) (hT.atomHead _), bind_ok (try_ok (lift_of (hp n pre [] (by omega))))]
      simp

/-- A key of a flow map, `:`, and blanks; behind a quoted string or a number there may be no blank. -/
def FlowKey (T : Bytes) (y : Yaml) (sp : Bytes) : Prop :=
  FlowText T y ∧ (FlowSep sp ∨ sp = [] ∧ (Quoted T ∨ ScalarText .strict T y))

theorem FlowKey.key {T : Bytes} {y : Yaml} {sp : Bytes} (h : FlowKey T y sp) : FKeyOK T y sp := by
  obtain ⟨h, hsp⟩ := h
  obtain ⟨κ, hκ⟩ := h.1
  refine ⟨hκ.leaf.2, h.noClose, hsp.symm.imp (·.1) id, fun k level R hw => ?_⟩
  by_cases hq : Quoted T
  · obtain ⟨N, hN⟩ := hκ.quoted hq
    exact ⟨k, rfl, N, fun n hn L pre => hN n hn _ k L pre level (by simp)⟩
  · by_cases hs : ScalarText .strict T y
    · refine ⟨k, rfl, 0, fun n hn L pre => ?_⟩
      have hend : NumEnd (0x3A :: (sp ++ R)) := ⟨_, _, rfl, by decide⟩
      have := hs.num hend.rest k L pre n level
      simpa using this
    · have hsep : FlowSep sp := hsp.resolve_right (by rintro ⟨_, h | h⟩ <;> contradiction)
      rcases hκ.three with rfl | hq' | ⟨_, hT, rfl⟩
      · exact absurd hκ hs
      · exact absurd hq' hq
      · obtain ⟨s, rfl, _⟩ := hsep
        refine ⟨k, rfl, T.length + 1, fun n hn L pre => ?_⟩
        exact scalarAtom_read _ _ _ (hT.notNum_append _) (hT.atomHead _) (.stop rfl)
          (hT.inner (h.bare hq) _) hT.utf8 hT.ne hT.trim n (by omega)

/-- An alias and white space behind it. -/
theorem alias_atom {a W : Bytes} (ha : IsIdent a) (hW : AllWs W) : AtomOK (0x2A :: a) (aliasYaml a) (aliasFine a) W := by
  refine ⟨(alias_leaf ha).2, by simp, hW, fun k level E hw hE => ?_⟩
  have hend : IdEnd (W ++ E) := by
    intro c r he
    cases W with
    | nil => obtain ⟨c', r', rfl, hc⟩ := hE; simp at he; rw [← he.1]; simp at hc; rcases hc with rfl | rfl | rfl <;> decide
    | cons x W =>
      have := hW x (by simp); simp at he; rw [← he.1]
      rcases isAsciiWs_cases this with rfl | rfl | rfl | rfl | rfl <;> decide
  refine ⟨k, [], W, rfl, rfl, 0, fun n hn L pre hL hpc => ?_⟩
  rw [List.append_nil]
  exact scalarAtom_alias ha hend hL hpc n level true pre

/-- What a flow node needs, and the anchors known behind it. -/
def Flow.known (f : Flow) : Known := ⟨f.fine, f.eff⟩

/-- A flow collection as a leaf of a block document. -/
theorem Flow.leaf {f : Flow} (h : f.wf []) (ha : f.isAtom = false) : LeafOKE .loose f.text f.data f.known := by
  have hc := Flow.core_of_coll ha
  have h1 := Flow.first h
  rw [hc] at h1
  refine ⟨fun k level E hw _ hE => ?_, h1⟩
  obtain ⟨k', u, w, hs, hk', N, hN⟩ := Flow.read f [] k level false E h hw (by simp [hc, ha])
  obtain ⟨rfl, rfl⟩ := List.append_eq_nil_iff.1 hs.symm
  refine ⟨k', hk', N, fun a n d ha hn hd L pre hL hpc => ?_⟩
  rw [hc] at hN
  simpa [Flow.known] using hN a n d ha hn hd L pre hL hpc

end YamlPeg
