import Verif.Proof.SerdeText
import Verif.Props.Serde
import Verif.Props.Dump
/-!
# Serde through text: C55, C56

`Val.printable` (Proof/SerdeText.lean) describes the values whose text is read back.
-/

namespace YamlPeg.Props
open YamlPeg

section
variable {h : HashCfg} {f : FloatFmt}

/-! ## C56: reading does not look at positions and tags -/

/-- The value of a successful result. -/
def okVal {α : Type} : SRes α → Option α
  | .ok a => some a
  | _ => none

theorem okVal_bind {α β : Type} (x : SRes α) (g : α → SRes β) : okVal (x >>= g) = (okVal x).bind fun a => okVal (g a) := by
  cases x <;> rfl

theorem okVal_iff {α : Type} {x : SRes α} {a : α} : okVal x = some a ↔ x = .ok a := by
  cases x <;> simp [okVal]

theorem okVal_unexpected {α : Type} (n : Node) : okVal (unexpected n : SRes α) = none := by
  unfold unexpected
  split <;> (try split) <;> rfl

theorem okVal_congr {α β : Type} {x y : SRes α} (e : okVal x = okVal y) (g g' : α → SRes β)
    (hg : ∀ a, okVal (g a) = okVal (g' a)) : okVal (x >>= g) = okVal (y >>= g') := by
  rw [okVal_bind, okVal_bind, e]
  congr 1
  exact funext hg

theorem okVal_map {α β : Type} {x y : SRes α} (e : okVal x = okVal y) (g : α → β) :
    okVal (do return g (← x)) = okVal (do return g (← y)) := okVal_congr e _ _ fun _ => rfl

mutual
theorem deNode_meta : ∀ n : Node, okVal (deNode h f (eraseMeta n)) = okVal (deNode h f n)
  | .mk p t y => by rw [eraseMeta, deNode, deNode]; exact deYaml_meta p y
theorem deYaml_meta (p : Nat) : ∀ y : Yaml, okVal (deYaml h f 0 (eraseMetaY y)) = okVal (deYaml h f p y)
  | .null => rfl
  | .bool _ => rfl
  | .int s => by simp only [eraseMetaY, deYaml]
  | .float s => by simp only [eraseMetaY, deYaml]
  | .str _ => rfl
  | .alias _ => rfl
  | .seq l => by
    simp only [eraseMetaY, deYaml]
    exact okVal_map (deNodes_meta l) _
  | .map m => by
    simp only [eraseMetaY, deYaml]
    exact okVal_congr (deNodeEntries_meta m []) _ _ fun _ => rfl
theorem deNodes_meta : ∀ l : List Node, okVal (deNodes h f (eraseMetaL l)) = okVal (deNodes h f l)
  | [] => rfl
  | x :: xs => by
    simp only [eraseMetaL, deNodes]
    exact okVal_congr (deNode_meta x) _ _ fun _ => okVal_map (deNodes_meta xs) _
theorem deNodeEntries_meta : ∀ (m acc : List (Node × Node)),
    okVal (deNodeEntries h f acc (eraseMetaM m)) = okVal (deNodeEntries h f acc m)
  | [], _ => by simp only [eraseMetaM]
  | e :: es, acc => by
    simp only [eraseMetaM, deNodeEntries]
    exact okVal_congr (deNodeEntry_meta e) _ _ fun a => okVal_congr rfl _ _ fun acc' => deNodeEntries_meta es acc'
theorem deNodeEntry_meta : ∀ e : Node × Node, okVal (deNodeEntry h f (eraseMetaE e)) = okVal (deNodeEntry h f e)
  | (k, v) => by
    simp only [eraseMetaE, deNodeEntry]
    exact okVal_congr (deNode_meta k) _ _ fun _ => okVal_map (deNode_meta v) _
end

/-- A reader that does not look at positions and tags. -/
def Blindly {α : Type} (g : Node → SRes α) : Prop := ∀ n, okVal (g (eraseMeta n)) = okVal (g n)

theorem deSeq_meta {g : Node → SRes Val} (hg : Blindly g) : ∀ l, okVal (deSeq g (eraseMetaL l)) = okVal (deSeq g l)
  | [] => rfl
  | x :: xs => by
    simp only [eraseMetaL, deSeq]
    exact okVal_congr (hg x) _ _ fun _ => okVal_map (deSeq_meta hg xs) _

theorem deMap_meta {gk gv : Node → SRes Val} (hk : Blindly gk) (hv : Blindly gv) :
    ∀ l, okVal (deMap gk gv (eraseMetaM l)) = okVal (deMap gk gv l)
  | [] => rfl
  | (k, v) :: xs => by
    simp only [eraseMetaM, eraseMetaE, deMap]
    exact okVal_congr (hk k) _ _ fun _ => okVal_congr (hv v) _ _ fun _ => okVal_map (deMap_meta hk hv xs) _

theorem deTuple_meta : ∀ (gs : List (Node → SRes Val)), (∀ g ∈ gs, Blindly g) → ∀ l,
    okVal (deTuple gs (eraseMetaL l)) = okVal (deTuple gs l)
  | [], _, _ => rfl
  | _ :: _, _, [] => rfl
  | g :: gs, hg, x :: xs => by
    simp only [eraseMetaL, deTuple]
    exact okVal_congr (hg g (by simp) x) _ _ fun _ => okVal_map (deTuple_meta gs (fun g' h' => hg g' (by simp [h'])) xs) _

theorem deIdent_meta : Blindly deIdent
  | .mk p t y => by
    cases y <;> simp [eraseMeta, eraseMetaY, deIdent, Node.yaml, okVal_unexpected]

theorem deFieldLoop_meta {fs : List DeField} (hf : ∀ x ∈ fs, Blindly x.read) : ∀ l,
    okVal (deFieldLoop fs (eraseMetaM l)) = okVal (deFieldLoop fs l)
  | [] => rfl
  | (k, v) :: xs => by
    simp only [eraseMetaM, eraseMetaE, deFieldLoop]
    refine okVal_congr (deIdent_meta k) _ _ fun name => ?_
    cases hx : fs.find? (fun x => x.name == name) with
    | none => exact deFieldLoop_meta hf xs
    | some x =>
      exact okVal_congr (hf x (List.mem_of_find?_eq_some hx) v) _ _ fun _ => okVal_map (deFieldLoop_meta hf xs) _

theorem deStructMap_meta {fs : List DeField} (hf : ∀ x ∈ fs, Blindly x.read) (l : List (Node × Node)) :
    okVal (deStructMap fs (eraseMetaM l)) = okVal (deStructMap fs l) := by
  simp only [deStructMap]
  exact okVal_congr (deFieldLoop_meta hf l) _ _ fun _ => rfl

theorem deEnum_meta {vs : List DeVariant} (hv : ∀ x ∈ vs, ∀ p : Option Node, okVal (x.read (p.map eraseMeta)) = okVal (x.read p))
    (k : Node) (p : Option Node) : okVal (deEnum vs (eraseMeta k) (p.map eraseMeta)) = okVal (deEnum vs k p) := by
  simp only [deEnum]
  refine okVal_congr (deIdent_meta k) _ _ fun name => ?_
  cases hx : vs.find? (fun x => x.name == name) with
  | none => rfl
  | some x => exact okVal_map (hv x (List.mem_of_find?_eq_some hx) p) _

theorem deInt_meta (w : IntTy) : Blindly (deInt w)
  | .mk p t y => by
    cases y <;> simp [eraseMeta, eraseMetaY, deInt, Node.yaml, okVal_unexpected]

mutual
theorem de_meta : ∀ t : Ty, Blindly (de h f t)
  | .bool, .mk p t y => by
    cases y <;> simp [eraseMeta, eraseMetaY, de, Node.yaml, okVal_unexpected]
  | .int w, n => by simp only [de]; exact deInt_meta w n
  | .f64, .mk p t y => by
    cases y <;> simp [eraseMeta, eraseMetaY, de, Node.yaml, okVal_unexpected]
  | .f32, .mk p t y => by
    cases y <;> simp [eraseMeta, eraseMetaY, de, Node.yaml, okVal_unexpected]
  | .char, .mk p t y => by
    cases y <;> simp [eraseMeta, eraseMetaY, de, Node.yaml, okVal_unexpected]
    all_goals
      rename_i s
      rcases s with _ | ⟨c, _ | ⟨d, s⟩⟩ <;> simp [okVal_unexpected]
  | .str, .mk p t y => by
    cases y <;> simp [eraseMeta, eraseMetaY, de, Node.yaml, okVal_unexpected]
  | .bytes, .mk p t y => by
    cases y <;> simp only [eraseMeta, eraseMetaY, de, Node.yaml, okVal_unexpected]
    exact okVal_congr (deSeq_meta (deInt_meta .u8) _) _ _ fun _ => rfl
  | .unit, .mk p t y => by
    cases y <;> simp [eraseMeta, eraseMetaY, de, Node.yaml, okVal_unexpected]
  | .option t, n => by
    have := okVal_map (de_meta t n) Val.some
    obtain ⟨p, g, y⟩ := n
    cases y <;> simp only [eraseMeta, eraseMetaY, de, Node.yaml] at this ⊢ <;> exact this
  | .seq t, .mk p g y => by
    cases y <;> simp only [eraseMeta, eraseMetaY, de, Node.yaml, okVal_unexpected]
    exact okVal_map (deSeq_meta (de_meta t) _) _
  | .tuple ts, .mk p g y => by
    cases y <;> simp only [eraseMeta, eraseMetaY, de, Node.yaml, okVal_unexpected]
    exact okVal_map (deTuple_meta _ (deAll_meta ts) _) _
  | .map tk tv, .mk p g y => by
    cases y <;> simp only [eraseMeta, eraseMetaY, de, Node.yaml, okVal_unexpected]
    exact okVal_map (deMap_meta (de_meta tk) (de_meta tv) _) _
  | .newtype t, n => by
    simp only [de]
    exact okVal_map (de_meta t n) _
  | .struct fs, .mk p g y => by
    cases y <;> simp only [eraseMeta, eraseMetaY, de, Node.yaml, okVal_unexpected]
    · simp only [deStructSeq]
      refine okVal_congr (deTuple_meta _ ?_ _) _ _ fun _ => rfl
      intro g hg
      obtain ⟨x, hx, rfl⟩ := List.mem_map.1 hg
      exact deFields_meta fs x hx
    · exact deStructMap_meta (deFields_meta fs) _
  | .enum vs, .mk p g y => by
    cases y <;> simp only [eraseMeta, eraseMetaY, de, Node.yaml, okVal_unexpected]
    · exact deEnum_meta (deVariants_meta vs) (.mk p g (.str _)) none
    · rename_i m
      rcases m with _ | ⟨⟨k, v⟩, _ | ⟨e, es⟩⟩
      · simp only [eraseMetaM, okVal_unexpected]
      · simp only [eraseMetaM, eraseMetaE]
        exact deEnum_meta (deVariants_meta vs) k (some v)
      · simp only [eraseMetaM, okVal_unexpected]
  | .node, n => by
    simp only [de]
    exact okVal_map (deNode_meta n) _
theorem deAll_meta : ∀ ts : List Ty, ∀ g ∈ deAll h f ts, Blindly g
  | [], g, hg => by simp [deAll] at hg
  | t :: r, g, hg => by
    simp only [deAll, List.mem_cons] at hg
    rcases hg with rfl | hg
    · exact de_meta t
    · exact deAll_meta r g hg
theorem deFields_meta : ∀ fs : List (Bytes × Ty), ∀ x ∈ deFields h f fs, Blindly x.read
  | [], x, hx => by simp [deFields] at hx
  | e :: r, x, hx => by
    simp only [deFields, List.mem_cons] at hx
    rcases hx with rfl | hx
    · exact deField_meta e
    · exact deFields_meta r x hx
theorem deField_meta : ∀ e : Bytes × Ty, Blindly (deField h f e).read
  | (_, t) => de_meta t
theorem deVariants_meta : ∀ vs : List (Bytes × VTy), ∀ x ∈ deVariants h f vs, ∀ p : Option Node,
    okVal (x.read (p.map eraseMeta)) = okVal (x.read p)
  | [], x, hx => by simp [deVariants] at hx
  | e :: r, x, hx => by
    simp only [deVariants, List.mem_cons] at hx
    rcases hx with rfl | hx
    · exact deVariant_meta e
    · exact deVariants_meta r x hx
theorem deVariant_meta : ∀ (e : Bytes × VTy) (p : Option Node),
    okVal ((deVariant h f e).read (p.map eraseMeta)) = okVal ((deVariant h f e).read p)
  | (_, t), p => dePayload_meta t p
theorem dePayload_meta : ∀ (t : VTy) (p : Option Node),
    okVal (dePayload h f t (p.map eraseMeta)) = okVal (dePayload h f t p)
  | .unit, none => rfl
  | .unit, some (.mk p g y) => by
    cases y <;> simp [eraseMeta, eraseMetaY, dePayload, Node.yaml, okVal_unexpected]
  | .newtype t, none => rfl
  | .newtype t, some n => by
    simp only [Option.map_some, dePayload]
    exact okVal_map (de_meta t n) _
  | .tuple ts, none => rfl
  | .tuple ts, some (.mk p g y) => by
    cases y <;> simp only [Option.map_some, eraseMeta, eraseMetaY, dePayload, Node.yaml, okVal_unexpected]
    exact okVal_map (deTuple_meta _ (deAll_meta ts) _) _
  | .struct fs, none => rfl
  | .struct fs, some (.mk p g y) => by
    cases y <;> simp only [Option.map_some, eraseMeta, eraseMetaY, dePayload, Node.yaml, okVal_unexpected]
    exact okVal_congr (deStructMap_meta (deFields_meta fs) _) _ _ fun _ => rfl
end

/-- **C56.** Two nodes that differ in positions and tags only are read as the same
value, whatever the type: if the one is read, so is the other, and both give the same. -/
theorem C56_ignores_pos_and_tag (t : Ty) (n n' : Node) (he : eraseMeta n = eraseMeta n') (v : Val) :
    de h f t n = .ok v ↔ de h f t n' = .ok v := by
  rw [← okVal_iff, ← okVal_iff, ← de_meta t n, ← de_meta t n', he]

mutual
theorem de_seed (h' : HashCfg) : ∀ t : Ty, t.wf → ∀ n, de h f t n = de h' f t n
  | .bool, _, n => by simp only [de]
  | .int w, _, n => by simp only [de]
  | .f64, _, n => by simp only [de]
  | .f32, _, n => by simp only [de]
  | .char, _, n => by simp only [de]
  | .str, _, n => by simp only [de]
  | .bytes, _, n => by simp only [de]
  | .unit, _, n => by simp only [de]
  | .option t, hw, n => by simp only [de, de_seed h' t hw n]
  | .seq t, hw, n => by simp only [de, show de h f t = de h' f t from funext (de_seed h' t hw)]
  | .tuple ts, hw, n => by simp only [de, deAll_seed h' ts hw]
  | .map tk tv, hw, n => by
    simp only [de, show de h f tk = de h' f tk from funext (de_seed h' tk hw.1),
      show de h f tv = de h' f tv from funext (de_seed h' tv hw.2.2)]
  | .newtype t, hw, n => by simp only [de, de_seed h' t hw n]
  | .struct fs, hw, n => by simp only [de, deFields_seed h' fs hw.2]
  | .enum vs, hw, n => by simp only [de, deVariants_seed h' vs hw.2]
  | .node, hw, _ => hw.elim
theorem deAll_seed (h' : HashCfg) : ∀ ts : List Ty, tysWf ts → deAll h f ts = deAll h' f ts
  | [], _ => rfl
  | t :: r, hw => by
    rw [deAll, deAll, deAll_seed h' r hw.2, show de h f t = de h' f t from funext (de_seed h' t hw.1)]
theorem deFields_seed (h' : HashCfg) : ∀ fs : List (Bytes × Ty), fieldsWf fs → deFields h f fs = deFields h' f fs
  | [], _ => rfl
  | e :: r, hw => by rw [deFields, deFields, deField_seed h' e hw.1, deFields_seed h' r hw.2]
theorem deField_seed (h' : HashCfg) : ∀ e : Bytes × Ty, fieldWf e → deField h f e = deField h' f e
  | (_, t), hw => by rw [deField, deField, show de h f t = de h' f t from funext (de_seed h' t hw)]
theorem deVariants_seed (h' : HashCfg) : ∀ vs : List (Bytes × VTy), variantsWf vs →
    deVariants h f vs = deVariants h' f vs
  | [], _ => rfl
  | e :: r, hw => by rw [deVariants, deVariants, deVariant_seed h' e hw.1, deVariants_seed h' r hw.2]
theorem deVariant_seed (h' : HashCfg) : ∀ e : Bytes × VTy, variantWf e → deVariant h f e = deVariant h' f e
  | (_, t), hw => by
    rw [deVariant, deVariant, show dePayload h f t = dePayload h' f t from funext (dePayload_seed h' t hw)]
theorem dePayload_seed (h' : HashCfg) : ∀ t : VTy, payloadWf t → ∀ p, dePayload h f t p = dePayload h' f t p
  | .unit, _, none => rfl
  | .unit, _, some n => by simp only [dePayload]
  | .newtype t, _, none => rfl
  | .newtype t, hw, some n => by simp only [dePayload, de_seed h' t hw n]
  | .tuple ts, _, none => rfl
  | .tuple ts, hw, some n => by simp only [dePayload, deAll_seed h' ts hw]
  | .struct fs, _, none => rfl
  | .struct fs, hw, some n => by simp only [dePayload, deFields_seed h' fs hw.2]
end

/-! ## C55: values through text -/

/-- **C55.** `to_string` prints a printable value (`Val.printable`), and `from_str` reads
the text back as exactly this one value, for every hash seed.  For values that are not
printable see the counterexamples below. -/
theorem C55_text_round_trip (hf : f.Exact) (cfg : DumpCfg) {t : Ty} (ht : t.wf) {v : Val} (hv : HasTy t v)
    (hs : v.survives f) (hp : v.printable f cfg false) :
    ∃ text, (∃ N, ∀ n, N ≤ n → serToString h f cfg n v = some (.ok text)) ∧
      ∀ h', ∃ N, ∀ n, N ≤ n → fromStr h' f n t text = some (.ok [v]) := by
  obtain ⟨n0, hn⟩ := rt (h := h) hf t ht v hv hs
  obtain ⟨x, hx⟩ := tx hf t ht v n0 false hv hs hp hn.ser
  obtain ⟨text, ns', ⟨_, N, h1⟩, h2, h3⟩ := dump_reads (cfg := cfg) (anchors := []) (by simp) (ns := [x]) (by simp)
    (by simpa using hx.dump) (by simp)
  obtain ⟨x', rfl⟩ : ∃ x', ns' = [x'] := List.length_eq_one_iff.1 (by simpa using congrArg List.length h3)
  simp only [List.map_cons, List.map_nil, List.cons.injEq, and_true] at h3
  obtain ⟨M, hM⟩ := hx.text.doc
  refine ⟨text, ⟨N + M, fun n hle => ?_⟩, fun h' => ?_⟩
  · have := h1 n (by omega)
    simp only [hM n (by omega)] at this
    simp only [serToString, hn.ser, this]
  · obtain ⟨_, N', h4⟩ := (h2 h').1
    refine ⟨N', fun n hle => ?_⟩
    have he : eraseMeta x' = eraseMeta x := by
      rw [← erase_meta x', ← Node.noPos_erase x', h3, Node.erase_erase, erase_meta]
    have hde : de h' f t x' = .ok v := by
      refine (C56_ignores_pos_and_tag t x' x he v).2 ?_
      rw [de_seed h t ht]
      exact hx.de
    simp only [fromStr, show parse h' n text = .ok [x'] from h4 n hle, deDocs, hde]
    rfl

/-! ### The hypotheses are met -/

/-- `f64` prints `2` for two (as Rust does): such exact formatters exist. -/
theorem exact_two : ∃ f : FloatFmt, f.Exact ∧ f.fmt (Node.f64OfInt 2) = b!"2" := by
  classical
  obtain ⟨f, hf⟩ := FloatFmt.exact_exists
  refine ⟨⟨fun x => if x = Node.f64OfInt 2 then b!"2" else f.fmt x, f.fmt32⟩, ⟨fun x hx => ?_, fun x => ?_⟩, by simp⟩
  · by_cases he : x = Node.f64OfInt 2
    · simp only [he, if_true]; decide +kernel
    · simp only [he, if_false]; exact hf.back x hx
  · by_cases he : x = Node.f64OfInt 2
    · simp only [he, if_true]; decide +kernel
    · simp only [he, if_false]; exact hf.total x

/-- `{id: 65535, tags: ["a", "", "-12", "true"], shape: Box(-128, Some('x')), at: (2.0, ())}` -/
def textVal : Val := .struct
  [(b!"id", .int .u16 65535), (b!"tags", .seq [.str b!"a", .str [], .str b!"-12", .str b!"true"]),
   (b!"shape", .variant b!"Box" (.tuple [.int .i8 (-128), .some (.char 'x')])),
   (b!"at", .tuple [.f64 (Node.f64OfInt 2), .unit])]

theorem textVal_printable (hfm : f.fmt (Node.f64OfInt 2) = b!"2") (cfg : DumpCfg) : textVal.printable f cfg false := by
  have w : ∀ {T : Bytes}, isWord T = true → (∀ kv ∈ keywords, kv.1 ≠ T) → LineStr T := fun h hk => lineStr_word h hk
  have e : LineStr [] := .quoted (B := []) (E := []) (by simp) (.inl rfl) (by simp) (by simp)
  simp only [textVal, Val.printable, VVal.printable, printableFields, printableField, printableAll]
  refine ⟨by simp, ⟨w (by decide) (by decide), trivial⟩, ⟨w (by decide) (by decide), by simp, .inl (w (by decide) (by decide)),
      .inl e, .inr (.inr (.inr (.inr ⟨_, .inl (.int (sg := b!"-") (d := b!"12") (.inr rfl) ⟨by simp, by decide⟩)⟩))),
      .inr (.inr (.inl (by simp))), trivial⟩,
    ⟨w (by decide) (by decide), w (by decide) (by decide), by simp, trivial, ?_, trivial⟩,
    ⟨w (by decide) (by decide), by simp, ?_, trivial, trivial⟩, trivial⟩
  · refine .inl (w (T := String.utf8EncodeChar 'x') (by decide) (by decide))
  · exact .inr ⟨[], b!"2", 2, hfm, .inl rfl, ⟨by simp, by decide⟩, by rw [hfm]; decide, rfl⟩

theorem textVal_hasTy : HasTy sampleTy textVal := by
  simp only [sampleTy, textVal, HasTy, HasFields, HasField, HasVariant, HasVariant1, HasPayload, HasTys]
  simp [HasTy]
  exact ⟨by decide, by decide, roundF64_canonical _ _ (by simp)⟩

theorem textVal_survives : textVal.survives f := by
  simp only [textVal, Val.survives, survivesFields, survivesField, survivesAll, VVal.survives, Val.nullish]
  simp

theorem sampleTy_wf : sampleTy.wf := by
  simp only [sampleTy, Ty.wf, fieldsWf, fieldWf, variantsWf, variantWf, payloadWf, tysWf]
  decide

example : ∃ (f : FloatFmt) (text : Bytes), (∃ N, ∀ n, N ≤ n → serToString .exact f unix n textVal = some (.ok text)) ∧
    ∀ h', ∃ N, ∀ n, N ≤ n → fromStr h' f n sampleTy text = some (.ok [textVal]) := by
  obtain ⟨f, hf, hfm⟩ := exact_two
  exact ⟨f, C55_text_round_trip hf unix sampleTy_wf textVal_hasTy textVal_survives (textVal_printable hfm unix)⟩

/-- What is written like a number begins with a digit or a minus sign. -/
theorem numberStr_head {c : UInt8} {s : Bytes} (hn : NumberStr (c :: s)) : isDigit c = true ∨ c = 0x2D := by
  have key : ∀ {κ : EndKind} {T : Bytes} {y : Yaml}, ScalarText κ T y → (y = .int T ∨ y = .float T) →
      ∀ c, T.head? = some c → isDigit c = true ∨ c = 0x2D := by
    intro κ T y hT hy c hc
    have dg : ∀ {sg d r : Bytes}, IsSign sg → IsDigits d → (sg ++ (d ++ r)).head? = some c → isDigit c = true ∨ c = 0x2D := by
      rintro sg d r (rfl | rfl) hd hc
      · rcases d with _ | ⟨x, d⟩
        · exact (hd.1 rfl).elim
        · simp at hc; exact .inl (hd.2 c (by simp [hc]))
      · simp at hc; exact .inr hc.symm
    cases hT with
    | plain => simp at hy
    | keyword hk =>
      have : ∀ kv ∈ keywords, kv.2 ≠ .int kv.1 ∧ kv.2 ≠ .float kv.1 := by decide +kernel
      rcases hy with hy | hy
      · exact ((this _ hk).1 hy).elim
      · exact ((this _ hk).2 hy).elim
    | int hsg hd => exact dg (r := []) hsg hd (by simpa using hc)
    | hex => simp at hc; subst hc; exact .inl (by decide)
    | oct => simp at hc; subst hc; exact .inl (by decide)
    | float hsg hd => exact dg hsg hd (by rw [← List.append_assoc]; exact hc)
    | sci hsg hd =>
      rename_i es ed e _ _ _
      exact dg (r := e :: es ++ ed) hsg hd (by rw [← List.append_assoc]; simpa using hc)
    | single => simp at hy
    | double => simp at hy
    | singleFold => simp at hy
    | doubleFold => simp at hy
  obtain ⟨κ, h1 | h1⟩ := hn
  · exact key h1 (.inl rfl) c rfl
  · exact key h1 (.inr rfl) c rfl

/-- `{(7, "a"): true, (7, "b"): false}` -/
def tupleKeys : Val := .map [(.tuple [.int .u8 7, .str b!"a"], .bool true), (.tuple [.int .u8 7, .str b!"b"], .bool false)]

example (hf : f.Exact) (cfg : DumpCfg) : ∃ text, (∃ N, ∀ n, N ≤ n → serToString h f cfg n tupleKeys = some (.ok text)) ∧
    ∀ h', ∃ N, ∀ n, N ≤ n → fromStr h' f n (.map (.tuple [.int .u8, .str]) .bool) text = some (.ok [tupleKeys]) := by
  have w : ∀ {T : Bytes}, isWord T = true → (∀ kv ∈ keywords, kv.1 ≠ T) → LineStr T := fun h hk => lineStr_word h hk
  refine C55_text_round_trip hf cfg ?_ ?_ ?_ ?_
  · simp [Ty.wf, Ty.keyOk, tysWf, tysKeyOk]
  · simp [tupleKeys, HasTy, HasTys]
    decide
  · simp [tupleKeys, Val.survives, survivesEntries, survivesEntry, survivesAll]
  · simp only [tupleKeys, Val.printable, printableEntries, printableEntry, printableAll, Val.plain, plainAll]
    refine ⟨by simp, ⟨⟨⟨trivial, ⟨by simp, by simp, fun hn => ?_⟩, trivial⟩, by simp, trivial, .inl (w (by decide) (by decide)), trivial⟩, trivial⟩,
      ⟨⟨⟨trivial, ⟨by simp, by simp, fun hn => ?_⟩, trivial⟩, by simp, trivial, .inl (w (by decide) (by decide)), trivial⟩, trivial⟩, trivial⟩
    · exact absurd (numberStr_head hn) (by decide)
    · exact absurd (numberStr_head hn) (by decide)

/-! ### What does not come back -/

theorem toString_of {cfg : DumpCfg} {v : Val} {n0 : Node} {text : Bytes} (h1 : ser h f v = .ok n0)
    (h2 : Ends (fun n => dump cfg n [n0] []) (.ok text)) :
    ∃ N, ∀ n, N ≤ n → serToString h f cfg n v = some (.ok text) := by
  obtain ⟨_, N, hN⟩ := h2
  refine ⟨N, fun n hn => ?_⟩
  have := hN n hn
  simp only at this
  simp only [serToString, h1, this]

theorem fromStr_of {t : Ty} {ns : List Node} {text : Bytes} {r : SRes (List Val)} (h1 : Ends (fun n => parse h n text) (.ok ns))
    (h2 : deDocs h f t ns = r) : ∃ N, ∀ n, N ≤ n → fromStr h f n t text = some r := by
  obtain ⟨_, N, hN⟩ := h1
  refine ⟨N, fun n hn => ?_⟩
  have := hN n hn
  simp only at this
  simp only [fromStr, this, h2]

/-- **C55, counterexample.** The string `~` comes back as the string `null`. -/
theorem C55_counterexample_tilde (cfg : DumpCfg) :
    (∃ N, ∀ n, N ≤ n → serToString h f cfg n (.str b!"~") = some (.ok (b!"~" ++ cfg.nl))) ∧
    ∃ N, ∀ n, N ≤ n → fromStr h f n .str (b!"~" ++ cfg.nl) = some (.ok [.str b!"null"]) := by
  obtain ⟨h1, h2, _⟩ := C40_counterexample_keywords cfg b!"~" .null (by simp [keywords])
  exact ⟨toString_of rfl h1, fromStr_of (h2 h).1 rfl⟩

/-- **C55, counterexample.** `Some("null")` comes back as `None`. -/
theorem C55_counterexample_some_null (cfg : DumpCfg) :
    (∃ N, ∀ n, N ≤ n → serToString h f cfg n (.some (.str b!"null")) = some (.ok (b!"null" ++ cfg.nl))) ∧
    ∃ N, ∀ n, N ≤ n → fromStr h f n (.option .str) (b!"null" ++ cfg.nl) = some (.ok [.none]) := by
  obtain ⟨h1, h2, _⟩ := C40_counterexample_keywords cfg b!"null" .null (by simp [keywords])
  exact ⟨toString_of rfl h1, fromStr_of (h2 h).1 rfl⟩

/-- **C55, counterexample.** An empty vector is printed as an empty line, which is no sequence. -/
theorem C55_counterexample_empty_seq (t : Ty) :
    (∃ N, ∀ n, N ≤ n → serToString h f unix n (.seq []) = some (.ok b!"\n")) ∧
    ∃ N, ∀ n, N ≤ n → fromStr .exact f n (.seq t) b!"\n" = some (.err .invalidType 0) :=
  ⟨toString_of rfl C40_counterexample_empty_seq.1, fromStr_of C40_counterexample_empty_seq.2 rfl⟩

/-- **C55, counterexample.** The string `a: b` is printed as a map, which is no string. -/
theorem C55_counterexample_colon :
    (∃ N, ∀ n, N ≤ n → serToString h f unix n (.str b!"a: b") = some (.ok b!"a: b\n")) ∧
    ∃ N, ∀ n, N ≤ n → fromStr .exact f n .str b!"a: b\n" = some (.err .invalidType 0) :=
  ⟨toString_of rfl C40_counterexample_colon.1, fromStr_of C40_counterexample_colon.2 rfl⟩

/-- **C55, counterexample.** NaN, which Rust prints as `NaN`, comes back as a string: reading fails. -/
theorem C55_counterexample_nan (hfm : f.fmt .nan = b!"NaN") :
    (∃ N, ∀ n, N ≤ n → serToString h f unix n (.f64 .nan) = some (.ok b!"NaN\n")) ∧
    ∃ N, ∀ n, N ≤ n → fromStr .exact f n .f64 b!"NaN\n" = some (.err .invalidType 0) := by
  refine ⟨toString_of (n0 := .ofYaml (.float b!"NaN")) (by simp [ser, hfm])
    (dump_returns_of (n := 30) (by decide +kernel) (by simp)), ?_⟩
  exact fromStr_of (ns := [.mk 0 [] (.str b!"NaN")]) (parse_returns_of (n := 30) (by decide +kernel) (by simp)) rfl

end

end YamlPeg.Props
