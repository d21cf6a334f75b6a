import Verif.Proof.Debug
import Verif.Props.Nodes
/-!
# C67: what `{:?}` shows

`EscapesWell cfg` is the contract of `char::escape_debug` for non-ASCII characters (each
one stays or becomes `\u{..}` with its code point; which one it is depends on Unicode
tables, and the theorems hold for every choice).  `ValidTexts` says that the texts of a
node are valid UTF-8, which Rust's `String` guarantees.
-/

namespace YamlPeg.Props
open YamlPeg

/-- **C67.** The `{:?}` text of a node shows its data completely, and nothing else: two nodes
have the same text exactly if they have the same data — kinds, texts of the scalars, items
and entries in their order — wherever they stand and whatever their tags are. -/
theorem C67_debug_shows_the_data (cfg : DumpCfg) (hc : EscapesWell cfg) (a c : Node) (ha : ValidTexts a)
    (hc' : ValidTexts c) : a.debug cfg = c.debug cfg ↔ a.dataOnly = c.dataOnly := by
  constructor
  · intro h
    exact (debug_unique hc a c [] [] ha hc' (by simpa using h)).1
  · intro h
    rw [← debug_dataOnly cfg a, ← debug_dataOnly cfg c, h]

mutual
theorem dataOnly_eq : ∀ a : Node, a.dataOnly = eraseMeta a
  | .mk _ _ y => by simp only [Node.dataOnly, eraseMeta, dataOnlyY_eq y]
theorem dataOnlyY_eq : ∀ a : Yaml, a.dataOnly = eraseMetaY a
  | .null => rfl
  | .bool _ => rfl
  | .int _ => rfl
  | .float _ => rfl
  | .str _ => rfl
  | .alias _ => rfl
  | .seq l => by simp only [Yaml.dataOnly, eraseMetaY, dataOnlyL_eq l]
  | .map m => by simp only [Yaml.dataOnly, eraseMetaY, dataOnlyM_eq m]
theorem dataOnlyL_eq : ∀ a : List Node, dataOnlyL a = eraseMetaL a
  | [] => rfl
  | x :: xs => by simp only [dataOnlyL, eraseMetaL, dataOnly_eq x, dataOnlyL_eq xs]
theorem dataOnlyM_eq : ∀ a : List (Node × Node), dataOnlyM a = eraseMetaM a
  | [] => rfl
  | (k, v) :: xs => by
    simp only [dataOnlyM, dataOnlyE, eraseMetaM, eraseMetaE, dataOnly_eq k, dataOnly_eq v, dataOnlyM_eq xs]
end

/-- **C67.** Nodes that print alike are equal, for every comparison there is: `==` gives the
same answer (or the same panic) for one as for the other, against any third node; and `true`
between the two if their numbers can be read. -/
theorem C67_same_text_equal (cfg : DumpCfg) (hc : EscapesWell cfg) (a c : Node) (ha : ValidTexts a)
    (hc' : ValidTexts c) (h : a.debug cfg = c.debug cfg) :
    (∀ d, Node.eq? a d = Node.eq? c d ∧ Node.eq? d a = Node.eq? d c) ∧ (Readable a → Node.eq? a c = .ok true) := by
  have e := (C67_debug_shows_the_data cfg hc a c ha hc').1 h
  rw [dataOnly_eq, dataOnly_eq] at e
  refine ⟨fun d => ⟨C32_ignores_pos_and_tag _ _ _ _ e rfl, C32_ignores_pos_and_tag _ _ _ _ rfl e⟩, fun hr => ?_⟩
  rw [← C32_refl a hr]
  exact C32_ignores_pos_and_tag _ _ _ _ rfl e.symm

/-- **C67, the other direction is false.** Equal nodes may print differently: a number prints
as it is written. -/
theorem C67_counterexample_equal : ∃ a c : Node, Node.eq? a c = .ok true ∧ ∀ cfg, a.debug cfg ≠ c.debug cfg :=
  ⟨.ofYaml (.int b!"16"), .ofYaml (.int b!"0x10"), by decide, fun cfg => by
    simp [Node.ofYaml, Node.debug, Yaml.debug, debugTuple, debugStr, chars, charsAux, utf8Step, escDebugChar]⟩

/-- Printing every non-ASCII character as it is meets the contract. -/
theorem asItIs (w : Bool) : EscapesWell { windows := w, escNonAscii := id } := fun _ _ _ => .inl rfl

/-- So does escaping all of them. -/
theorem allEscaped (w : Bool) :
    EscapesWell { windows := w, escNonAscii := fun ch => b!"\\u{" ++ natHex (codePoint ch) ++ b!"}" } :=
  fun _ _ _ => .inr rfl

/-- Non-vacuity: the text of a nested node (`{"a\n": [1, null]}` at some position, with a tag). -/
example : (Node.mk 7 b!"t" (.map [(.ofYaml (.str b!"a\n"), .ofYaml (.seq [.ofYaml (.int b!"1"), .ofYaml .null]))])).debug
      { windows := false, escNonAscii := id } =
    b!"NodeMap({NodeStr(\"a\\n\"): NodeSeq([NodeInt(\"1\"), NodeNull])})" := by decide +kernel

example : ValidTexts (.ofYaml (.seq [.ofYaml (.str [0xC3, 0xA9]), .ofYaml (.int b!"1")])) := by
  rw [Node.ofYaml, validTexts_mk]
  refine ⟨fun s h => by simp [Yaml.ownText] at h, fun x hx => ?_⟩
  simp only [List.mem_cons, List.not_mem_nil, or_false] at hx
  rcases hx with rfl | rfl
  · rw [Node.ofYaml, validTexts_mk]
    refine ⟨fun s h => ?_, trivial⟩
    simp only [Yaml.ownText, Option.some.injEq] at h
    subst h
    exact (validUtf8_iff _).1 (by decide)
  · rw [Node.ofYaml, validTexts_mk]
    refine ⟨fun s h => ?_, trivial⟩
    simp only [Yaml.ownText, Option.some.injEq] at h
    subst h
    exact (validUtf8_iff _).1 (by decide)

/-- **C67.** The text is self-delimiting: whatever is printed behind a node, the text of the
node can be told from it.  So a log of several nodes, one after the other, is unambiguous. -/
theorem C67_debug_self_delimiting (cfg : DumpCfg) (hc : EscapesWell cfg) (a c : Node) (ha : ValidTexts a)
    (hc' : ValidTexts c) (r r' : Bytes) (h : a.debug cfg ++ r = c.debug cfg ++ r') :
    a.dataOnly = c.dataOnly ∧ r = r' := debug_unique hc a c r r' ha hc' h

/-- **C67.** The text of a deserialization error tells its message and its position. -/
theorem C67_serde_error_text (cfg : DumpCfg) (hc : EscapesWell cfg) (m m' : Bytes) (p p' : Nat) (hm : Utf8 m)
    (hm' : Utf8 m') (h : serdeErrorText cfg m p = serdeErrorText cfg m' p') : m = m' ∧ p = p' := by
  simp only [serdeErrorText, List.append_assoc, List.append_cancel_left_eq] at h
  obtain ⟨h1, h2⟩ := debugStr_unique hc hm hm' h
  rw [List.append_cancel_left_eq] at h2
  refine ⟨h1, ?_⟩
  have h3 := List.append_cancel_right h2
  have h4 := digitsVal_natDec p
  rw [h3, digitsVal_natDec p'] at h4
  exact (Option.some.inj h4).symm

/-- **C67.** The `{:?}` text of a parse error tells its name and its message. -/
theorem C67_parse_error_text (cfg : DumpCfg) (hc : EscapesWell cfg) (n n' : String) (m m' : Bytes) (hn : Utf8 n.toUTF8.toList)
    (hn' : Utf8 n'.toUTF8.toList) (hm : Utf8 m) (hm' : Utf8 m')
    (h : PErr.debug cfg (.terminate n m) = PErr.debug cfg (.terminate n' m')) : n.toUTF8.toList = n'.toUTF8.toList ∧ m = m' := by
  simp only [PErr.debug, List.append_assoc, List.append_cancel_left_eq] at h
  obtain ⟨h1, h2⟩ := debugStr_unique hc hn hn' h
  rw [List.append_cancel_left_eq] at h2
  obtain ⟨h3, _⟩ := debugStr_unique hc hm hm' h2
  exact ⟨h1, h3⟩

/-- Non-vacuity: both texts. -/
example : serdeErrorText { windows := false, escNonAscii := id } b!"bad" 12 = b!"SerdeError { msg: \"bad\", pos: 12 }" ∧
    PErr.debug { windows := false, escNonAscii := id } (.terminate "x" b!"(1:2)\n") =
      b!"Terminate { name: \"x\", msg: \"(1:2)\\n\" }" := by decide +kernel

/-- **C67.** The `{:?}` text of a node is one line of printable text: it has no control
characters in it, whatever the texts of the node hold. -/
theorem C67_one_line (cfg : DumpCfg) (hc : EscapesWell cfg) (a : Node) (ha : ValidTexts a) :
    ∀ b ∈ a.debug cfg, 0x20 ≤ b ∧ b ≠ 0x7F := debug_line hc a ha

/-- **C67, the indented form.** `{:#?}` of a node is its `{:?}` text: a node is never
indented. -/
theorem C67_indented_node (cfg : DumpCfg) (a : Node) : a.debugAlt cfg = a.debug cfg := nodeAlt_eq cfg a

/-- **C67, the indented form.** `{:#?}` of a value shows the data as completely: two values
have the same text exactly if they have the same data. -/
theorem C67_indented_shows_the_data (cfg : DumpCfg) (hc : EscapesWell cfg) (a c : Yaml) (p q : Nat) (s t : Bytes)
    (ha : ValidTexts (.mk p s a)) (hc' : ValidTexts (.mk q t c)) :
    a.debugAlt cfg = c.debugAlt cfg ↔ (Node.mk p s a).dataOnly = (Node.mk q t c).dataOnly := by
  constructor
  · intro h
    simp only [Node.dataOnly, yamlAlt_unique hc a c (validTexts_mk.1 ha) (validTexts_mk.1 hc') h]
  · intro h
    simp only [Node.dataOnly, Node.mk.injEq, true_and] at h
    rw [← yamlAlt_dataOnly cfg a, ← yamlAlt_dataOnly cfg c, h]

/-- **C67, the indented form of an error.** `{:#?}` (and, for a deserialization error, `{:#}`)
tells the same as `{:?}`. -/
theorem C67_indented_errors (cfg : DumpCfg) (hc : EscapesWell cfg) (m m' : Bytes) (hm : Utf8 m) (hm' : Utf8 m') :
    (∀ p p', serdeErrorTextAlt cfg m p = serdeErrorTextAlt cfg m' p' → m = m' ∧ p = p') ∧
    ∀ n n' : String, Utf8 n.toUTF8.toList → Utf8 n'.toUTF8.toList →
      PErr.debugAlt cfg (.terminate n m) = PErr.debugAlt cfg (.terminate n' m') → n.toUTF8.toList = n'.toUTF8.toList ∧ m = m' := by
  have pair : ∀ {a c d e : Bytes}, altField a ++ altField c = altField d ++ altField e → a ++ b!",\n" ++ (c ++ b!",\n") = d ++ b!",\n" ++ (e ++ b!",\n") := by
    intro a c d e h
    have h2 := altFields_eq [a, c]
    have h3 := altFields_eq [d, e]
    simp only [List.map_cons, List.map_nil, List.flatten_cons, List.flatten_nil, List.append_nil] at h2 h3
    exact padLines_inj _ _ _ (by rw [← h2, ← h3, h])
  constructor
  · intro p p' h
    simp only [serdeErrorTextAlt, List.append_assoc, List.append_cancel_left_eq] at h
    have h2 := pair (List.append_cancel_right (by simpa only [List.append_assoc] using h))
    simp only [List.append_assoc, List.append_cancel_left_eq] at h2
    obtain ⟨h1, h2⟩ := debugStr_unique hc hm hm' h2
    simp only [List.append_cancel_left_eq] at h2
    refine ⟨h1, ?_⟩
    have h3 := List.append_cancel_right h2
    have h4 := digitsVal_natDec p
    rw [h3, digitsVal_natDec p'] at h4
    exact (Option.some.inj h4).symm
  · intro n n' hn hn' h
    simp only [PErr.debugAlt, List.append_assoc, List.append_cancel_left_eq] at h
    have h2 := pair (List.append_cancel_right (by simpa only [List.append_assoc] using h))
    simp only [List.append_assoc, List.append_cancel_left_eq] at h2
    obtain ⟨h1, h2⟩ := debugStr_unique hc hn hn' h2
    simp only [List.append_cancel_left_eq] at h2
    exact ⟨h1, (debugStr_unique hc hm hm' h2).1⟩

/-- Non-vacuity: indented texts. -/
example : (Yaml.map [(.ofYaml (.str b!"a\n"), .ofYaml (.seq [.ofYaml (.int b!"1"), .ofYaml .null]))]).debugAlt
      { windows := false, escNonAscii := id } =
    b!"Map(\n    {\n        NodeStr(\"a\\n\"): NodeSeq([NodeInt(\"1\"), NodeNull]),\n    },\n)" ∧
    (Yaml.seq []).debugAlt { windows := false, escNonAscii := id } = b!"Seq(\n    [],\n)" ∧
    serdeErrorTextAlt { windows := false, escNonAscii := id } b!"bad" 12 =
      b!"SerdeError {\n    msg: \"bad\",\n    pos: 12,\n}" := by decide +kernel

end YamlPeg.Props
