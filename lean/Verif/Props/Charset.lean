import Verif.Props.Loader
import Verif.Proof.CharsetL
import Verif.Props.Directives
/-!
# C50: the parser invents no characters

`chars s` lists the characters of a string, each as its UTF-8 bytes
(`str::chars`), `validUtf8 s` says that `s` is valid UTF-8.
-/

namespace YamlPeg.Props
open YamlPeg YamlPeg.M

/-- `s` is valid UTF-8 and each of its characters is ASCII or occurs in `doc`. -/
def FromDoc (doc s : Bytes) : Prop :=
  validUtf8 s = true ∧ ∀ ch ∈ chars s, (∃ b : UInt8, b < 0x80 ∧ ch = [b]) ∨ ch ∈ chars doc

/-- The strings a user can read off a node (not those of its children): the tag,
and the text of a string, number or alias. -/
def NodeStrings (m : Node) (s : Bytes) : Prop :=
  s = m.tagOf ∨ m.yaml = .str s ∨ m.yaml = .int s ∨ m.yaml = .float s ∨ m.yaml = .alias s

/-- The set of characters allowed for `doc`. -/
def docChars (doc : Bytes) (ch : Bytes) : Prop := (∃ b : UInt8, b < 0x80 ∧ ch = [b]) ∨ ch ∈ chars doc

theorem charDoc_docChars {doc : Bytes} (h : validUtf8 doc = true) : CharDoc (docChars doc) doc :=
  ⟨fun b hb => .inl ⟨b, hb, rfl⟩, over_iff_chars.2 ⟨h, fun _ hc => .inr hc⟩⟩

theorem texts_fromDoc {doc : Bytes} {root m : Node} (h : Texts (docChars doc) root) (hm : Occurs m root)
    {s : Bytes} (hs : NodeStrings m s) : FromDoc doc s := by
  obtain ⟨h1, h2⟩ := h m hm
  refine over_iff_chars.1 (?_ : Over (docChars doc) s)
  have asc : ∀ t : Bytes, (∀ x ∈ t, x < 0x80) → Over (docChars doc) t :=
    fun t ht => Over.ascii (fun b hb => .inl ⟨b, hb, rfl⟩) ht
  rcases hs with rfl | hs | hs | hs | hs
  · unfold Node.tagOf
    split
    · split
      · exact asc _ (by decide)
      · exact asc _ (by decide)
      · exact asc _ (by decide)
      · exact asc _ (by decide)
      · exact asc _ (by decide)
      · exact asc _ (by decide)
      · exact asc _ (by decide)
      · exact .nil
    · exact h1
  all_goals exact h2 s (by rw [hs]; rfl)

/-- C50: every string of every node of the result of `parse` is valid UTF-8, and
each of its characters is ASCII or a character of the document: none is
invented, in particular no replacement character. -/
theorem C50_no_invented_characters (h : HashCfg) (n : Nat) (doc : Bytes) (hv : validUtf8 doc = true)
    (roots : List Node) (hp : parse h n doc = .ok roots) :
    ∀ root ∈ roots, ∀ m, Occurs m root → ∀ s, NodeStrings m s → FromDoc doc s := by
  intro root hr m hm s hs
  have hc := charDoc_docChars hv
  obtain ⟨_, _, h3⟩ := loaderParse_cl hc (n := n) (Loader.new h doc) (new_lchars hc h false)
  simp only [parse] at hp
  rw [hp] at h3
  exact texts_fromDoc (h3 root hr) hm hs

/-- C50 for `parse_cyclic`, including the anchor tables and their names. -/
theorem C50_no_invented_characters_cyclic (h : HashCfg) (n : Nat) (doc : Bytes)
    (hv : validUtf8 doc = true) (roots : List Node) (anchors : List Anchors)
    (hp : parseCyclic h n doc = .ok (roots, anchors)) :
    (∀ root ∈ roots, ∀ m, Occurs m root → ∀ s, NodeStrings m s → FromDoc doc s) ∧
    (∀ A ∈ anchors, ∀ name node, mapGet name A = some node →
      FromDoc doc name ∧ ∀ m, Occurs m node → ∀ s, NodeStrings m s → FromDoc doc s) := by
  have hc := charDoc_docChars hv
  obtain ⟨h1, _, h3⟩ := loaderParse_cl hc (n := n) _ (new_lchars hc h true)
  simp only [parseCyclic] at hp
  rcases hr : loaderParse n { Loader.new h doc with cyclicMode := true } with ⟨r, l⟩
  rw [hr] at hp h1 h3
  cases r with
  | ok v =>
    simp only [Out.map, Out.ok.injEq, Prod.mk.injEq] at hp
    obtain ⟨rfl, rfl⟩ := hp
    refine ⟨fun root hroot m hm s hs => texts_fromDoc (h3 root hroot) hm hs, fun A hA k node hg => ?_⟩
    obtain ⟨g1, g2⟩ := (show LChars (docChars doc) doc l from h1).nodes A hA k node hg
    exact ⟨over_iff_chars.1 g1, fun m hm s hs => texts_fromDoc g2 hm hs⟩
  | err e => simp [Out.map] at hp
  | panic p => simp [Out.map] at hp
  | diverge => simp [Out.map] at hp

/-- U+FFFD, what `from_utf8_lossy` puts in place of broken bytes. -/
def replacement : Bytes := [0xEF, 0xBF, 0xBD]

/-- C50: a document without replacement characters gives no replacement
characters. -/
theorem C50_no_replacement_character (h : HashCfg) (n : Nat) (doc : Bytes) (hv : validUtf8 doc = true)
    (hd : replacement ∉ chars doc) (roots : List Node) (hp : parse h n doc = .ok roots) :
    ∀ root ∈ roots, ∀ m, Occurs m root → ∀ s, NodeStrings m s → replacement ∉ chars s := by
  intro root hr m hm s hs hc
  rcases (C50_no_invented_characters h n doc hv roots hp root hr m hm s hs).2 _ hc with ⟨b, _, e⟩ | e
  · simp [replacement] at e
  · exact hd e

/-- Non-vacuity: `- café`, `- '日本'`: a valid document that parses into strings with
two- and three-byte characters. -/
def accents : Bytes :=
  [45, 32, 99, 97, 102, 195, 169, 10, 45, 32, 39, 230, 151, 165, 230, 156, 172, 39, 10]

example : validUtf8 accents = true ∧ replacement ∉ chars accents ∧
    parse .exact 12 accents = .ok [.mk 0 [] (.seq [.mk 2 [] (.str [99, 97, 102, 195, 169]),
      .mk 10 [] (.str [230, 151, 165, 230, 156, 172])])] := by
  decide +kernel

/-- Cutting `日` in the middle would show: half a character becomes U+FFFD. -/
example : chars (lossy [230, 151]) = [replacement] := by decide +kernel

end YamlPeg.Props
