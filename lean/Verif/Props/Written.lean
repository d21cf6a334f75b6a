import Verif.Proof.InOrder
import Verif.Spec.Written
import Verif.Props.InOrder
import Verif.Props.Twice
/-!
# Numbers and aliases stand in the text, strings are no longer than theirs: C85
-/

namespace YamlPeg.Props
open YamlPeg M

/-- **C85.** Every integer, float and alias that `parse_cyclic` returns, however deep, was read from a text that stands
in the document, at the position of its node or behind it; and every string, without the white space at its end, is no
longer than the document from there (three times as long, if the document is not ASCII). -/
theorem C85_written (h : HashCfg) (n : Nat) (doc : Bytes) (roots : List Node) (anchors : List Anchors)
    (hp : parseCyclic h n doc = .ok (roots, anchors)) :
    ∀ root ∈ roots, ∀ m, Occurs m root → WrittenY doc m.pos doc.length m.yaml :=
  fun root hr m hm => ((parseCyclic_span hp).1 root hr m hm).2.2

/-- **C85.** The texts follow the order of the results: those of an item end before everything in the items behind it,
those of a key before everything in its value, those of an entry before the values behind it, those of a document
before the next one. -/
theorem C85_clear (h : HashCfg) (n : Nat) (doc : Bytes) (roots : List Node) (anchors : List Anchors)
    (hp : parseCyclic h n doc = .ok (roots, anchors)) :
    (∀ root ∈ roots, ∀ m, Occurs m root → ClearHere doc m) ∧ roots.Pairwise (Node.Clear doc) :=
  ⟨fun root hr m hm => ((parseCyclic_span hp).1 root hr m hm).2.1, (parseCyclic_span hp).2.1⟩

/-- **C85.** The same of `parse`, for a text without aliases. -/
theorem C85_parse_without_aliases (h : HashCfg) (n : Nat) (doc : Bytes) (hs : (0x2A : UInt8) ∉ doc) (roots : List Node)
    (hp : parse h n doc = .ok roots) :
    (∀ root ∈ roots, ∀ m, Occurs m root → WrittenY doc m.pos doc.length m.yaml ∧ ClearHere doc m) ∧
      roots.Pairwise (Node.Clear doc) := by
  rw [C12_agree h doc hs] at hp
  rcases ho : parseCyclic h n doc with ⟨v, t⟩ | _ | _ | _
  · rw [ho] at hp
    cases hp
    exact ⟨fun root hr m hm => ⟨C85_written h n doc v t ho root hr m hm, (C85_clear h n doc v t ho).1 root hr m hm⟩,
      (C85_clear h n doc v t ho).2⟩
  all_goals rw [ho] at hp; cases hp

/-- The claims are about documents such as this one, with an integer, a float, a float in a word and an alias. -/
example : parseCyclic .exact 40 b!"- &k 12\n- *k\n- 2.50: .inf\n" =
    .ok ([.mk 0 [] (.seq [.mk 5 [] (.int b!"12"), .mk 10 [] (.alias b!"k"),
      .mk 15 [] (.map [(.mk 15 [] (.float b!"2.50"), .mk 21 [] (.float b!"inf"))])])],
      [[(b!"k", .mk 5 [] (.int b!"12"))]]) := by decide +kernel

/-- The texts in it. -/
example : WrittenY b!"- &k 12\n- *k\n- 2.50: .inf\n" 5 7 (.int b!"12") ∧
    WrittenY b!"- &k 12\n- *k\n- 2.50: .inf\n" 10 12 (.alias b!"k") ∧
    WrittenY b!"- &k 12\n- *k\n- 2.50: .inf\n" 15 19 (.float b!"2.50") :=
  ⟨⟨5, b!"12", b!"\n- *k\n- 2.50: .inf\n", by decide, ⟨[], 0x0A, b!"- *k\n- 2.50: .inf\n", by decide,
      .inl ⟨[], b!"12", .inl rfl, by decide, by decide, rfl⟩, by simp [Over], by decide, by decide⟩, by decide, by decide⟩,
    ⟨10, b!"\n- 2.50: .inf\n", by decide, ⟨⟨_, _, rfl, by decide, by decide⟩, by rintro _ _ ⟨⟩; decide⟩, by decide, by decide⟩,
    .inr ⟨15, b!"2.50", b!": .inf\n", by decide, .inl ⟨b!"2", b!"50", [], by decide,
      ⟨[], b!"2", .inl rfl, by decide, by decide, rfl⟩, by decide,
      ⟨⟨by simp [Over], by rintro _ _ ⟨⟩; decide⟩, .inr ⟨rfl, _, _, rfl, by decide⟩⟩, .inr (by decide)⟩, by decide, by decide⟩⟩

/-- A string that needs all its room, and one that takes line breaks from behind it. -/
example : parseCyclic .exact 40 b!"a\n" = .ok ([.mk 0 [] (.str b!"a")], [[]]) ∧ WrittenY b!"a\n" 0 1 (.str b!"a") ∧
    parseCyclic .exact 40 b!"- |+\n\n\n\n" = .ok ([.mk 0 [] (.seq [.mk 2 [] (.str b!"\n\n\n\n")])], [[]]) := by
  refine ⟨by decide +kernel, ?_, by decide +kernel⟩
  show _ ≤ _
  decide +kernel

/-- What the claim denies can be said: a number that does not stand in the text, … -/
example : ¬ WrittenY b!"[1]" 0 3 (.int b!"2") := by
  rintro ⟨q, t, r, h, ⟨b, _, _, rfl, -⟩, -⟩
  have h1 : (0x32 : UInt8) ∈ b!"[1]".drop q := by rw [h]; simp
  exact absurd (List.mem_of_mem_drop h1) (by decide)

/-- … a number whose text stands in front of its position, … -/
example : ¬ WrittenY b!"[1]" 2 3 (.int b!"1") := by
  rintro ⟨q, t, r, h, ⟨b, _, _, rfl, -⟩, h2, h3⟩
  simp only [List.length_append, List.length_cons, List.length_nil] at h3
  obtain rfl : q = 2 := by omega
  cases h

/-- … a string for which there is no room, … -/
example : ¬ WrittenY b!"[ab]" 2 4 (.str b!"abc") := fun h =>
  absurd (show (trimEnd b!"abc").length ≤ spread b!"[ab]" * (4 - 2) from h) (by decide +kernel)

/-- … and two numbers read from one text. -/
example : ¬ ClearHere b!"- 12\n" (.mk 0 [] (.seq [.mk 2 [] (.int b!"12"), .mk 3 [] (.int b!"2")])) := by
  intro h
  change List.Pairwise _ _ at h
  obtain ⟨q, t, r, -, ⟨b, _, _, rfl, -⟩, h2, h3⟩ := ((List.pairwise_cons.1 h).1 _ (List.mem_singleton.2 rfl)).2 3
    (by simp [Node.positions]) _ .self
  simp only [List.length_append, List.length_cons, List.length_nil, Node.pos] at h2 h3
  omega

end YamlPeg.Props
