import Verif.Proof.InOrder
import Verif.Spec.Amount
import Verif.Props.InOrder
/-!
# All texts of a result together are no longer than the document: C86
-/

namespace YamlPeg.Props
open YamlPeg M

/-- **C86.** The texts of all the integers, floats, aliases and strings that `parse_cyclic` returns, over all documents
and however deep, the strings without the white space at their ends, are together no longer than the document (three
times as long, if the document is not ASCII). -/
theorem C86_amount (h : HashCfg) (n : Nat) (doc : Bytes) (roots : List Node) (anchors : List Anchors)
    (hp : parseCyclic h n doc = .ok (roots, anchors)) : amountL roots ≤ spread doc * doc.length :=
  (parseCyclic_span hp).2.2.2

/-- **C86.** In so many words for a document of ASCII. -/
theorem C86_ascii (h : HashCfg) (n : Nat) (doc : Bytes) (hd : ∀ c ∈ doc, c < 0x80) (roots : List Node)
    (anchors : List Anchors) (hp : parseCyclic h n doc = .ok (roots, anchors)) : amountL roots ≤ doc.length := by
  have := C86_amount h n doc roots anchors hp
  rwa [spread, if_pos hd, Nat.one_mul] at this

/-- **C86.** The same of `parse`, for a text without aliases. -/
theorem C86_parse_without_aliases (h : HashCfg) (n : Nat) (doc : Bytes) (hs : (0x2A : UInt8) ∉ doc) (roots : List Node)
    (hp : parse h n doc = .ok roots) : amountL roots ≤ spread doc * doc.length := by
  rw [C12_agree h doc hs] at hp
  rcases ho : parseCyclic h n doc with ⟨v, t⟩ | _ | _ | _
  · rw [ho] at hp
    cases hp
    exact C86_amount h n doc v t ho
  all_goals rw [ho] at hp; cases hp

/-- **C86.** The part of a single node: the texts inside one that `parse_cyclic` returns are no longer than the
document. -/
theorem C86_node (h : HashCfg) (n : Nat) (doc : Bytes) (roots : List Node) (anchors : List Anchors)
    (hp : parseCyclic h n doc = .ok (roots, anchors)) : ∀ root ∈ roots, root.amount ≤ spread doc * doc.length :=
  fun _ hr => Nat.le_trans (amountL_le hr) (C86_amount h n doc roots anchors hp)

/-- The texts of a document with four leaves and a key. -/
example : parseCyclic .exact 40 b!"- 12\n- *kk\n- ab:\n  'c d'\n" =
      .ok ([.mk 0 [] (.seq [.mk 2 [] (.int b!"12"), .mk 7 [] (.alias b!"kk"),
        .mk 13 [] (.map [(.mk 13 [] (.str b!"ab"), .mk 16 [] (.str b!"c d"))])])], [[]]) ∧
    amountL [.mk 0 [] (.seq [.mk 2 [] (.int b!"12"), .mk 7 [] (.alias b!"kk"),
        .mk 13 [] (.map [(.mk 13 [] (.str b!"ab"), .mk 16 [] (.str b!"c d"))])])] = 9 := by
  constructor <;> decide +kernel

/-- **C86, counterexample.** With aliases it is false of `parse`: they copy the text they stand for. -/
theorem C86_counterexample_aliases : ∃ roots, parse .exact 40 b!"[&a xxxxxxxxxx, *a, *a, *a]\n" = .ok roots ∧
    (∀ c ∈ b!"[&a xxxxxxxxxx, *a, *a, *a]\n", c < 0x80) ∧ b!"[&a xxxxxxxxxx, *a, *a, *a]\n".length < amountL roots := by
  refine ⟨[.mk 0 [] (.seq [.mk 4 [] (.str b!"xxxxxxxxxx"), .mk 16 [] (.str b!"xxxxxxxxxx"), .mk 20 [] (.str b!"xxxxxxxxxx"),
    .mk 24 [] (.str b!"xxxxxxxxxx")])], ?_, ?_, ?_⟩ <;> decide +kernel

/-- **C86, counterexample.** The factor is needed: of a text that is not UTF-8, such as `[\xFF\xFF\xFF]`, every wrong byte
becomes the three bytes of `U+FFFD`. -/
theorem C86_counterexample_not_utf8 : ∃ roots, parseCyclic .exact 40 [0x5B, 0xFF, 0xFF, 0xFF, 0x5D, 0x0A] = .ok (roots, [[]]) ∧
    6 < amountL roots := by
  refine ⟨[.mk 0 [] (.seq [.mk 1 [] (.str [0xEF, 0xBF, 0xBD, 0xEF, 0xBF, 0xBD, 0xEF, 0xBF, 0xBD])])], ?_, ?_⟩ <;>
    decide +kernel

end YamlPeg.Props
