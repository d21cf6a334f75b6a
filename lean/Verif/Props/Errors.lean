import Verif.Model.Message
import Verif.Proof.Mismatch
import Verif.Proof.ErrNames
import Verif.Props.Loader
import Verif.Props.Text
import Verif.Props.Fuel
import Verif.Proof.Hang
/-!
# C65, C66: what the errors of a parse say

`LooseProp doc` (Proof/Mismatch.lean): the text has an anchor or a tag that is not
followed by a blank, a line break or one of `: , [ ] { }`.
`ErrorFits doc name` (Proof/ErrNames.lean): the table of the error names.
-/

namespace YamlPeg.Props
open YamlPeg M

/-! ## C65: the place of an error -/

/-- The text shown for an error of the kind `name` at the position `p` of `doc`. -/
def placedText (doc : Bytes) (name : String) (p : Nat) : Bytes :=
  b!"invalid " ++ name.toUTF8.toList ++ b!": \n\n" ++
    natDec (lineNo doc p) ++ b!":" ++ natDec (colNo doc p) ++ b!"\n" ++
    lossy (lineBefore doc p ++ lineAfter doc p) ++ b!"\n" ++
    List.replicate (colNo doc p - 1) 0x20 ++ b!"^"

theorem placed_of {doc msg : Bytes} {name : String} (h : ∃ p, p ≤ doc.length ∧ indicatedMsg doc p = some msg) :
    ∃ p, p ≤ doc.length ∧ (PErr.terminate name msg).display = placedText doc name p := by
  obtain ⟨p, hp, hm⟩ := h
  refine ⟨p, hp, ?_⟩
  rw [C06_indicated_msg doc p hp] at hm
  simp only [Option.some.injEq] at hm
  rw [← hm]
  simp [PErr.display, placedText]

/-- C65, partial: the text of every error shows line, column and the line itself of a
position of the document, unless a property in the document is not followed by a
boundary. -/
theorem C65_place_partial (h : HashCfg) (n : Nat) (doc : Bytes) (e : PErr) (hl : ¬ LooseProp doc)
    (hp : parse h n doc = .err e ∨ parseCyclic h n doc = .err e) :
    ∃ name p, p ≤ doc.length ∧ e.display = placedText doc name p := by
  cases e with
  | terminate name msg =>
    rcases hp with hp | hp
    · exact ⟨name, placed_of (C08_errors_point_into_document h n doc name msg hp)⟩
    · exact ⟨name, placed_of (C08_errors_point_into_document_cyclic h n doc name msg hp)⟩
  | mismatch =>
    exfalso
    rcases hp with hp | hp
    · exact hl (loaderParse_mis (c := ⟨doc, false, h⟩) (n := n) hp)
    · refine hl (loaderParse_mis (c := ⟨doc, true, h⟩) (n := n) ?_)
      unfold parseCyclic at hp
      show (loaderParse n { Loader.new h doc with cyclicMode := true }).1 = _
      generalize loaderParse n { Loader.new h doc with cyclicMode := true } = x at hp ⊢
      rcases x with ⟨r, l⟩
      cases r with
      | err e => simp only [Out.map, Out.err.injEq] at hp; rw [hp]
      | _ => simp [Out.map] at hp

/-- C65: in particular every document without `&` and `!`. -/
theorem C65_place_without_properties (h : HashCfg) (n : Nat) (doc : Bytes) (e : PErr)
    (ha : 0x26 ∉ doc) (ht : 0x21 ∉ doc) (hp : parse h n doc = .err e ∨ parseCyclic h n doc = .err e) :
    ∃ name p, p ≤ doc.length ∧ e.display = placedText doc name p := by
  refine C65_place_partial h n doc e ?_ hp
  rintro ⟨pre, q, rest, rfl, hq, -⟩
  rcases hq with ⟨a, rfl, -⟩ | ⟨t, rfl, -⟩
  · exact ha (by simp)
  · exact ht (by simp)

/-- The property fails: a document that is an anchor, followed by anything but a
boundary (say, by nothing), ends in an error without a place. -/
theorem C65_counterexample_anchor (h : HashCfg) (a rest : Bytes) (ha : IsIdent a) (hr : IdEnd rest)
    (hb : headIn bnd rest = false) :
    Ends (fun n => parse h n (0x26 :: (a ++ rest))) (.err .mismatch) ∧ PErr.mismatch.display = b!"not matched" := by
  refine ⟨parse_returns_of (n := 1) ?_ (by simp), rfl⟩
  have e : Loader.new h (0x26 :: (a ++ rest)) =
      ld (Loader.new h (0x26 :: (a ++ rest))) (st .start [] [] (0x26 :: (a ++ rest))) := by
    simp [ld, Loader.new, st, Parser.new, Ctx.start]
  show (loaderParse 1 _).1 = _
  rw [e]
  generalize Loader.new h (0x26 :: (a ++ rest)) = L
  rw [loaderParse, bind_ok (directives_none (by omega) (by simp) ..),
    bind_ok (lift_of (orDefault_err (gap_tok _ _ _ (by decide) _)))]
  have hm : symSeq b!"---" (st .start [] [] (0x26 :: (a ++ rest))) =
      (.err .mismatch, st .start [] [] (0x26 :: (a ++ rest))) := by
    rw [symSeq_eq, if_neg (by simp [List.isPrefixOf])]; simp
  rw [bind_ok (lift_of (orDefault_err hm))]
  have hd : (doc 1 (ld L (st .start [] [] (0x26 :: (a ++ rest))))).1 = .err .mismatch := by
    have hb0 : context (orDefault () bound) (st .start [] [] (0x26 :: (a ++ rest))) =
        (.ok (), st .start [] [] (0x26 :: (a ++ rest))) := by
      rw [context_st (o := .ok ()) (p' := []) (m' := []) (post' := 0x26 :: (a ++ rest)) (k' := .start)]
      · simp
      · have : bound (st .start ([] ++ []) [] (0x26 :: (a ++ rest))) =
            (.err .mismatch, st .start ([] ++ []) [] (0x26 :: (a ++ rest))) := by
          rw [bound_eq]; simp [headIn]
        rw [orDefault_err this]; simp
    rw [doc, bind_ok (lift_of hb0), bind_ok (lift_of (forward_st ..)), bind_ok (modify_run ..)]
    have hn : ∀ L : Loader, (scalar 1 0 false false (ld L (st .start [] [] (0x26 :: (a ++ rest))))).1 = .err .mismatch := by
      intro L
      have hne : a ≠ [] := ha.ne
      have : (nodeProps (ld L (st .start [] [] (0x26 :: (a ++ rest))))).1 = .err .mismatch := by
        rw [nodeProps, bind_ok (lift_of (orDefault_ok (anchor_read ha hr ..)))]
        have : (!a.isEmpty) = true := by simpa using hne
        rw [this]
        simp only [runIf, if_true]
        rw [bind_err (lift_of (by rw [bound_eq, if_neg (by simp [hb])]))]
      rw [scalar, scalarNode]
      rcases hx : nodeProps (ld L (st .start [] [] (0x26 :: (a ++ rest)))) with ⟨r, l⟩
      rw [hx] at this
      simp only at this
      subst this
      rw [bind_err hx]
    have := hn { L with anchors := L.anchors ++ [[]] }
    generalize hs : scalar 1 0 false false = f at this ⊢
    have e2 : ({ ld L (st .start ([] ++ []) [] (0x26 :: (a ++ rest))) with
        anchors := (ld L (st .start ([] ++ []) [] (0x26 :: (a ++ rest)))).anchors ++ [[]] } : Loader) =
        ld { L with anchors := L.anchors ++ [[]] } (st .start [] [] (0x26 :: (a ++ rest))) := by
      simp [ld]
    rw [e2]
    rcases hx : f (ld { L with anchors := L.anchors ++ [[]] } (st .start [] [] (0x26 :: (a ++ rest)))) with ⟨r, l⟩
    rw [hx] at this
    simp only at this
    subst this
    rw [bind_err hx]
  rcases hx : doc 1 (ld L (st .start [] [] (0x26 :: (a ++ rest)))) with ⟨r, l⟩
  rw [hx] at hd
  simp only at hd
  subst hd
  rw [bind_err hx]

/-! The hypotheses are met: an anchor at the end of the input, an anchor in front of
a quoted string; and an error with a place. -/

example : Ends (fun n => parse .exact n b!"&a") (.err .mismatch) :=
  (C65_counterexample_anchor .exact b!"a" [] (by simp [IsIdent, headAlnum]; decide) (by intro c r h; simp at h) rfl).1
example : parse .exact 20 b!"- &a \"x\"\n- *b\n" = .err (.terminate "anchor referenced before definition" b!"2:5\n- *b\n    ^") := by
  decide +kernel
example : (PErr.terminate "anchor referenced before definition" b!"2:5\n- *b\n    ^").display =
    placedText b!"- &a \"x\"\n- *b\n" "anchor referenced before definition" 13 := by decide +kernel

/-! ## C66: the kinds of errors -/

/-- C66: every error with a place has one of the names of the table, and blames a
construct only if its sign occurs in the document. -/
theorem C66_error_kinds (h : HashCfg) (n : Nat) (doc : Bytes) (name : String) (msg : Bytes)
    (hp : parse h n doc = .err (.terminate name msg) ∨ parseCyclic h n doc = .err (.terminate name msg)) :
    ErrorFits doc name := by
  rcases hp with hp | hp
  · exact loaderParse_fits (c := ⟨doc, false, h⟩) (n := n) (m := msg) hp
  · refine loaderParse_fits (c := ⟨doc, true, h⟩) (n := n) (m := msg) ?_
    unfold parseCyclic at hp
    show (loaderParse n { Loader.new h doc with cyclicMode := true }).1 = _
    generalize loaderParse n { Loader.new h doc with cyclicMode := true } = x at hp ⊢
    rcases x with ⟨r, l⟩
    cases r with
    | err e => simp only [Out.map, Out.err.injEq] at hp; rw [hp]
    | _ => simp [Out.map] at hp

/-- C66: a document without the signs of YAML fails only by what stands behind its value. -/
theorem C66_plain_text (h : HashCfg) (n : Nat) (doc : Bytes) (e : PErr)
    (hs : ∀ c ∈ doc, c ∉ b!"%&!*[{-:?") (hp : parse h n doc = .err e) :
    ∃ msg, e = .terminate "document splitter" msg := by
  have hno : ∀ c : UInt8, c ∈ b!"%&!*[{-:?" → c ∉ doc := fun c hc hd => hs c hd hc
  cases e with
  | mismatch =>
    obtain ⟨name, p, -, hd⟩ := C65_place_without_properties h n doc .mismatch (hno _ (by decide)) (hno _ (by decide)) (.inl hp)
    simp [PErr.display, placedText] at hd
  | terminate name msg =>
    refine ⟨msg, ?_⟩
    have := C66_error_kinds h n doc name msg (.inl hp)
    have h1 := hno 0x25 (by decide)
    have h2 := hno 0x26 (by decide)
    have h3 := hno 0x2A (by decide)
    have h4 := hno 0x5B (by decide)
    have h5 := hno 0x7B (by decide)
    have h6 := hno 0x2D (by decide)
    have h7 := hno 0x3A (by decide)
    have h8 := hno 0x3F (by decide)
    unfold ErrorFits at this
    simp only [h1, h2, h3, h4, h5, h6, h7, h8, and_false, or_false, or_self] at this
    rw [this]

/-! The names occur, for one document each. -/

example : parse .exact 20 b!"\"x\" y" = .err (.terminate "document splitter" b!"1:4\n\"x\" y\n   ^") := by decide +kernel
example : parse .exact 20 b!"%YAML 1.2\n%YAML 1.2\n---\na" = .err (.terminate "checked version" b!"2:7\n%YAML 1.2\n      ^") := by decide +kernel
example : parse .exact 20 b!"%YAML 1.3\n---\na" = .err (.terminate "invalid version" b!"1:7\n%YAML 1.3\n      ^") := by decide +kernel
example : parse .exact 20 b!"- &a x\n- &a y\n" = .err (.terminate "duplicated anchor definition" b!"2:7\n- &a y\n      ^") := by decide +kernel
example : parse .exact 20 b!"[&a" = .err (.terminate "flow sequence item" b!"1:2\n[&a\n ^") := by decide +kernel
example : parse .exact 20 b!"{&a\"x\": y}" = .err (.terminate "flow map key" b!"1:2\n{&a\"x\": y}\n ^") := by decide +kernel
example : parse .exact 20 b!"{a: &a" = .err (.terminate "flow map value" b!"1:5\n{a: &a\n    ^") := by decide +kernel
example : parse .exact 20 b!"{a b}" = .err (.terminate "flow map splitter" b!"1:5\n{a b}\n    ^") := by decide +kernel
example : parse .exact 20 b!"- x\n- &b" = .err (.terminate "sequence item" b!"2:3\n- &b\n  ^") := by decide +kernel
example : parse .exact 20 b!"- \"x\" y\n" = .err (.terminate "sequence terminator" b!"1:6\n- \"x\" y\n     ^") := by decide +kernel
example : parse .exact 20 b!"x: y\n&a" = .err (.terminate "map key" b!"2:1\n&a\n^") := by decide +kernel
example : parse .exact 20 b!"? &a" = .err (.terminate "map key" b!"1:3\n? &a\n  ^") := by decide +kernel
example : parse .exact 20 b!"x: &a" = .err (.terminate "map value" b!"1:4\nx: &a\n   ^") := by decide +kernel
example : parse .exact 20 b!"a: b\nc\n" = .err (.terminate "map splitter" b!"2:2\nc\n ^") := by decide +kernel
example : parse .exact 20 b!"a: \"x\" y\n" = .err (.terminate "map terminator" b!"1:7\na: \"x\" y\n      ^") := by decide +kernel

end YamlPeg.Props
