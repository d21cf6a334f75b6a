import Verif.Proof.DumpText
import Verif.Props.Dump
import Verif.Props.DumpAnchors
import Verif.Props.LineEnds
/-!
# What `dump` writes

`noPos` (Proof/Dump.lean) sets every position of a node to 0; `crlf` (Spec/LineEnds.lean) puts a carriage return
in front of each line feed; `PlainTexts` is in Spec/DumpText.lean.
-/

namespace YamlPeg.Props
open YamlPeg

/-- **C83.** Nodes that differ in their positions only are dumped alike, and so are tables of anchors whose nodes
differ in their positions only: the same text, or the same failure. -/
theorem C83_positions (cfg : DumpCfg) (n : Nat) {ns ns' : List Node} {As As' : List Anchors}
    (h : ns.map Node.noPos = ns'.map Node.noPos) (hA : As.map noPosTable = As'.map noPosTable) :
    dump cfg n ns As = dump cfg n ns' As' := by
  unfold dump
  rw [← dumpDocs_noPos, h, hA, dumpDocs_noPos]

theorem dumpDocs_append {cfg : DumpCfg} {n : Nat} {As : List Anchors} {x : Node} : ∀ {ns : List Node} {i : Nat} {t : Bytes},
    dumpDocs cfg n As i (ns ++ [x]) = .ok t ↔
      ∃ a d, dumpDocs cfg n As i ns = .ok a ∧ dumperDump cfg n x (As.getD (i + ns.length) []) = .ok d ∧
        t = a ++ (if i + ns.length = 0 then d ++ cfg.nl else b!"---" ++ cfg.nl ++ trimStart (d ++ cfg.nl))
  | [], i, t => by
    rw [List.nil_append, show dumpDocs cfg n As i [] = .ok [] by rw [dumpDocs], dumpDocs, Out.bind_ok_iff]
    constructor
    · rintro ⟨d, hd, h⟩
      rw [dumpDocs] at h
      cases h
      exact ⟨[], d, rfl, by simpa using hd, by simp⟩
    · rintro ⟨a, d, ha, hd, rfl⟩
      simp only [List.length_nil, Nat.add_zero] at hd
      cases ha
      refine ⟨d, hd, ?_⟩
      rw [dumpDocs]
      show Out.ok _ = Out.ok _
      simp
  | y :: ys, i, t => by
    have ih := fun t => dumpDocs_append (cfg := cfg) (n := n) (As := As) (x := x) (ns := ys) (i := i + 1) (t := t)
    have e : i + 1 + ys.length = i + (y :: ys).length := by simp; omega
    rw [e] at ih
    rw [List.cons_append, dumpDocs, dumpDocs, Out.bind_ok_iff]
    constructor
    · rintro ⟨d, hd, h⟩
      rw [Out.bind_ok_iff] at h
      obtain ⟨r, hr, h⟩ := h
      cases h
      obtain ⟨a, d', ha, hd', rfl⟩ := (ih _).1 hr
      refine ⟨_, d', Out.bind_ok_iff.2 ⟨d, hd, Out.bind_ok_iff.2 ⟨a, ha, rfl⟩⟩, hd', ?_⟩
      simp only [List.append_assoc]
    · rintro ⟨a, d', ha, hd', rfl⟩
      rw [Out.bind_ok_iff] at ha
      obtain ⟨d, hd, ha⟩ := ha
      rw [Out.bind_ok_iff] at ha
      obtain ⟨r, hr, ha⟩ := ha
      cases ha
      refine ⟨d, hd, Out.bind_ok_iff.2 ⟨_, (ih _).2 ⟨r, d', hr, hd', rfl⟩, ?_⟩⟩
      show Out.ok _ = Out.ok _
      simp only [List.append_assoc]

/-- **C83.** Nothing to dump: no text. -/
theorem C83_none (cfg : DumpCfg) (n : Nat) (As : List Anchors) : dump cfg n [] As = .ok [] := rfl

/-- **C83.** The text of several documents, one by one: the last document is dumped by itself with its own table
and appended, if it is not the only one behind a line `---` and without the white space in front. -/
theorem C83_one_by_one (cfg : DumpCfg) (n : Nat) (ns : List Node) (x : Node) (As : List Anchors) (t : Bytes) :
    dump cfg n (ns ++ [x]) As = .ok t ↔
      ∃ a d, dump cfg n ns As = .ok a ∧ dump cfg n [x] [As.getD ns.length []] = .ok d ∧
        t = a ++ (if ns = [] then d else b!"---" ++ cfg.nl ++ trimStart d) := by
  have one : ∀ d, dump cfg n [x] [As.getD ns.length []] = .ok d ↔
      ∃ d', dumperDump cfg n x (As.getD ns.length []) = .ok d' ∧ d = d' ++ cfg.nl := by
    intro d
    have := dumpDocs_append (cfg := cfg) (n := n) (As := [As.getD ns.length []]) (x := x) (ns := []) (i := 0) (t := d)
    rw [show dump cfg n [x] [As.getD ns.length []] = dumpDocs cfg n [As.getD ns.length []] 0 ([] ++ [x]) from rfl, this]
    constructor
    · rintro ⟨a, d', ha, hd, rfl⟩
      rw [dumpDocs] at ha
      cases ha
      exact ⟨d', hd, by simp⟩
    · rintro ⟨d', hd, rfl⟩
      exact ⟨[], d', rfl, hd, by simp⟩
  unfold dump at one ⊢
  rw [dumpDocs_append]
  simp only [Nat.zero_add]
  have e : (ns.length = 0) = (ns = []) := by simp
  constructor
  · rintro ⟨a, d, ha, hd, rfl⟩
    exact ⟨a, _, ha, (one _).2 ⟨d, hd, rfl⟩, by simp only [e]⟩
  · rintro ⟨a, d, ha, hd, rfl⟩
    obtain ⟨d', hd', rfl⟩ := (one _).1 hd
    exact ⟨a, d', ha, hd', by simp only [e]⟩

/-- **C83.** The text of the first document is that of a `Dumper` for it and a line break. -/
theorem C83_dumper (cfg : DumpCfg) (n : Nat) (x : Node) (As : List Anchors) (t : Bytes) :
    dump cfg n [x] As = .ok t ↔ ∃ d, dumperDump cfg n x (As.getD 0 []) = .ok d ∧ t = d ++ cfg.nl := by
  have := dumpDocs_append (cfg := cfg) (n := n) (As := As) (x := x) (ns := []) (i := 0) (t := t)
  rw [show dump cfg n [x] As = dumpDocs cfg n As 0 ([] ++ [x]) from rfl, this]
  constructor
  · rintro ⟨a, d', ha, hd, rfl⟩
    rw [dumpDocs] at ha
    cases ha
    exact ⟨d', hd, by simp⟩
  · rintro ⟨d', hd, rfl⟩
    exact ⟨[], d', rfl, hd, by simp⟩

theorem trimStart_suffix' : ∀ s : Bytes, ∃ w, s = w ++ trimStart s
  | [] => ⟨[], rfl⟩
  | a :: r1 => by
    by_cases hw : isWs1 a = true
    · rw [trimStart_w1 hw]
      obtain ⟨w, hw⟩ := trimStart_suffix' r1
      exact ⟨a :: w, by rw [List.cons_append, ← hw]⟩
    · cases r1 with
      | nil => rw [trimStart_one hw]; exact ⟨[], rfl⟩
      | cons d r2 =>
        by_cases h2 : isWs2 a d = true
        · rw [trimStart_ws2 hw h2]
          obtain ⟨w, hw⟩ := trimStart_suffix' r2
          exact ⟨a :: d :: w, by rw [List.cons_append, List.cons_append, ← hw]⟩
        · cases r2 with
          | nil => rw [trimStart_two hw h2]; exact ⟨[], rfl⟩
          | cons b r3 =>
            by_cases h3 : isWs3 a d b = true
            · rw [trimStart_ws3 hw h2 h3]
              obtain ⟨w, hw⟩ := trimStart_suffix' r3
              exact ⟨a :: d :: b :: w, by rw [List.cons_append, List.cons_append, List.cons_append, ← hw]⟩
            · rw [trimStart_text hw h2 h3]; exact ⟨[], rfl⟩

theorem trimStart_not_ws {s : Bytes} : ∀ c ∈ (trimStart s).head?, ¬ isWs1 c = true := by
  fun_induction trimStart s <;> simp_all

/-- **C83.** The text of one document or more ends in a line break. -/
theorem C83_ends_with_newline (cfg : DumpCfg) (n : Nat) {ns : List Node} (As : List Anchors) {t : Bytes} (hne : ns ≠ [])
    (h : dump cfg n ns As = .ok t) : ∃ a, t = a ++ (if cfg.windows then b!"\r\n" else b!"\n") := by
  show ∃ a, t = a ++ cfg.nl
  obtain ⟨ns, x, rfl⟩ : ∃ l x, ns = l ++ [x] := ⟨_, _, (List.dropLast_concat_getLast hne).symm⟩
  obtain ⟨a, d, _, _, rfl⟩ := dumpDocs_append.1 h
  split
  · exact ⟨a ++ d, (List.append_assoc ..).symm⟩
  · obtain ⟨w, hw⟩ := trimStart_suffix' (d ++ cfg.nl)
    have hs := trimStart_not_ws (s := d ++ cfg.nl)
    rcases (List.append_eq_append_iff.1 hw) with ⟨z, h1, h2⟩ | ⟨z, h1, h2⟩
    · -- the rest is inside the line break
      have : trimStart (d ++ cfg.nl) = [] := by
        have hz : ∀ c ∈ cfg.nl, isWs1 c = true := by
          unfold DumpCfg.nl; cases cfg.windows <;> decide
        cases ht : trimStart (d ++ cfg.nl) with
        | nil => rfl
        | cons c r =>
          rw [ht] at hs h2
          exact absurd (hz c (by rw [h2]; simp)) (hs c rfl)
      rw [this]
      exact ⟨a ++ b!"---", by simp⟩
    · rw [h2]
      exact ⟨a ++ b!"---" ++ cfg.nl ++ z, by simp⟩

/-! ### Instances -/

/-- Two documents and a third, a sequence with an anchor. -/
example : dump unix 30 ([.ofYaml (.str b!"x"), .ofYaml (.seq [.ofYaml (.str b!"y")])] ++ [.ofYaml (.seq [.ofYaml (.int b!"1")])])
      [[], [], [(b!"a", .ofYaml (.int b!"1"))]] = .ok b!"x\n---\n- y\n---\n- &a 1\n" ∧
    dump unix 30 [.ofYaml (.str b!"x"), .ofYaml (.seq [.ofYaml (.str b!"y")])]
      [[], [], [(b!"a", .ofYaml (.int b!"1"))]] = .ok b!"x\n---\n- y\n" ∧
    dump unix 30 [.ofYaml (.seq [.ofYaml (.int b!"1")])] [[(b!"a", .ofYaml (.int b!"1"))]] = .ok b!"\n- &a 1\n" := by
  refine ⟨?_, ?_, ?_⟩ <;> decide +kernel

/-- An empty sequence behind another document: only the marker is left, and it still ends its line. -/
example : dump unix 30 [.ofYaml (.str b!"x"), .ofYaml (.seq [])] [] = .ok b!"x\n---\n" ∧
    dump unix.win 30 [.ofYaml (.str b!"x"), .ofYaml (.seq [])] [] = .ok b!"x\r\n---\r\n" := by
  constructor <;> decide +kernel

/-- Positions that differ. -/
example : [Node.mk 4 [] (.seq [.mk 6 b!"t" (.int b!"1")])].map Node.noPos = [Node.mk 0 [] (.seq [.mk 9 b!"t" (.int b!"1")])].map Node.noPos ∧
    [[(b!"a", Node.mk 6 [] (.int b!"1"))]].map noPosTable = [[(b!"a", Node.mk 2 [] (.int b!"1"))]].map noPosTable ∧
    dump unix 30 [.mk 4 [] (.seq [.mk 6 b!"t" (.int b!"1")])] [[(b!"a", .mk 6 [] (.int b!"1"))]] = .ok b!"\n- &a !t 1\n" := by
  refine ⟨rfl, rfl, by decide +kernel⟩

/-! ## On Windows -/

/-- **C84.** On Windows `dump` writes what it writes elsewhere with `\r\n` for each `\n`, and fails where it fails
elsewhere: for nodes none of whose tags, numbers and aliases hold a line feed (nor the names of the anchors), and
none of whose strings is one line with a line feed behind it and with a separator (`: `, ` #`, `:` at its end) in it. -/
theorem C84_windows (cfg : DumpCfg) (hu : cfg.windows = false)
    (hc : ∀ ch, (0x0A : UInt8) ∉ ch → (0x0A : UInt8) ∉ cfg.escNonAscii ch) (n : Nat) (ns : List Node) (As : List Anchors)
    (hns : ∀ x ∈ ns, ∀ m, Occurs m x → PlainTexts m) (hA : ∀ A ∈ As, ∀ kv ∈ A, (0x0A : UInt8) ∉ kv.1) :
    dump { cfg with windows := true } n ns As = (dump cfg n ns As).map crlf :=
  dumpDocs_win hu hc hA ns 0 hns

/-- **C84.** The two texts are read alike: the same documents (positions as in `C78_crlf`) or the same error. -/
theorem C84_reads_alike (cfg : DumpCfg) (hu : cfg.windows = false)
    (hc : ∀ ch, (0x0A : UInt8) ∉ ch → (0x0A : UInt8) ∉ cfg.escNonAscii ch) (n : Nat) (ns : List Node) (As : List Anchors)
    (hns : ∀ x ∈ ns, ∀ m, Occurs m x → PlainTexts m) (hA : ∀ A ∈ As, ∀ kv ∈ A, (0x0A : UInt8) ∉ kv.1)
    {t : Bytes} (ht : dump cfg n ns As = .ok t) (hcr : (0x0D : UInt8) ∉ t) (hb : NoBlankLines t) (h : HashCfg) (k : Nat) :
    ∃ t', dump { cfg with windows := true } n ns As = .ok t' ∧
      Alike t t' (lfPlace t) (mapRoots (lfPlace t)) (parse h k t) (parse h k t') := by
  refine ⟨crlf t, ?_, C78_crlf h k hcr hb⟩
  rw [C84_windows cfg hu hc n ns As hns hA, ht]; rfl

/-- **C84.** A string that is one line and its line feed may be written as it is, on Windows too. -/
theorem C84_counterexample_one_line :
    dump unix 30 [.ofYaml (.map [(.ofYaml (.str b!"k"), .ofYaml (.str b!"v:\n"))])] [] = .ok b!"k: v:\n\n" ∧
    dump { unix with windows := true } 30 [.ofYaml (.map [(.ofYaml (.str b!"k"), .ofYaml (.str b!"v:\n"))])] [] = .ok b!"k: v:\n\r\n" := by
  constructor <;> decide +kernel

/-- A node with all that matters: a string of several lines, an escaped one, a tag, a collection as a key. -/
def winSample : Node := .ofYaml (.map [
  (.ofYaml (.str b!"k"), .mk 0 b!"t" (.str b!"one\n\n two")),
  (.ofYaml (.seq [.ofYaml (.str b!" #\t")]), .ofYaml (.seq [.ofYaml (.int b!"1"), .ofYaml .null]))])

theorem plainTexts_of {p : Nat} {t : Bytes} {y : Yaml} (ht : (0x0A : UInt8) ∉ (Node.mk p t y).tagOf)
    (hw : ∀ s, y = .int s ∨ y = .float s ∨ y = .alias s → (0x0A : UInt8) ∉ s)
    (hs : ∀ s, y = .str s → s.getLast? ≠ some 0x0A) (h8 : ∀ s, y = .str s → Utf8 s) : PlainTexts (.mk p t y) :=
  ⟨ht, hw, h8, fun s h => by rintro ⟨a, _, rfl⟩; exact absurd (by simp) (hs _ h)⟩

theorem winSample_plain : ∀ m, Occurs m winSample → PlainTexts m := by
  have str : ∀ (p : Nat) (t s : Bytes), (0x0A : UInt8) ∉ (Node.mk p t (.str s)).tagOf → s.getLast? ≠ some 0x0A →
      (∀ c ∈ s, c < 0x80) → Everywhere PlainTexts (.mk p t (.str s)) := fun p t s h h2 h3 =>
    everywhere_mk.2 ⟨plainTexts_of h (by simp) (by rintro _ ⟨⟩; exact h2) (by rintro _ ⟨⟩; exact Utf8.ascii h3), trivial⟩
  have seq : ∀ (p : Nat) (t : Bytes) (l : List Node), (0x0A : UInt8) ∉ (Node.mk p t (.seq l)).tagOf →
      (∀ x ∈ l, Everywhere PlainTexts x) → Everywhere PlainTexts (.mk p t (.seq l)) := fun p t l h h2 =>
    everywhere_mk.2 ⟨plainTexts_of h (by simp) (by simp) (by simp), h2⟩
  show Everywhere PlainTexts winSample
  refine everywhere_mk.2 ⟨plainTexts_of (by decide) (by simp) (by simp) (by simp), ?_⟩
  intro k v h
  simp only [List.mem_cons, Prod.mk.injEq, List.not_mem_nil, or_false] at h
  rcases h with ⟨rfl, rfl⟩ | ⟨rfl, rfl⟩
  · exact ⟨str _ _ _ (by decide) (by decide) (by decide), str _ _ _ (by decide) (by decide) (by decide)⟩
  · refine ⟨seq _ _ _ (by decide) ?_, seq _ _ _ (by decide) ?_⟩
    · intro x hx
      rw [List.mem_singleton] at hx
      subst hx
      exact str _ _ _ (by decide) (by decide) (by decide)
    · intro x hx
      simp only [List.mem_cons, List.not_mem_nil, or_false] at hx
      rcases hx with rfl | rfl
      · exact everywhere_mk.2 ⟨plainTexts_of (by decide) (by rintro _ (⟨⟨⟩⟩ | h | h) <;> simp_all) (by simp) (by simp), trivial⟩
      · exact everywhere_mk.2 ⟨plainTexts_of (by decide) (by simp) (by simp) (by simp), trivial⟩

/-- Its texts. -/
example : dump unix 30 [winSample] [] = .ok b!"k: !t |\n  one\n\n   two\n?  \n\n  - \" #\\t\"\n:\n  - 1\n  - null\n" ∧
    dump { unix with windows := true } 30 [winSample] [] = .ok b!"k: !t |\r\n  one\r\n\r\n   two\r\n?  \r\n\r\n  - \" #\\t\"\r\n:\r\n  - 1\r\n  - null\r\n" := by
  constructor <;> decide +kernel

/-- And the hypothesis on escapes. -/
example : ∀ ch, (0x0A : UInt8) ∉ ch → (0x0A : UInt8) ∉ unix.escNonAscii ch := fun _ h => h

end YamlPeg.Props
