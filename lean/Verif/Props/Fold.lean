import Verif.Props.Layout
import Verif.Props.Fuel
/-!
# Scalars over several lines: C57

A scalar is given as its first line `s` and a list `r` of line breaks and further
lines.  `PBreak` and `Break` say how a line break is written (empty lines, comment
lines, blanks) and what it stands for; see Proof/PlainFold.lean, Proof/Fold.lean.
-/

namespace YamlPeg.Props
open YamlPeg

/-- A node as the only document. -/
theorem reads_only {b : Blk} {E : Bytes} (h : b.okN 0) (hs : b.still) (hf : Fits b.kind E) (hE : LastOK E) :
    Reads (b.text ++ E) [b.value 0] := by
  have hwf : (Stream.mk none b (.stop E) []).wf := by
    refine ⟨Blk.okN_wf _ _ h, hf, hE, rfl, Blk.first_char h, ?_⟩
    match b, h with
    | .leaf lead T κ y pc, h1 => simp only [Blk.okN] at h1; exact (h1.resolve_right (by simp)).2.noMark.1
    | .lit .., _ => trivial
    | .seq .., _ => trivial
    | .map .., _ => trivial
    | .cmap .., _ => trivial
    | .prop .., _ => trivial
  have := reads_stream hwf ⟨hs, trivial⟩
  simpa [Stream.text, Stream.head, Stream.values, Tail.values, Tail.text] using this

theorem foldIs {nl s : Bytes} {r : List (PBreak × Bytes)} (hnl : LineBreak nl) (hs : PlainLine s) (hr : PlainMore r)
    (hne : r ≠ []) (w : Nat) :
    FoldIs w (.fold w) (plainFolded nl w s r) (fun _ _ => .str (plainFoldVal s r)) .none :=
  ⟨nl, s, r, hnl, hs, hr, hne, rfl, rfl, rfl, rfl⟩

/-- **C57.** A document that is a plain scalar over several lines, the further ones
indented by two columns or more, is the string of its lines: a line break reads as one
space, `n` empty lines (or comment lines) as `n` newlines. -/
theorem C57_plain_root (nl s E : Bytes) (r : List (PBreak × Bytes)) (hnl : LineBreak nl) (hs : PlainLine s)
    (hr : PlainMore r) (hne : r ≠ []) (hE : Rest E) :
    Reads (plainFolded nl 2 s r ++ E) [.mk 0 [] (.str (plainFoldVal s r))] := by
  have := reads_only (E := E) (b := .leaf [] (plainFolded nl 2 s r) (.fold 2) (fun _ _ => .str (plainFoldVal s r)) .none)
    (by simp only [Blk.okN]; exact .inl ⟨.inl trivial, .inr (foldIs hnl hs hr hne 2)⟩) (by simp [Blk.still])
    (by simpa [Blk.kind, Fits] using hE.last.2) hE.last.1
  simpa [Blk.text, Blk.value, Blk.node, Blk.off, Blk.tag, Blk.data] using this

/-- **C57.** The same as the value of a map. -/
theorem C57_plain_value (key nl s E : Bytes) (ky : Yaml) (r : List (PBreak × Bytes)) (hkey : Writes key ky) (hok : KeysOK [ky])
    (hnl : LineBreak nl) (hs : PlainLine s) (hr : PlainMore r) (hne : r ≠ []) (hE : Rest E) :
    Reads (key ++ b!": " ++ plainFolded nl 2 s r ++ E)
      [.mk 0 [] (.map [(.mk 0 [] ky, .mk (key.length + 2) [] (.str (plainFoldVal s r)))])] := by
  have := reads_only (E := E) (b := .map [] 0 (.one key ky b!" "
      (.leaf [] (plainFolded nl 2 s r) (.fold 2) (fun _ _ => .str (plainFoldVal s r)) .none)))
    (by
      simp only [Blk.okN, Ents.ok, Blk.okV, Ents.keys]
      exact ⟨.inl trivial, trivial, ⟨hkey, .inl (sep_space _), .inl ⟨trivial, .inr (foldIs hnl hs hr hne 2)⟩⟩, hok⟩)
    (by simp [Blk.still, Ents.still])
    (by simpa [Blk.kind, Ents.kind, Fits] using hE.last.2) hE.last.1
  simpa [Blk.text, Blk.value, Blk.node, Blk.off, Blk.tag, Blk.data, Ents.T, Ents.sp, Ents.body, Ents.pairs, Ents.y, mapOf,
    insertSpec, List.append_assoc] using this

/-- **C57.** The same as an item of a sequence; the further lines are indented by *four*
columns or more. -/
theorem C57_plain_item (nl s E : Bytes) (r : List (PBreak × Bytes)) (hnl : LineBreak nl) (hs : PlainLine s)
    (hr : PlainMore r) (hne : r ≠ []) (hE : Rest E) :
    Reads (b!"- " ++ plainFolded nl 4 s r ++ E) [.mk 0 [] (.seq [.mk 2 [] (.str (plainFoldVal s r))])] := by
  have := reads_only (E := E) (b := .seq [] 0 (.one b!" "
      (.leaf [] (plainFolded nl 4 s r) (.fold 4) (fun _ _ => .str (plainFoldVal s r)) .none)))
    (by
      simp only [Blk.okN, Items.ok]
      exact ⟨.inl trivial, trivial, .inl (sep_space _), .inl ⟨.inl trivial, .inr (foldIs hnl hs hr hne 4)⟩⟩)
    (by simp [Blk.still, Items.still])
    (by simpa [Blk.kind, Items.kind, Fits] using hE.last.2) hE.last.1
  simpa [Blk.text, Blk.value, Blk.node, Blk.off, Blk.tag, Blk.data, Items.sp, Items.body, Items.nodes] using this

/-- **C57.** A single-quoted scalar over several lines. -/
theorem C57_single_quoted (nl s E : Bytes) (r : List (Break × Bytes)) (hnl : LineBreak nl) (hu : Utf8 s)
    (hs : ∀ c ∈ s, c ≠ 0x0A ∧ c ≠ 0x0D) (hr : FoldMore s r) (hrs : ∀ x ∈ r, ∀ c ∈ x.2, c ≠ 0x0A ∧ c ≠ 0x0D) (hE : Rest E) :
    Reads (singleFolded nl s r ++ E) [.mk 0 [] (.str (foldVal s r))] := by
  have h := ScalarText.singleFold hnl hu hs hr hrs
  exact reads_leaf h.leaf h.noMark.1 h.noMark.2 hE.last.2 hE.last.1

/-- **C57.** A double-quoted scalar over several lines. -/
theorem C57_double_quoted (nl s E : Bytes) (r : List (Break × Bytes)) (hnl : LineBreak nl) (hu : Utf8 s)
    (hs : s.getLast? ≠ some 0x5C) (hr : FoldMore s r) (hrs : ∀ x ∈ r, x.2.getLast? ≠ some 0x5C) (hE : Rest E) :
    Reads (doubleFolded nl s r ++ E) [.mk 0 [] (.str (foldVal s r))] := by
  have h := ScalarText.doubleFold hnl hu hs hr hrs
  exact reads_leaf h.leaf h.noMark.1 h.noMark.2 hE.last.2 hE.last.1

/-- **C57.** Quoted scalars over several lines may stand wherever a scalar may stand, with
any indentation: `Writes` is what C25–C29 and C52 ask of a scalar. -/
theorem C57_quoted_anywhere (nl s : Bytes) (r : List (Break × Bytes)) (hnl : LineBreak nl) (hu : Utf8 s) (hr : FoldMore s r) :
    ((∀ c ∈ s, c ≠ 0x0A ∧ c ≠ 0x0D) → (∀ x ∈ r, ∀ c ∈ x.2, c ≠ 0x0A ∧ c ≠ 0x0D) →
      Writes (singleFolded nl s r) (.str (foldVal s r))) ∧
    (s.getLast? ≠ some 0x5C → (∀ x ∈ r, x.2.getLast? ≠ some 0x5C) → Writes (doubleFolded nl s r) (.str (foldVal s r))) :=
  ⟨fun h h' => ⟨_, .singleFold hnl hu h hr h'⟩, fun h h' => ⟨_, .doubleFold hnl hu h hr h'⟩⟩

/-- **C57.** The value, spelled out for two lines: `e` empty lines between them read as a
space if `e = 0`, as `e` newlines otherwise, in each of the three styles. -/
theorem C57_two_lines (s t : Bytes) (e : Nat) :
    plainFoldVal s [(⟨List.replicate e [], 0⟩, t)] = s ++ (if e = 0 then b!" " else List.replicate e 0x0A) ++ t ∧
    foldVal s [(⟨[], List.replicate e [], []⟩, t)] = s ++ (if e = 0 then b!" " else List.replicate e 0x0A) ++ t ∧
    plainFolded b!"\n" 2 s [(⟨List.replicate e [], 0⟩, t)] = s ++ b!"\n" ++ List.replicate e 0x0A ++ b!"  " ++ t ∧
    singleFolded b!"\n" s [(⟨[], List.replicate e [], []⟩, t)] =
      b!"'" ++ sqEnc s ++ b!"\n" ++ List.replicate e 0x0A ++ sqEnc t ++ b!"'" := by
  have hg : ∀ e, gapLines b!"\n" (List.replicate e []) = List.replicate e 0x0A := by
    intro e
    induction e with
    | zero => rfl
    | succ e ih => simp [List.replicate_succ, gapLines, ih]
  refine ⟨?_, ?_, ?_, ?_⟩
  · by_cases h : e = 0 <;> simp [plainFoldVal, plainMoreVal, PBreak.val, h]
  · by_cases h : e = 0 <;> simp [foldVal, Break.val, h]
  · simp [plainFolded, plainMore, PBreak.text, hg, spaces]
  · simp [singleFolded, foldText, Break.text, hg]

/-! ## Examples: the hypotheses are met -/

theorem contLine_word {w : Bytes} (h : isWord w = true) : ContLine w := by
  have hp := isWord_plainLine h
  refine ⟨hp.utf8, ?_, hp.last, hp.noBreak, hp.noColon, hp.noComment, ?_⟩
  · obtain ⟨c, r, h1, h2, _⟩ := hp.plain.first; exact ⟨c, r, h1, h2⟩
  · rintro a b rfl
    have : ∀ x ∈ a ++ 0x20 :: b, isLetter x = true ∨ isDigit x = true ∨ x = 0x2D ∨ x = 0x5F := by
      revert h
      cases a ++ 0x20 :: b with
      | nil => simp [isWord]
      | cons c r =>
        simp only [isWord, Bool.and_eq_true, List.all_eq_true, Bool.or_eq_true, beq_iff_eq, List.mem_cons]
        rintro ⟨h1, h2⟩ x (rfl | hx)
        · exact .inl h1
        · rcases h2 x hx with ((h | h) | h) | h <;> simp [h]
    exact absurd (this 0x20 (by simp)) (by decide)

theorem plainLine_text : PlainLine b!"some text, indeed" := by
  refine ⟨utf8_ascii (by decide), ⟨_, _, rfl, by decide⟩, by decide, by decide, ?_, ?_⟩
  · exact fun h => absurd (h.subset (show (0x3A : UInt8) ∈ b!": " by simp)) (by decide)
  · exact fun h => absurd (h.subset (show (0x23 : UInt8) ∈ b!" #" by simp)) (by decide)

/-- Two further lines: one after a comment line and an empty line, one indented further. -/
theorem sampleMore : PlainMore [(⟨[b!"# rem", []], 0⟩, b!"over"), (⟨[], 3⟩, b!"lines")] := by
  simp only [PlainMore, List.mem_cons, List.not_mem_nil, or_false]
  rintro x (rfl | rfl)
  · refine ⟨?_, contLine_word (by decide)⟩
    simp only [PBreak.OK, List.mem_cons, List.not_mem_nil, or_false]
    rintro l (rfl | rfl)
    · exact .inr ⟨[], b!" rem", rfl, by simp, by decide⟩
    · exact .inl rfl
  · exact ⟨by simp [PBreak.OK], contLine_word (by decide)⟩

example : Reads b!"k: some text, indeed\n# rem\n\n  over\n     lines\n"
    [.mk 0 [] (.map [(.mk 0 [] (.str b!"k"), .mk 3 [] (.str b!"some text, indeed\n\nover lines"))])] :=
  C57_plain_value b!"k" b!"\n" _ b!"\n" (.str b!"k") _ ⟨_, word (by decide) (by simp [keywords])⟩ (keysOK_str _ (by simp))
    (.inl rfl) plainLine_text sampleMore (by simp) ⟨.inr ⟨[0x0A], [], [], .inl rfl, rfl, by simp [IdleLine], .inl rfl⟩⟩

example : Reads b!"- some text, indeed\n# rem\n\n    over\n       lines\n"
    [.mk 0 [] (.seq [.mk 2 [] (.str b!"some text, indeed\n\nover lines")])] :=
  C57_plain_item b!"\n" _ b!"\n" _ (.inl rfl) plainLine_text sampleMore (by simp)
    ⟨.inr ⟨[0x0A], [], [], .inl rfl, rfl, by simp [IdleLine], .inl rfl⟩⟩

theorem sampleFold : FoldMore b!"don't" [(⟨b!" ", [], b!"   "⟩, b!"be"), (⟨[], [[], b!" "], b!"\t"⟩, b!"shy ")] := by
  simp only [FoldMore]
  refine ⟨⟨by decide, by decide, by decide⟩, ⟨by decide, by simp, by decide⟩, by simp, utf8_ascii (by decide), ?_, by simp,
    ⟨by decide, by decide, by decide⟩, ⟨by simp, by decide, by decide⟩, by simp, utf8_ascii (by decide), ?_, by simp, trivial⟩
  · rintro c u ⟨⟩; decide
  · rintro c u ⟨⟩; decide

example : Reads b!"'don''t \n   be\n\n \n\tshy ' # ok\n" [.mk 0 [] (.str b!"don't be\n\nshy ")] :=
  C57_single_quoted b!"\n" b!"don't" b!" # ok\n" _ (.inl rfl) (utf8_ascii (by decide)) (by decide) sampleFold (by decide)
    ⟨.inr ⟨[0x0A], b!" # ok", [], .inl rfl, rfl, by simp; exact .inr ⟨b!" ", b!" ok", rfl, by decide, by decide⟩, .inr ⟨b!" ok", rfl⟩⟩⟩

example : Reads b!"\"don't \n   be\n\n \n\tshy \" # ok\n" [.mk 0 [] (.str b!"don't be\n\nshy ")] :=
  C57_double_quoted b!"\n" b!"don't" b!" # ok\n" _ (.inl rfl) (utf8_ascii (by decide)) (by decide) sampleFold (by decide)
    ⟨.inr ⟨[0x0A], b!" # ok", [], .inl rfl, rfl, by simp; exact .inr ⟨b!" ", b!" ok", rfl, by decide, by decide⟩, .inr ⟨b!" ok", rfl⟩⟩⟩

/-! ## What is not folded as YAML asks -/

/-- **C57, counterexample.** An item of a sequence does not go on in a line that is
indented by two columns. -/
theorem C57_counterexample_item : ∃ m, Ends (fun n => parse .exact n b!"- a\n  b\n")
    (.err (.terminate "document splitter" m)) :=
  ⟨b!"1:4\n- a\n   ^", parse_returns_of (n := 30) (by decide +kernel) (by simp)⟩

/-- **C57, counterexample.** An empty line in front of a line that is indented further is lost. -/
theorem C57_counterexample_extra_indent : Ends (fun n => parse .exact n b!"k: a\n\n    b\n")
    (.ok [.mk 0 [] (.map [(.mk 0 [] (.str b!"k"), .mk 3 [] (.str b!"a b"))])]) :=
  parse_returns_of (n := 30) (by decide +kernel) (by simp)

/-- **C57, counterexample.** Blanks at the end of a line of a plain scalar are kept. -/
theorem C57_counterexample_trailing_blanks : Ends (fun n => parse .exact n b!"k: a  \n  b\n")
    (.ok [.mk 0 [] (.map [(.mk 0 [] (.str b!"k"), .mk 3 [] (.str b!"a   b"))])]) :=
  parse_returns_of (n := 30) (by decide +kernel) (by simp)

/-- **C57, counterexample.** A backslash at the end of a line of a double-quoted
scalar is not removed: with the next character it makes an escape (here backspace). -/
theorem C57_counterexample_backslash : Ends (fun n => parse .exact n b!"\"a\\\nb\"\n")
    (.ok [.mk 0 [] (.str [0x61, 0x08])]) :=
  parse_returns_of (n := 30) (by decide +kernel) (by simp)

/-- **C57, counterexample.** Behind a line of a single-quoted scalar that ends in the
characters `\\n`, the line break is lost. -/
theorem C57_counterexample_backslash_n : Ends (fun n => parse .exact n b!"'a\\n\n b'\n")
    (.ok [.mk 0 [] (.str b!"a\\nb")]) :=
  parse_returns_of (n := 30) (by decide +kernel) (by simp)

/-- **C57, counterexample.** Blanks in front of an empty line of a quoted scalar are kept. -/
theorem C57_counterexample_quoted_blanks : Ends (fun n => parse .exact n b!"'a  \n\n b'\n")
    (.ok [.mk 0 [] (.str b!"a  \nb")]) :=
  parse_returns_of (n := 30) (by decide +kernel) (by simp)

end YamlPeg.Props
