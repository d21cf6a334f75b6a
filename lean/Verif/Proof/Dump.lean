import Verif.Proof.Layout
import Verif.Model.Dumper
/-!
# What the dumper prints is a document in the sense of `Proof/Layout.lean`
-/

namespace YamlPeg
open M

/-! ## Data without positions and tags -/

/-- Empty tags and tags of core types are not printed. -/
def PlainTag (t : Bytes) : Prop := t = [] ∨ startsWith t tagPrefix = true

/-- Tags that are printed and read back: identifiers, and tags that do not even
begin like an identifier, without blanks and angle brackets. -/
def CustomTag (t : Bytes) : Prop :=
  IsIdent t ∨ (t ≠ [] ∧ headAlnum t = false ∧ Utf8 t ∧ ∀ c ∈ t, c ∉ b!" <>\n\r")

/-- The tag, without the tags of core types. -/
def keptTag (t : Bytes) : Bytes := if startsWith t tagPrefix then [] else t

mutual
/-- The data alone: every position is 0, every tag empty. -/
def Node.erase : Node → Node
  | .mk _ t y => .mk 0 (keptTag t) y.erase
def Yaml.erase : Yaml → Yaml
  | .null => .null
  | .bool b => .bool b
  | .int s => .int s
  | .float s => .float s
  | .str s => .str s
  | .seq l => .seq (eraseNodes l)
  | .map m => .map (eraseEntries m)
  | .alias a => .alias a
def eraseNodes : List Node → List Node
  | [] => []
  | x :: xs => x.erase :: eraseNodes xs
def eraseEntries : List (Node × Node) → List (Node × Node)
  | [] => []
  | e :: es => eraseEntry e :: eraseEntries es
def eraseEntry : Node × Node → Node × Node
  | (k, v) => (k.erase, v.erase)
end

mutual
/-- The data and the tags: every position is 0. -/
def Node.noPos : Node → Node
  | .mk _ t y => .mk 0 t y.noPos
def Yaml.noPos : Yaml → Yaml
  | .null => .null
  | .bool b => .bool b
  | .int s => .int s
  | .float s => .float s
  | .str s => .str s
  | .seq l => .seq (noPosNodes l)
  | .map m => .map (noPosEntries m)
  | .alias a => .alias a
def noPosNodes : List Node → List Node
  | [] => []
  | x :: xs => x.noPos :: noPosNodes xs
def noPosEntries : List (Node × Node) → List (Node × Node)
  | [] => []
  | e :: es => noPosEntry e :: noPosEntries es
def noPosEntry : Node × Node → Node × Node
  | (k, v) => (k.noPos, v.noPos)
end

mutual
theorem Node.noPos_erase : ∀ x : Node, x.noPos.erase = x.erase
  | .mk p t y => by rw [Node.noPos, Node.erase, Node.erase, Yaml.noPos_erase y]
theorem Yaml.noPos_erase : ∀ y : Yaml, y.noPos.erase = y.erase
  | .null => rfl
  | .bool _ => rfl
  | .int _ => rfl
  | .float _ => rfl
  | .str _ => rfl
  | .alias _ => rfl
  | .seq l => by rw [Yaml.noPos, Yaml.erase, Yaml.erase, noPosNodes_erase l]
  | .map m => by rw [Yaml.noPos, Yaml.erase, Yaml.erase, noPosEntries_erase m]
theorem noPosNodes_erase : ∀ l : List Node, eraseNodes (noPosNodes l) = eraseNodes l
  | [] => rfl
  | x :: xs => by rw [noPosNodes, eraseNodes, eraseNodes, Node.noPos_erase x, noPosNodes_erase xs]
theorem noPosEntries_erase : ∀ l : List (Node × Node), eraseEntries (noPosEntries l) = eraseEntries l
  | [] => rfl
  | e :: es => by rw [noPosEntries, eraseEntries, eraseEntries, noPosEntry_erase e, noPosEntries_erase es]
theorem noPosEntry_erase : ∀ e : Node × Node, eraseEntry (noPosEntry e) = eraseEntry e
  | (k, v) => by rw [noPosEntry, eraseEntry, eraseEntry, Node.noPos_erase k, Node.noPos_erase v]
end

theorem keptTag_kept (t : Bytes) : keptTag (keptTag t) = keptTag t := by
  unfold keptTag
  split
  · split <;> rfl
  · rfl

mutual
theorem Node.erase_erase : ∀ x : Node, x.erase.erase = x.erase
  | .mk p t y => by rw [Node.erase, Node.erase, Yaml.erase_erase y, keptTag_kept]
theorem Yaml.erase_erase : ∀ y : Yaml, y.erase.erase = y.erase
  | .null => rfl
  | .bool _ => rfl
  | .int _ => rfl
  | .float _ => rfl
  | .str _ => rfl
  | .alias _ => rfl
  | .seq l => by rw [Yaml.erase, Yaml.erase, eraseNodes_erase l]
  | .map m => by rw [Yaml.erase, Yaml.erase, eraseEntries_erase m]
theorem eraseNodes_erase : ∀ l : List Node, eraseNodes (eraseNodes l) = eraseNodes l
  | [] => rfl
  | x :: xs => by rw [eraseNodes, eraseNodes, Node.erase_erase x, eraseNodes_erase xs]
theorem eraseEntries_erase : ∀ l : List (Node × Node), eraseEntries (eraseEntries l) = eraseEntries l
  | [] => rfl
  | e :: es => by rw [eraseEntries, eraseEntries, eraseEntry_erase e, eraseEntries_erase es]
theorem eraseEntry_erase : ∀ e : Node × Node, eraseEntry (eraseEntry e) = eraseEntry e
  | (k, v) => by rw [eraseEntry, eraseEntry, Node.erase_erase k, Node.erase_erase v]
end

theorem Yaml.erase_scalar {y : Yaml} (h : y.isScalar = true) : y.erase = y := by
  cases y <;> first | rfl | simp [Yaml.isScalar] at h

/-! ## What can be dumped and read back -/

/-- Strings the dumper prints on one line such that they read back. -/
inductive LineStr : Bytes → Prop
  /-- printed as they are -/
  | plain {s : Bytes} : PlainLine s → (∀ kv ∈ Props.keywords, kv.1 ≠ s) → trimStart s = s → LineStr s
  /-- printed in double quotes: nothing but blanks in front of the end, of `: ` or of ` #` -/
  | quoted {B E : Bytes} : (∀ x ∈ B, x = 0x20) → (E = [] ∨ (∃ r, E = b!": " ++ r) ∨ ∃ r, E = b!" #" ++ r) →
      (∀ x ∈ B ++ E, 0x20 ≤ x ∧ x < 0x7F) → (B ++ E).getLast? ≠ some 0x5C → LineStr (B ++ E)

/-- Strings of several lines that read back: each line ends in a line feed, the
first and the last line are not empty, no line ends in white space and the first
one does not start with white space. -/
structure MultiStr (s : Bytes) : Prop where
  intro ::
  lines : ∃ ls, 2 ≤ ls.length ∧ BlockScalar ls ∧ s = literalValue ls ++ [0x0A] ∧
    (∀ l ∈ ls, endsWithWs l = false) ∧ ∀ l, ls.head? = some l → trimStart l = l

mutual
/-- Nodes that the dumper prints such that they read back; `inner`: below the root. -/
def Node.dumpable (cfg : DumpCfg) (inner : Bool) : Node → Prop
  | .mk _ t y => (PlainTag t ∨ CustomTag t) ∧ y.dumpable cfg inner
def Yaml.dumpable (cfg : DumpCfg) (inner : Bool) : Yaml → Prop
  | .null => True
  | .bool _ => True
  | .int s => ∃ κ, ScalarText κ s (.int s)
  | .float s => ∃ κ, ScalarText κ s (.float s)
  | .str s => LineStr s ∨ (inner = true ∧ cfg.windows = false ∧ MultiStr s)
  | .seq l => l ≠ [] ∧ itemsDumpable cfg l
  | .map m => m ≠ [] ∧ (∀ e ∈ m, Readable e.1) ∧ KeysDiffer m ∧ entriesDumpable cfg m
  | .alias _ => False
def itemsDumpable (cfg : DumpCfg) : List Node → Prop
  | [] => True
  | x :: xs => x.dumpable cfg true ∧ itemsDumpable cfg xs
def entriesDumpable (cfg : DumpCfg) : List (Node × Node) → Prop
  | [] => True
  | e :: es => entryDumpable cfg e ∧ entriesDumpable cfg es
def entryDumpable (cfg : DumpCfg) : Node × Node → Prop
  | (k, v) => (k.dumpable cfg false ∧ PlainTag k.rawTag) ∧
      v.dumpable cfg true ∧ (v.yaml.isColl = true → PlainTag v.rawTag)
end

/-! ## Text lemmas -/

theorem isWs_ascii {c : UInt8} (hc : c < 0x80) (d a : UInt8) : isWs2 c d = false ∧ isWs3 c d a = false := by
  have h1 := byte_forall (P := fun c => decide (c < 0x80 → c ≠ 0xC2 ∧ c ≠ 0xE1 ∧ c ≠ 0xE2 ∧ c ≠ 0xE3)) (by decide +kernel) c
  simp only [decide_eq_true_eq] at h1
  obtain ⟨h1, h2, h3, h4⟩ := h1 hc
  simp [isWs2, isWs3, h1, h2, h3, h4]

theorem trimStart_ascii {c : UInt8} (hc : c < 0x80) (hw : isWs1 c = false) (r : Bytes) :
    trimStart (c :: r) = c :: r := by
  unfold trimStart
  simp only [hw, Bool.false_eq_true, if_false]
  cases r with
  | nil => rfl
  | cons d r =>
    simp only [(isWs_ascii hc d 0).1, Bool.false_eq_true, if_false]
    cases r with
    | nil => rfl
    | cons a r => simp [(isWs_ascii hc d a).2]

theorem trimStart_ws {w : Bytes} (hw : ∀ x ∈ w, isWs1 x = true) (s : Bytes) : trimStart (w ++ s) = trimStart s := by
  induction w with
  | nil => rfl
  | cons c w ih =>
    rw [List.cons_append, trimStart.eq_def]
    simp only [hw c (by simp), if_true]
    exact ih fun x hx => hw x (by simp [hx])

theorem lines_short {s : Bytes} (h : ∀ c ∈ s, c ≠ 0x0A) : (lines s).length < 2 := by
  have : (splitInclNl s).length ≤ 1 := by
    induction s with
    | nil => simp [splitInclNl]
    | cons c r ih =>
      have := ih fun x hx => h x (by simp [hx])
      have hc : (c == 0x0A) = false := by simpa using h c (by simp)
      rw [splitInclNl, hc]
      simp only [Bool.false_eq_true, if_false]
      cases hs : splitInclNl r with
      | nil => simp
      | cons l ls => rw [hs] at this; simpa using this
  simp [lines]; omega

theorem new_state (s : Bytes) : Parser.new s = st .start [] [] s := by
  simp [st, Parser.new, Ctx.start]

/-- `string_plain` of a plain line is that line. -/
theorem plain_accepts {s : Bytes} (h : PlainText s) (n : Nat) (hn : s.length < n) :
    (stringPlain n 0 false (Parser.new s)).1 = .ok s := by
  have := stringPlain_read .start [] [] (level := 0) (inner := false) (T := s) (E := []) (.stop rfl)
    h.body h.utf8 h.ne h.trim n hn
  rw [List.append_nil] at this
  rw [new_state, this]

theorem plainBody_spaces {E : Bytes} (hE : ∀ r, E ≠ 0x23 :: r) : ∀ {B : Bytes} {ne : Bool}, (∀ x ∈ B, x = 0x20) →
    plainBody false E ne B = true
  | [], _, _ => rfl
  | c :: s, ne, h => by
    have hc := h c (by simp)
    subst hc
    have ih := plainBody_spaces hE (B := s) (ne := true) fun x hx => h x (by simp [hx])
    rw [plainBody, ih]
    have : (s ++ E).head? ≠ some 0x23 := by
      cases s with
      | nil =>
        cases E with
        | nil => simp
        | cons x r => intro h'; simp at h'; exact hE r (by rw [h'])
      | cons x s => simp [h x (by simp)]
    have : ((s ++ E).head? == some 0x23) = false := by rw [beq_eq_false_iff_ne]; exact this
    rw [this]; simp

theorem plain_rejects {B E : Bytes} (hB : ∀ x ∈ B, x = 0x20) (hE : stopB E = true) (hE' : ∀ r, E ≠ 0x23 :: r)
    (n : Nat) (hn : B.length < n) :
    (stringPlain n 0 false (Parser.new (B ++ E))).1 = .err .mismatch := by
  have hu : Utf8 B := Utf8.ascii fun x hx => by rw [hB x hx]; decide
  have hl := plainLoop_read .start (level := 0) (inner := false) (T := B) (E := E) (.stop hE)
    (plainBody_spaces hE' hB) n [] B [] [] rfl hu hn
  have htrim : trimEnd B = [] := by
    have := trimEnd_ws (s := []) (w := B) (fun x hx => by rw [hB x hx]; decide)
    rw [List.nil_append] at this; rw [this]; rfl
  have := context_st (k := .start) (k' := .start) (pre := []) (mid := []) (post := B ++ E) (p' := B)
    (m' := []) (post' := E) (o := .err .mismatch) (f := do
      let v ← plainLoop 0 false (plainPatt false) n [] false
      let v := trimEnd v
      if v.isEmpty then mismatch else pure v) (by
        rw [List.nil_append] at *
        rw [bind_ok hl]
        simp only [List.append_nil, htrim]
        simp)
  rw [new_state, stringPlain, this]

/-! ## Quoted strings -/

theorem chars_ascii : ∀ {s : Bytes} {n : Nat}, s.length ≤ n → (∀ x ∈ s, x < 0x80) → charsAux n s = s.map fun c => [c]
  | [], 0, _, _ => rfl
  | [], n + 1, _, _ => rfl
  | c :: s, 0, hn, _ => by simp at hn
  | c :: s, n + 1, hn, h => by
    have hc := h c (by simp)
    have : utf8Step c s = (true, 0) := (utf8Step_true_iff _ _ _).2 (.inl ⟨hc, rfl⟩)
    rw [charsAux]
    simp only [this, List.take_zero, List.drop_zero, List.map_cons]
    rw [chars_ascii (by simpa using hn) fun x hx => h x (by simp [hx])]

theorem escDebug_printable (cfg : DumpCfg) {c : UInt8} (h : 0x20 ≤ c ∧ c < 0x7F) : escDebugChar cfg [c] = quoteByte c := by
  have := byte_forall (P := fun c => decide (0x20 ≤ c ∧ c < 0x7F → c ≠ 0 ∧ c ≠ 9 ∧ c ≠ 0x0D ∧ c ≠ 0x0A ∧ c ≠ 8 ∧ c ≠ 0x0C ∧
    ¬ c < 0x20 ∧ c ≠ 0x7F)) (by decide +kernel) c
  simp only [decide_eq_true_eq] at this
  obtain ⟨h1, h2, h3, h4, h5, h6, h7, h8⟩ := this h
  by_cases hq : c = 0x22
  · subst hq; rfl
  · by_cases hb : c = 0x5C
    · subst hb; rfl
    · simp [escDebugChar, quoteByte, escapeByte, *]

theorem debugStr_printable (cfg : DumpCfg) {s : Bytes} (h : ∀ x ∈ s, 0x20 ≤ x ∧ x < 0x7F) :
    debugStr cfg s = doubleQuoted s := by
  have hs : ∀ x ∈ s, x < 0x80 := fun x hx => by
    have := byte_forall (P := fun c => decide (c < 0x7F → c < 0x80)) (by decide +kernel) x
    simp only [decide_eq_true_eq] at this
    exact this (h x hx).2
  rw [debugStr, chars, chars_ascii (Nat.le_refl _) hs, doubleQuoted]
  have : ((s.map fun c => [c]).map (escDebugChar cfg)).flatten = s.flatMap quoteByte := by
    rw [List.map_map, List.flatMap_def]
    congr 1
    apply List.map_congr_left
    intro x hx
    exact escDebug_printable cfg (h x hx)
  rw [this]; rfl

/-! ## Strings of several lines -/

/-- `s` starts with a white space character. -/
def startWs : Bytes → Bool
  | [] => false
  | c :: r1 => isWs1 c || match r1 with
    | [] => false
    | d :: r2 => isWs2 c d || match r2 with
      | [] => false
      | a :: _ => isWs3 c d a

theorem trimStart_of_startWs {s : Bytes} (h : startWs s = false) : trimStart s = s := by
  unfold trimStart
  cases s with
  | nil => rfl
  | cons c r =>
    simp only [startWs, Bool.or_eq_false_iff] at h
    cases r with
    | nil => simp [h.1]
    | cons d r =>
      simp only [Bool.or_eq_false_iff] at h
      cases r with
      | nil => simp [h.1, h.2.1]
      | cons a r => simp only at h; simp [h.1, h.2.1, h.2.2]

theorem trimStart_length : ∀ s : Bytes, (trimStart s).length ≤ s.length := by
  intro s
  induction h : s.length using Nat.strongRecOn generalizing s with
  | _ n ih =>
    subst h
    rw [trimStart.eq_def]
    split
    · simp
    · rename_i c r
      split
      · have := ih r.length (by simp) r rfl; simp; omega
      · split
        · simp
        · rename_i d r
          split
          · have := ih r.length (by simp; omega) r rfl; simp; omega
          · split
            · simp
            · rename_i a r
              split
              · have := ih r.length (by simp; omega) r rfl; simp; omega
              · simp

theorem startWs_of_trimStart {s : Bytes} (h : trimStart s = s) : startWs s = false := by
  have hl := congrArg List.length h
  rw [trimStart.eq_def] at hl
  cases s with
  | nil => rfl
  | cons c r =>
    simp only at hl
    cases h1 : isWs1 c with
    | true =>
      simp only [h1, if_true] at hl
      have := trimStart_length r
      simp at hl; omega
    | false =>
      simp only [h1, Bool.false_eq_true, if_false] at hl
      cases r with
      | nil => simp [startWs, h1]
      | cons d r =>
        simp only at hl
        cases h2 : isWs2 c d with
        | true =>
          simp only [h2, if_true] at hl
          have := trimStart_length r
          simp at hl; omega
        | false =>
          simp only [h2, Bool.false_eq_true, if_false] at hl
          cases r with
          | nil => simp [startWs, h1, h2]
          | cons a r =>
            simp only at hl
            cases h3 : isWs3 c d a with
            | true =>
              simp only [h3, if_true] at hl
              have := trimStart_length r
              simp at hl; omega
            | false => simp [startWs, h1, h2, h3]

theorem startWs_append {l : Bytes} (h : Utf8 l) (hne : l ≠ []) (X : Bytes) : startWs (l ++ X) = startWs l := by
  cases h with
  | nil => exact absurd rfl hne
  | char c rest k hk hu =>
    have hc : (¬ c < 0x80 → isWs1 c = false) ∧ ((0xC2 ≤ c && c ≤ 0xDF) = true → c ≠ 0xE1 ∧ c ≠ 0xE2 ∧ c ≠ 0xE3) := by
      have := byte_forall (P := fun c => decide ((¬ c < 0x80 → isWs1 c = false) ∧
        ((0xC2 ≤ c && c ≤ 0xDF) = true → c ≠ 0xE1 ∧ c ≠ 0xE2 ∧ c ≠ 0xE3))) (by decide +kernel) c
      simpa only [decide_eq_true_eq] using this
    rcases (utf8Step_true_iff _ _ _).1 hk with ⟨h0, _⟩ | ⟨h0, h1, _, b1, r, rfl, _⟩ | ⟨_, _, _, _, b1, b2, r, rfl, _⟩ |
      ⟨_, _, _, _, _, b1, b2, b3, r, rfl, _⟩
    · have : ∀ s, startWs (c :: s) = isWs1 c := by
        intro s
        cases s with
        | nil => simp [startWs]
        | cons d s =>
          cases s with
          | nil => simp only [startWs, (isWs_ascii h0 d 0).1, Bool.or_false]
          | cons a s => simp only [startWs, (isWs_ascii h0 d a).1, (isWs_ascii h0 d a).2, Bool.or_false]
      rw [List.cons_append, this, this]
    · obtain ⟨e1, e2, e3⟩ := hc.2 h1
      cases r with
      | nil =>
        cases X with
        | nil => rfl
        | cons a X =>
          have : isWs3 c b1 a = false := by
            simp only [isWs3, beq_eq_false_iff_ne.2 e1, beq_eq_false_iff_ne.2 e2, beq_eq_false_iff_ne.2 e3]; rfl
          simp only [List.cons_append, List.nil_append, startWs, this]
      | cons a r => rfl
    · rfl
    · rfl

theorem trimStart_append {l : Bytes} (h : Utf8 l) (hne : l ≠ []) (ht : trimStart l = l) (X : Bytes) :
    trimStart (l ++ X) = l ++ X := by
  apply trimStart_of_startWs
  rw [startWs_append h hne, startWs_of_trimStart ht]

theorem splitInclNl_line {l : Bytes} (h : ∀ c ∈ l, c ≠ 0x0A) (r : Bytes) :
    splitInclNl (l ++ 0x0A :: r) = (l ++ [0x0A]) :: splitInclNl r := by
  induction l with
  | nil => simp [splitInclNl]
  | cons c l ih =>
    have hc : (c == 0x0A) = false := by simpa using h c (by simp)
    rw [List.cons_append, splitInclNl, hc, ih fun x hx => h x (by simp [hx])]
    simp

theorem stripLine_line {l : Bytes} (h : ∀ c ∈ l, c ≠ 0x0D) : stripLine (l ++ [0x0A]) = l := by
  unfold stripLine
  rw [List.reverse_append]
  simp only [List.reverse_cons, List.reverse_nil, List.nil_append, List.singleton_append]
  split
  · rename_i r he
    have : (0x0D : UInt8) ∈ l.reverse := by
      have := (List.cons.inj he).2; rw [this]; simp
    exact absurd rfl (h _ (by simpa using this))
  · rename_i r he
    have := (List.cons.inj he).2
    rw [← this]; simp
  · rename_i he
    exact absurd rfl (he _)

theorem lines_literal : ∀ {ls : List Bytes}, ls ≠ [] → (∀ l ∈ ls, ∀ c ∈ l, c ≠ 0x0A ∧ c ≠ 0x0D) →
    lines (literalValue ls ++ [0x0A]) = ls
  | [], h, _ => absurd rfl h
  | [l], _, h => by
    have hl := h l (by simp)
    rw [literalValue, lines, splitInclNl_line fun c hc => (hl c hc).1]
    simp [splitInclNl, stripLine_line fun c hc => (hl c hc).2]
  | l :: m :: ls, _, h => by
    have hl := h l (by simp)
    have ih := lines_literal (ls := m :: ls) (by simp) fun x hx => h x (by simp [hx])
    rw [literalValue, lines, List.append_assoc, List.cons_append, splitInclNl_line fun c hc => (hl c hc).1]
    rw [lines] at ih
    rw [List.map_cons, ih, stripLine_line fun c hc => (hl c hc).2]

theorem blockLines_join (τ : Nat) : ∀ {ls : List Bytes}, ls ≠ [] →
    blockLines τ ls = 0x0A :: joinBytes [0x0A] (ls.map fun l => if l = [] then [] else spaces τ ++ l)
  | [], h => absurd rfl h
  | [l], _ => by simp [blockLines, joinBytes]
  | l :: m :: ls, _ => by
    have ih := blockLines_join τ (ls := m :: ls) (by simp)
    have e : blockLines τ (l :: m :: ls) = 0x0A :: (if l = [] then [] else spaces τ ++ l) ++ blockLines τ (m :: ls) := by
      simp [blockLines]
    rw [e, ih]
    simp [joinBytes]

theorem blockLines_last (τ : Nat) {ls : List Bytes} {t : Bytes} (h : ls.getLast? = some t) (ht : t ≠ []) :
    ∃ a, blockLines τ ls = a ++ t := by
  obtain ⟨ys, rfl⟩ := List.getLast?_eq_some_iff.1 h
  exact ⟨blockLines τ ys ++ 0x0A :: spaces τ, by simp [blockLines, ht]⟩

/-- The dumper prints a string of several lines as a literal block. -/
theorem dumpStr_multi {cfg : DumpCfg} (hw : cfg.windows = false) {ls : List Bytes} (h2 : 2 ≤ ls.length)
    (hb : BlockScalar ls) (he : ∀ l ∈ ls, endsWithWs l = false) (hf : ∀ l, ls.head? = some l → trimStart l = l)
    (n level : Nat) :
    dumpStr cfg n level (literalValue ls ++ [0x0A]) = .ok (0x7C :: blockLines (2 * level) ls) := by
  have hnb : ∀ l ∈ ls, ∀ c ∈ l, c ≠ 0x0A ∧ c ≠ 0x0D := by
    intro l hl c hc
    exact (hb.lines l hl (by rintro rfl; simp at hc)).noBreak c hc
  have hne : ls ≠ [] := by rintro rfl; simp at h2
  have hnl : cfg.nl = [0x0A] := by simp [DumpCfg.nl, hw]
  rw [dumpStr, lines_literal hne hnb, if_pos h2, hnl]
  have hmap : (ls.map fun l => if l.isEmpty then [] else indent2 level ++ trimEnd l) =
      ls.map fun l => if l = [] then [] else spaces (2 * level) ++ l := by
    apply List.map_congr_left
    intro l hl
    cases l with
    | nil => rfl
    | cons c l => simp [indent2, trimEnd_of_endsWithWs (he _ hl)]
  have hjoin := blockLines_join (2 * level) hne
  simp only [hmap]
  obtain ⟨l, r, rfl, hl⟩ := hb.first
  have hr : r ≠ [] := by rintro rfl; simp at h2
  have hbody : joinBytes [0x0A] ((l :: r).map fun l => if l = [] then [] else spaces (2 * level) ++ l) =
      spaces (2 * level) ++ (l ++ blockLines (2 * level) r) := by
    have : blockLines (2 * level) (l :: r) = 0x0A :: (spaces (2 * level) ++ (l ++ blockLines (2 * level) r)) := by
      simp [blockLines, hl]
    rw [this] at hjoin
    exact (List.cons.inj hjoin).2.symm
  have hlu := (hb.lines l (by simp) hl).utf8
  have hts : trimStart (spaces (2 * level) ++ (l ++ blockLines (2 * level) r)) = l ++ blockLines (2 * level) r := by
    rw [trimStart_ws, trimStart_append hlu hl (hf l rfl)]
    intro x hx; simp [spaces] at hx; rw [hx.2]; decide
  have hte : trimEnd (l ++ blockLines (2 * level) r) = l ++ blockLines (2 * level) r := by
    obtain ⟨t, ht, htn, htw⟩ := hb.last
    have ht' : r.getLast? = some t := by
      obtain ⟨m, r', rfl⟩ := List.exists_cons_of_ne_nil hr
      simpa [List.getLast?_cons_cons] using ht
    obtain ⟨a, ha⟩ := blockLines_last (2 * level) ht' htn
    apply trimEnd_of_endsWithWs
    rw [ha, ← List.append_assoc, endsWithWs_append, htw]
    · exact (hb.lines t (List.mem_of_getLast? ht) htn).utf8
    · exact htn
  rw [hbody, trim, hts, hte]
  rw [hjoin, hbody]
  simp [indent2]

/-! ## Scalars -/

theorem LineStr.dump (cfg : DumpCfg) {s : Bytes} (h : LineStr s) : ∃ T, ScalarText .loose T (.str s) ∧ trimStart T = T ∧
    ∃ N, ∀ n, N ≤ n → ∀ level, dumpStr cfg n level s = .ok T := by
  cases h with
  | plain hp hk ht =>
    refine ⟨s, .plain hp hk, ht, s.length + 1, fun n hn level => ?_⟩
    have := lines_short fun c hc => (hp.noBreak c hc).1
    rw [dumpStr, if_neg (by omega), plain_accepts hp.plain n (by omega)]
  | @quoted B E hB hE hp hl =>
    have hasc : ∀ x ∈ B ++ E, x < 0x80 ∧ x ≠ 0x0A := fun x hx => by
      have := byte_forall (P := fun c => decide (0x20 ≤ c ∧ c < 0x7F → c < 0x80 ∧ c ≠ 0x0A)) (by decide +kernel) x
      simp only [decide_eq_true_eq] at this
      exact this (hp x hx)
    refine ⟨doubleQuoted (B ++ E), .double (Utf8.ascii fun x hx => (hasc x hx).1) hl,
      trimStart_ascii (by decide) (by decide) _, B.length + 1, fun n hn level => ?_⟩
    have := lines_short fun c hc => (hasc c hc).2
    rw [dumpStr, if_neg (by omega), plain_rejects hB ?_ ?_ n (by omega), debugStr_printable cfg hp]
    · rcases hE with rfl | ⟨r, rfl⟩ | ⟨r, rfl⟩ <;> rfl
    · rcases hE with rfl | ⟨r, rfl⟩ | ⟨r, rfl⟩ <;> simp

theorem trimStart_digits {sg d : Bytes} (hsg : IsSign sg) (hd : IsDigits d) (r : Bytes) :
    trimStart (sg ++ d ++ r) = sg ++ d ++ r := by
  rcases hsg.cases with rfl | rfl
  · obtain ⟨x, d', rfl⟩ := List.exists_cons_of_ne_nil hd.1
    have hx := hd.2 x (by simp)
    have := byte_forall (P := fun c => decide (isDigit c = true → c < 0x80 ∧ isWs1 c = false)) (by decide +kernel) x
    simp only [decide_eq_true_eq] at this
    exact trimStart_ascii (this hx).1 (this hx).2 _
  · exact trimStart_ascii (by decide) (by decide) _

theorem ScalarText.trimmed {κ : EndKind} {T : Bytes} {y : Yaml} (h : ScalarText κ T y) (hy : ∀ s, y ≠ .str s) :
    trimStart T = T := by
  cases h with
  | plain => exact absurd rfl (hy _)
  | keyword hk =>
    have : ∀ kv ∈ Props.keywords, trimStart kv.1 = kv.1 := by decide +kernel
    exact this _ hk
  | int hsg hd => have := trimStart_digits hsg hd []; simpa using this
  | hex => exact trimStart_ascii (by decide) (by decide) _
  | oct => exact trimStart_ascii (by decide) (by decide) _
  | float hsg hd => exact trimStart_digits hsg hd _
  | @sci sg d es ed e hsg hd =>
    have := trimStart_digits hsg hd (e :: es ++ ed)
    simpa only [List.append_assoc, List.cons_append] using this
  | single => exact absurd rfl (hy _)
  | double => exact absurd rfl (hy _)
  | singleFold => exact absurd rfl (hy _)
  | doubleFold => exact absurd rfl (hy _)

theorem scalar_dump (cfg : DumpCfg) {y : Yaml} (hs : y.isScalar = true) (h : y.dumpable cfg false) :
    ∃ κ T, ScalarText κ T y ∧ trimStart T = T ∧
      ∃ N, ∀ n, N ≤ n → ∀ root level, dumpYaml cfg n [] root level y = .ok T := by
  cases y with
  | null =>
    refine ⟨.loose, b!"null", .keyword (by simp [Props.keywords]), by decide, 0, fun n _ root level => by rw [dumpYaml]⟩
  | bool b =>
    cases b
    · exact ⟨.loose, b!"false", .keyword (by simp [Props.keywords]), by decide, 0, fun n _ root level => by simp [dumpYaml]⟩
    · exact ⟨.loose, b!"true", .keyword (by simp [Props.keywords]), by decide, 0, fun n _ root level => by simp [dumpYaml]⟩
  | int s =>
    simp only [Yaml.dumpable] at h
    obtain ⟨κ, h⟩ := h
    exact ⟨κ, s, h, h.trimmed (by simp), 0, fun n _ root level => by simp [dumpYaml]⟩
  | float s =>
    simp only [Yaml.dumpable] at h
    obtain ⟨κ, h⟩ := h
    exact ⟨κ, s, h, h.trimmed (by simp), 0, fun n _ root level => by simp [dumpYaml]⟩
  | str s =>
    simp only [Yaml.dumpable] at h
    rcases h with h | h
    · obtain ⟨T, h1, h2, N, h3⟩ := h.dump cfg
      exact ⟨.loose, T, h1, h2, N, fun n hn root level => by rw [dumpYaml, h3 n hn]⟩
    · simp at h
  | _ => simp [Yaml.isScalar] at hs

/-! ## Nodes -/

theorem DumpCfg.nl_break (cfg : DumpCfg) : LineBreak cfg.nl := by
  unfold DumpCfg.nl
  cases cfg.windows
  · exact .inl rfl
  · exact .inr rfl

theorem afterLines_nl (cfg : DumpCfg) {κ : EndKind} (h : κ = .loose ∨ κ = .strict ∨ (∃ τ, κ = .lit τ) ∧ cfg.windows = false) :
    AfterLines κ cfg.nl := by
  refine ⟨cfg.nl, [], [], cfg.nl_break, by simp [gapLines], .inl rfl, by simp, ?_⟩
  rcases h with rfl | rfl | ⟨⟨τ, rfl⟩, hw⟩
  · exact .inl rfl
  · rfl
  · exact ⟨by simp [DumpCfg.nl, hw], rfl, by simp⟩

theorem leadLines_nl (cfg : DumpCfg) (τ : Nat) : LeadLines τ (cfg.nl ++ spaces τ) :=
  ⟨cfg.nl, [], [], cfg.nl_break, .inl rfl, by simp, by simp, by simp [gapLines]⟩

theorem dumpNode_eq {cfg : DumpCfg} {p : Nat} {t : Bytes} {y : Yaml} (ht : PlainTag t)
    (n : Nat) (root : Root) (level : Nat) :
    dumpNode cfg n [] root level (.mk p t y) = dumpYaml cfg n [] root level y := by
  have htag : tagText (.mk p t y) = [] := by
    have hs : startsWith (Node.mk p t y).tagOf tagPrefix = true ∨ (Node.mk p t y).tagOf = [] := by
      rcases ht with rfl | ht
      · cases y <;> simp [Node.tagOf, Node.rawTag, Node.yaml, startsWith]
      · unfold Node.tagOf Node.rawTag
        simp only
        split
        · cases y <;> simp [Node.yaml, startsWith]
        · exact .inl ht
    unfold tagText
    rcases hs with hs | hs <;> simp [hs]
  rw [dumpNode, htag]
  show Out.bind (.ok []) _ = _
  simp only [Out.bind]
  show Out.bind (dumpYaml cfg n [] root level y) _ = _
  cases dumpYaml cfg n [] root level y <;> rfl

/-- A custom tag, as it is printed. -/
def tagOut (t : Bytes) : Bytes := if headAlnum t then 0x21 :: t else 0x21 :: 0x3C :: (t ++ [0x3E])

theorem CustomTag.ne {t : Bytes} (h : CustomTag t) : t ≠ [] := h.elim IsIdent.ne And.left

theorem CustomTag.text {t : Bytes} (h : CustomTag t) (tbl : List (Bytes × Bytes)) : TagText tbl (tagOut t) t := by
  unfold tagOut
  rcases h with h | ⟨h1, h2, h3, h4⟩
  · rw [if_pos h.1]; exact .local h
  · rw [if_neg (by simp [h2])]; exact .verbatim h1 h3 h4

theorem tagOut_head (t : Bytes) : ∃ r, tagOut t = 0x21 :: r := by unfold tagOut; split <;> exact ⟨_, rfl⟩

theorem IsIdent.noPrefix {t : Bytes} (h : IsIdent t) : startsWith t tagPrefix = false := by
  rw [Bool.eq_false_iff]
  intro hp
  have : (0x3A : UInt8) ∈ t := by
    unfold startsWith at hp
    exact (List.isPrefixOf_iff_prefix.1 hp).subset (by decide)
  exact absurd (h.2 _ this) (by decide)

theorem headAlnum_prefix {t : Bytes} (h : headAlnum t = false) : startsWith t tagPrefix = false := by
  rw [Bool.eq_false_iff]
  intro hp
  unfold startsWith at hp
  obtain ⟨r, rfl⟩ := List.isPrefixOf_iff_prefix.1 hp
  simp [tagPrefix, headAlnum] at h
  revert h; decide

theorem CustomTag.noPrefix {t : Bytes} (h : CustomTag t) : startsWith t tagPrefix = false :=
  h.elim IsIdent.noPrefix fun h => headAlnum_prefix h.2.1

theorem CustomTag.kept {t : Bytes} (h : CustomTag t) : keptTag t = t := by rw [keptTag, h.noPrefix]; rfl

theorem PlainTag.kept {t : Bytes} (h : PlainTag t) : keptTag t = [] := by
  unfold keptTag
  rcases h with rfl | h
  · split <;> rfl
  · rw [if_pos h]

theorem identifier_new (t : Bytes) : (identifier (Parser.new t)).1.isOk = headAlnum t := by
  have : Parser.new t = st .start [] [] t := by simp [st, Parser.new, Ctx.start]
  rw [this, identifier_eq]
  cases h : headAlnum t <;> simp [Out.isOk]

theorem tagText_custom {p : Nat} {t : Bytes} {y : Yaml} (ht : CustomTag t) :
    tagText (.mk p t y) = tagOut t ++ b!" " := by
  have h1 : (Node.mk p t y).tagOf = t := by
    have := ht.ne
    unfold Node.tagOf Node.rawTag
    split
    · contradiction
    · rfl
  unfold tagText
  rw [h1]
  simp only [isEmpty_of_ne ht.ne, ht.noPrefix, Bool.not_false, Bool.and_self, if_true, identifier_new, tagOut]
  split <;> simp

theorem dumpNode_custom {cfg : DumpCfg} {p : Nat} {t : Bytes} {y : Yaml} (ht : CustomTag t) {n : Nat} {root : Root}
    {level : Nat} {s : Bytes} (h : dumpYaml cfg n [] root level y = .ok s) :
    dumpNode cfg n [] root level (.mk p t y) = .ok (tagOut t ++ (b!" " ++ s)) := by
  rw [dumpNode, tagText_custom ht]
  show Out.bind (.ok []) _ = _
  simp only [Out.bind]
  show Out.bind (dumpYaml cfg n [] root level y) _ = _
  rw [h]
  show Out.ok _ = _
  simp

theorem truncNl_append (cfg : DumpCfg) (s : Bytes) : truncNl cfg (s ++ cfg.nl) = .ok s := by
  unfold truncNl
  rw [if_pos (by simp)]
  simp

/-- Everything a dumped tree satisfies, whatever surrounds it. -/
def Dumped (cfg : DumpCfg) (b : Blk) (y : Yaml) : Prop :=
  (b.text ≠ [] ∧ AfterLines b.kind cfg.nl) ∧ b.still ∧ ∀ p e, (b.data p e).noPos = y.erase

/-- The same for a node. -/
def DumpedN (cfg : DumpCfg) (b : Blk) (x : Node) : Prop := Dumped cfg b x.yaml ∧ b.tag = keptTag x.rawTag

theorem DumpedN.noPos {cfg : DumpCfg} {b : Blk} {x : Node} (h : DumpedN cfg b x) (q p : Nat) (e : Env) :
    (Node.mk q b.tag (b.data p e)).noPos = x.erase := by
  obtain ⟨p', t, y⟩ := x
  rw [Node.noPos, Node.erase, h.1.2.2, h.2]; rfl

/-- Dumped as the root or an item. -/
def ItemClaim (cfg : DumpCfg) (x : Node) : Prop :=
  ∀ root level inner, root ≠ .map → (inner = true → 0 < level) → x.dumpable cfg inner →
    ∃ b : Blk, b.okN (2 * level) ∧ DumpedN cfg b x ∧ (PlainTag x.rawTag → b.bare = true) ∧
      ((b.lead = [] ∧ ∀ X, trimStart (b.text ++ X) = b.text ++ X) ∨
        (b.lead = cfg.nl ++ spaces (2 * level) ∧ ∃ r, b.text = b.lead ++ 0x2D :: r)) ∧
      ∃ N, ∀ n, N ≤ n → dumpNode cfg n [] root level x = .ok b.text

/-- Dumped as a value. -/
def ValueClaim (cfg : DumpCfg) (x : Node) : Prop :=
  ∀ level lv, (lv = level + 1 ∨ (lv = level ∧ ∃ l, x.yaml = .seq l)) → x.dumpable cfg true →
    (x.yaml.isColl = true → PlainTag x.rawTag) →
    ∃ (sp : Bytes) (b : Blk), SepIs sp b.lead ∧ b.okV (2 * level) ∧ DumpedN cfg b x ∧
      ∃ N, ∀ n, N ≤ n → ∃ t, dumpNode cfg n [] .map lv x = .ok t ∧
        (if x.yaml.isColl then t else b!" " ++ t) = sp ++ b.text

/-- The data, dumped as the root or an item. -/
def YItemClaim (cfg : DumpCfg) (y : Yaml) : Prop :=
  ∀ root level inner, root ≠ .map → (inner = true → 0 < level) → y.dumpable cfg inner →
    ∃ b : Blk, b.bare = true ∧ b.okN (2 * level) ∧ Dumped cfg b y ∧
      ((b.lead = [] ∧ ∀ X, trimStart (b.text ++ X) = b.text ++ X) ∨
        (b.lead = cfg.nl ++ spaces (2 * level) ∧ ∃ r, b.text = b.lead ++ 0x2D :: r)) ∧
      ∃ N, ∀ n, N ≤ n → dumpYaml cfg n [] root level y = .ok b.text

/-- The data, dumped as a value. -/
def YValueClaim (cfg : DumpCfg) (y : Yaml) : Prop :=
  ∀ level lv, (lv = level + 1 ∨ (lv = level ∧ ∃ l, y = .seq l)) → y.dumpable cfg true →
    ∃ (sp : Bytes) (b : Blk), b.bare = true ∧ SepIs sp b.lead ∧ (y.isColl = false → sp = b!" " ∧ b.lead = []) ∧
      b.okV (2 * level) ∧ Dumped cfg b y ∧
      ∃ N, ∀ n, N ≤ n → ∃ t, dumpYaml cfg n [] .map lv y = .ok t ∧
        (if y.isColl then t else b!" " ++ t) = sp ++ b.text

theorem bare_tag {b : Blk} (h : b.bare = true) : b.tag = [] := by
  cases b <;> first | rfl | simp [Blk.bare] at h

/-- The tree behind a custom tag. -/
theorem Dumped.tag {cfg : DumpCfg} {b : Blk} {y : Yaml} (h : Dumped cfg b y) {t : Bytes} (ht : CustomTag t) (pos : Nat) :
    DumpedN cfg (.prop (.tag (tagOut t) t b!" ") b) (.mk pos t y) := by
  refine ⟨⟨?_, ?_, fun p e => ?_⟩, ?_⟩
  · simp only [Blk.kind]; exact ⟨by simp [Blk.text, h.1.1], h.1.2⟩
  · simp only [Blk.still]; exact ⟨fun tbl => ht.text tbl, rfl, h.2.1⟩
  · simp only [Blk.data]; exact h.2.2 _ _
  · rw [Blk.tag, Form.val, Node.rawTag, ht.kept]

theorem item_node {cfg : DumpCfg} {y : Yaml} (h : YItemClaim cfg y) (pos : Nat) (t : Bytes) : ItemClaim cfg (.mk pos t y) := by
  intro root level inner hroot hin hd
  rw [Node.dumpable] at hd
  obtain ⟨ht, hd⟩ := hd
  obtain ⟨b, hb, hok, hdm, hl, N, hN⟩ := h root level inner hroot hin hd
  by_cases hp : PlainTag t
  · refine ⟨b, hok, ⟨hdm, ?_⟩, fun _ => hb, hl, N, fun n hn => by rw [dumpNode_eq hp, hN n hn]⟩
    rw [bare_tag hb, Node.rawTag, hp.kept]
  · replace ht := ht.resolve_left hp
    refine ⟨.prop (.tag (tagOut t) t b!" ") b, ?_, hdm.tag ht pos, fun h => absurd h hp, .inl ⟨rfl, fun X => ?_⟩, N,
      fun n hn => ?_⟩
    · rw [Blk.okN]; exact ⟨⟨tagOut_head t, by simp; decide, .inl ⟨[], rfl⟩⟩, hb, hdm.1.1, hok⟩
    · obtain ⟨r, hr⟩ := tagOut_head t
      rw [Blk.text, Form.text, hr]
      exact trimStart_ascii (by decide) (by decide) _
    · rw [dumpNode_custom ht (hN n hn), Blk.text, Form.text, List.append_assoc]

theorem value_node {cfg : DumpCfg} {y : Yaml} (h : YValueClaim cfg y) (pos : Nat) (t : Bytes) : ValueClaim cfg (.mk pos t y) := by
  intro level lv hlv hd hcoll
  rw [Node.dumpable] at hd
  obtain ⟨ht, hd⟩ := hd
  obtain ⟨sp, b, hb, hsp, hspc, hok, hdm, N, hN⟩ := h level lv hlv hd
  by_cases hp : PlainTag t
  · refine ⟨sp, b, hsp, hok, ⟨hdm, ?_⟩, N, fun n hn => ?_⟩
    · rw [bare_tag hb, Node.rawTag, hp.kept]
    · obtain ⟨s, h1, h2⟩ := hN n hn
      exact ⟨s, by rw [dumpNode_eq hp, h1], h2⟩
  · replace ht := ht.resolve_left hp
    have hc : y.isColl = false := by
      rw [Bool.eq_false_iff]; intro h; exact hp (hcoll h)
    obtain ⟨rfl, hlead⟩ := hspc hc
    refine ⟨b!" ", .prop (.tag (tagOut t) t b!" ") b, ⟨by simp; decide, .inl ⟨[], rfl⟩⟩, ?_, hdm.tag ht pos, N, fun n hn => ?_⟩
    · rw [Blk.okV]; exact ⟨⟨tagOut_head t, by simp; decide, .inl ⟨[], rfl⟩⟩, hb, hdm.1.1, hok⟩
    · obtain ⟨s, h1, h2⟩ := hN n hn
      refine ⟨_, dumpNode_custom ht h1, ?_⟩
      simp only [hc, Bool.false_eq_true, if_false, Node.yaml] at h2 ⊢
      rw [Blk.text, Form.text, h2]; simp

def ItemsClaim (cfg : DumpCfg) (l : List Node) : Prop :=
  ∀ level, ∃ its : Items, its.ok (2 * level) ∧ AfterLines its.kind cfg.nl ∧
    its.still ∧ (∀ p e, noPosNodes (its.nodes (2 * level) p e) = eraseNodes l) ∧
    ∃ N, ∀ n, N ≤ n → ∀ first, dumpItems cfg n [] level first l =
      .ok (spaces (2 * level) ++ 0x2D :: (its.sp ++ (its.body (2 * level) ++ cfg.nl)))

def EntriesClaim (cfg : DumpCfg) (m : List (Node × Node)) : Prop :=
  ∀ root level first, ∃ es : CEnts, es.ok (2 * level) ∧ (es.c ≠ none ∨ es.b.bare = true) ∧
    AfterLines es.kind cfg.nl ∧ (∀ X, trimStart (es.K (2 * level) ++ X) = es.K (2 * level) ++ X) ∧
    es.still ∧ (∀ p e, noPosEntries (es.pairs (2 * level) p e) = eraseEntries m) ∧
    ∃ N, ∀ n, N ≤ n → dumpEntries cfg n [] root level first m =
      .ok ((if !first || root = .map then indent2 level else []) ++
        (es.K (2 * level) ++ 0x3A :: (es.sp ++ (es.body (2 * level) ++ cfg.nl))))

/-- A collection, dumped as a key. -/
def KeyClaim (cfg : DumpCfg) (k : Node) : Prop :=
  ∀ level, k.yaml.isColl = true → k.dumpable cfg false → PlainTag k.rawTag →
    ∃ b : Blk, (∃ r, b.lead = cfg.nl ++ r) ∧ b.okV (2 * level) ∧ DumpedN cfg b k ∧
      ∃ N, ∀ n, N ≤ n → ∃ t, dumpNode cfg n [] .map (level + 1) k = .ok t ∧ b.text = cfg.nl ++ t

theorem sepIs_blank (lead : Bytes) : SepIs b!" " lead := ⟨by simp; decide, .inl ⟨[], rfl⟩⟩

theorem sepIs_none (cfg : DumpCfg) (r : Bytes) : SepIs [] (cfg.nl ++ r) :=
  ⟨by simp, .inr ⟨rfl, cfg.nl, r, cfg.nl_break, rfl⟩⟩

theorem items_claim (cfg : DumpCfg) : ∀ {l : List Node}, l ≠ [] → itemsDumpable cfg l → (∀ x ∈ l, ItemClaim cfg x) →
    ItemsClaim cfg l
  | [], h, _, _ => absurd rfl h
  | x :: xs, _, hd, hc => by
    intro level
    rw [itemsDumpable] at hd
    obtain ⟨b, hok, hdm, _, hlead, N, hN⟩ := hc x (by simp) .array (level + 1) true (by simp) (by simp) hd.1
    have hok' : b.okN (2 * level + 2) := by rw [Nat.mul_add] at hok; exact hok
    have hind : ∀ first, (if !first || level != 0 then indent2 level else []) = spaces (2 * level) := by
      intro first
      by_cases h0 : level = 0
      · subst h0; cases first <;> rfl
      · simp [h0, indent2]
    cases xs with
    | nil =>
      refine ⟨.one b!" " b, ?_, hdm.1.1.2, hdm.1.2.1, ?_, N, fun n hn first => ?_⟩
      · rw [Items.ok]; exact ⟨.inl (sepIs_blank _), hok'⟩
      · intro p e
        simp only [Items.nodes, noPosNodes, eraseNodes]
        rw [hdm.noPos]
      · rw [dumpItems, hN n hn, dumpItems, hind]
        show Out.ok _ = _
        simp [Items.sp, Items.body]
    | cons x' xs =>
      obtain ⟨its, iok, ikind, istill, idata, N', hN'⟩ := items_claim cfg (l := x' :: xs) (by simp) hd.2
        (fun y hy => hc y (by simp [hy])) level
      refine ⟨.cons b!" " b cfg.nl its, ?_, ikind, ⟨hdm.1.2.1, istill⟩, ?_, max N N', fun n hn first => ?_⟩
      · rw [Items.ok]; exact ⟨.inl (sepIs_blank _), hok', hdm.1.1.2, iok⟩
      · intro p e
        rw [Items.nodes, noPosNodes, idata, hdm.noPos]; simp [eraseNodes]
      · rw [dumpItems, hN n (by omega), hN' n (by omega), hind]
        show Out.ok _ = _
        simp [Items.sp, Items.body]

theorem erase_of_yaml {k : Node} {p : Nat} {y : Yaml} (h : y.noPos = k.yaml.erase) (ht : PlainTag k.rawTag) :
    (Node.mk p [] y).noPos = k.erase := by
  obtain ⟨q, t', y'⟩ := k
  simp only [Node.rawTag] at ht
  simp only [Node.erase, Node.noPos, Node.yaml, ht.kept] at h ⊢; rw [h]

theorem noPos_scalar {y : Yaml} (h : y.isScalar = true) : y.noPos = y.erase := by
  cases y <;> first | rfl | simp [Yaml.isScalar] at h

theorem startsT {T : Bytes} {κ : EndKind} {y : Yaml} (h : ScalarText κ T y) (ht : trimStart T = T) (X : Bytes)
    (hu : Utf8 T) : trimStart (T ++ X) = T ++ X :=
  trimStart_append hu (by have := h.leaf.2.head; rintro rfl; simp at this) ht X

theorem ScalarText.utf8 {κ : EndKind} {T : Bytes} {y : Yaml} (h : ScalarText κ T y) : Utf8 T := by
  have dig : ∀ {x : UInt8}, isDigit x = true → x < 0x80 := fun {x} hx => by
    have := byte_forall (P := fun c => decide (isDigit c = true → c < 0x80)) (by decide +kernel) x
    simp only [decide_eq_true_eq] at this
    exact this hx
  have rad : ∀ {r : Nat} {x : UInt8}, (r = 16 ∨ r = 8) → isRadixDigit r x = true → x < 0x80 := fun {r x} hr hx => by
    have := byte_forall (P := fun c => decide ((isRadixDigit 16 c = true ∨ isRadixDigit 8 c = true) → c < 0x80)) (by decide +kernel) x
    simp only [decide_eq_true_eq] at this
    rcases hr with rfl | rfl
    · exact this (.inl hx)
    · exact this (.inr hx)
  have sgn : ∀ {sg : Bytes}, IsSign sg → ∀ x ∈ sg, x < 0x80 := fun {sg} h x hx => by
    rcases h.cases with rfl | rfl
    · simp at hx
    · simp at hx; subst hx; decide
  cases h with
  | plain hT => exact hT.utf8
  | keyword hk =>
    have : ∀ kv ∈ Props.keywords, ∀ x ∈ kv.1, x < 0x80 := by decide +kernel
    exact Utf8.ascii (this _ hk)
  | int hsg hd =>
    apply Utf8.ascii
    intro x hx
    rcases List.mem_append.1 hx with h | h
    · exact sgn hsg x h
    · exact dig (hd.2 x h)
  | hex hne hd =>
    apply Utf8.ascii
    intro x hx
    simp only [List.mem_cons] at hx
    rcases hx with rfl | rfl | hx
    · decide
    · decide
    · exact rad (.inl rfl) (hd x hx).1
  | oct hne hd =>
    apply Utf8.ascii
    intro x hx
    simp only [List.mem_cons] at hx
    rcases hx with rfl | rfl | hx
    · decide
    · decide
    · exact rad (.inr rfl) (hd x hx)
  | float hsg hd hf =>
    apply Utf8.ascii
    intro x hx
    simp only [List.mem_append, List.mem_cons] at hx
    rcases hx with (h | h) | rfl | h
    · exact sgn hsg x h
    · exact dig (hd.2 x h)
    · decide
    · exact dig (hf x h)
  | sci hsg hd he hes hed =>
    apply Utf8.ascii
    intro x hx
    simp only [List.mem_append, List.mem_cons] at hx
    rcases hx with ((h | h) | rfl | h) | h
    · exact sgn hsg x h
    · exact dig (hd.2 x h)
    · rcases he with rfl | rfl <;> decide
    · rcases hes with rfl | rfl | rfl
      · simp at h
      · simp at h; subst h; decide
      · simp at h; subst h; decide
    · exact dig (hed.2 x h)
  | single hu hs =>
    rw [singleQuoted]
    refine (Utf8.cons_ascii (by decide)).2 (Utf8.append (utf8_double hu) (Utf8.ascii (by simp)))
  | double hu hl =>
    rw [doubleQuoted]
    refine (Utf8.cons_ascii (by decide)).2 (Utf8.append (utf8_quote hu) (Utf8.ascii (by simp)))
  | singleFold hnl hu hs hr hrs =>
    rw [singleFolded]
    refine (Utf8.cons_ascii (by decide)).2 (Utf8.append ?_ (Utf8.ascii (by simp)))
    exact foldText_utf8 (fun _ h => utf8_double h) hnl hu hr
  | doubleFold hnl hu hs hr hrs =>
    rw [doubleFolded]
    refine (Utf8.cons_ascii (by decide)).2 (Utf8.append ?_ (Utf8.ascii (by simp)))
    exact foldText_utf8 (fun _ h => utf8_quote h) hnl hu hr

/-- The text of a key and the node it is read as. -/
theorem key_claim {cfg : DumpCfg} {k : Node} (hk : k.dumpable cfg false) (hkt : PlainTag k.rawTag) (hc : KeyClaim cfg k)
    (level : Nat) : ∃ (c : Option (Bytes × Bytes)) (b : Blk),
      (match c with
        | none => b.flatIs
        | some (s, G) => SepIs s b.lead ∧ b.okV (2 * level) ∧ b.text ≠ [] ∧ AfterLines b.kind G) ∧
      (c ≠ none ∨ b.bare = true) ∧ (∀ X, trimStart (ktext (2 * level) c b.text ++ X) = ktext (2 * level) c b.text ++ X) ∧
      b.still ∧ (∀ q p e, (Node.mk q b.tag (b.data p e)).noPos = k.erase) ∧
      ∃ N, ∀ n, N ≤ n → ∃ s, dumpNode cfg n [] .map (level + 1) k = .ok s ∧
        (if k.yaml.isColl then b!"?" ++ indent2 (level + 1) ++ cfg.nl ++ s ++ cfg.nl ++ indent2 level else s) =
          ktext (2 * level) c b.text := by
  by_cases hcoll : k.yaml.isColl = true
  · obtain ⟨b, ⟨r, hlead⟩, hok, hdm, N, hN⟩ := hc level hcoll hk hkt
    refine ⟨some (indent2 (level + 1), cfg.nl), b, ⟨⟨?_, .inl ⟨spaces (2 * level + 1), rfl⟩⟩, hok, hdm.1.1.1, hdm.1.1.2⟩,
      .inl (by simp), fun X => trimStart_ascii (by decide) (by decide) _, hdm.1.2.1, fun q p e => hdm.noPos q p e, N,
      fun n hn => ?_⟩
    · intro x hx
      simp only [indent2, spaces, List.mem_replicate] at hx
      rw [hx.2]; decide
    · obtain ⟨t, h1, h2⟩ := hN n hn
      refine ⟨t, h1, ?_⟩
      rw [if_pos hcoll, ktext, h2]
      simp [indent2]
  · obtain ⟨kp, kt, ky⟩ := k
    rw [Node.dumpable] at hk
    have hks : ky.isScalar = true := by
      cases ky <;> first | rfl | (simp [Node.yaml, Yaml.isColl] at hcoll; done) | (simp [Yaml.dumpable] at hk; done)
    obtain ⟨κ, T, hT, htrim, N1, hN1⟩ := scalar_dump cfg hks hk.2
    refine ⟨none, .leaf [] T κ (fun _ _ => ky) .none, ?_, .inr rfl, fun X => ?_, by simp [Blk.still], fun q p e => ?_, N1,
      fun n hn => ⟨T, ?_, ?_⟩⟩
    · simp only [Blk.flatIs]; exact ⟨trivial, .inl ⟨_, hT, rfl, rfl⟩⟩
    · simpa [ktext, Blk.text] using startsT hT htrim X hT.utf8
    · simp only [Blk.tag, Blk.data]
      exact erase_of_yaml (y := ky) (k := .mk kp kt ky) (noPos_scalar hks) hkt
    · rw [dumpNode_eq (show PlainTag kt from hkt), hN1 n hn]
    · rw [if_neg hcoll]; simp [ktext, Blk.text]

theorem entries_claim (cfg : DumpCfg) : ∀ {m : List (Node × Node)}, m ≠ [] → entriesDumpable cfg m →
    (∀ k v, (k, v) ∈ m → KeyClaim cfg k ∧ ValueClaim cfg v) → EntriesClaim cfg m
  | [], h, _, _ => absurd rfl h
  | (k, v) :: xs, _, hd, hc => by
    intro root level first
    rw [entriesDumpable, entryDumpable] at hd
    obtain ⟨⟨⟨hk, hkt⟩, hv, hvt⟩, hd⟩ := hd
    obtain ⟨c, kb, hkb, hbare, htrim, kstill, knode, N1, hN1⟩ := key_claim hk hkt (hc _ _ (List.mem_cons_self ..)).1 level
    obtain ⟨lv, hlv, hlv'⟩ : ∃ lv, (lv = level + 1 ∨ (lv = level ∧ ∃ l, v.yaml = .seq l)) ∧
        valueLevel root level first v.yaml = lv := by
      refine ⟨_, ?_, rfl⟩
      unfold valueLevel
      split
      · rename_i l hl
        split
        · exact .inr ⟨rfl, l, hl⟩
        · exact .inl rfl
      · exact .inl rfl
    obtain ⟨sp, b, hsp, hok, hdm, N2, hN2⟩ := (hc _ v (List.mem_cons_self ..)).2 level lv hlv hv hvt
    have hentry : ∀ n, max N1 N2 ≤ n → dumpEntry cfg n [] root level first (k, v) =
        .ok ((if !first || root = .map then indent2 level else []) ++
          (ktext (2 * level) c kb.text ++ 0x3A :: (sp ++ (b.text ++ cfg.nl)))) := by
      intro n hn
      obtain ⟨t, ht, hte⟩ := hN2 n (by omega)
      obtain ⟨s, hs, hse⟩ := hN1 n (by omega)
      rw [dumpEntry, hs]
      show Out.bind (dumpNode cfg n [] .map _ v) _ = _
      rw [hlv', ht]
      show Out.ok _ = _
      rw [hte, hse]
      simp
    cases xs with
    | nil =>
      refine ⟨.one c kb sp b, ?_, hbare, hdm.1.1.2, htrim, ⟨kstill, hdm.1.2.1⟩, ?_, max N1 N2, fun n hn => ?_⟩
      · cases c with
        | none => rw [CEnts.ok]; exact ⟨hkb, .inl hsp, hok⟩
        | some c => rw [CEnts.ok]; exact ⟨hkb, .inl hsp, hok⟩
      · intro p e
        simp only [CEnts.pairs, noPosEntries, noPosEntry, eraseEntries, eraseEntry]
        rw [hdm.noPos, knode]
      · rw [dumpEntries, hentry n hn, dumpEntries]
        show Out.ok _ = _
        simp [CEnts.sp, CEnts.body, CEnts.K]
    | cons x' xs =>
      obtain ⟨es, eok, _, ekind, _, estill, edata, N', hN'⟩ := entries_claim cfg (m := x' :: xs) (by simp) hd
        (fun k v h => hc k v (by simp [h])) root level false
      refine ⟨.cons c kb sp b cfg.nl es, ?_, hbare, ekind, htrim, ⟨kstill, hdm.1.2.1, estill⟩, ?_, max (max N1 N2) N', fun n hn => ?_⟩
      · cases c with
        | none => rw [CEnts.ok]; exact ⟨hkb, .inl hsp, ⟨hok, hdm.1.1.1⟩, hdm.1.1.2, eok⟩
        | some c => rw [CEnts.ok]; exact ⟨hkb, .inl hsp, ⟨hok, hdm.1.1.1⟩, hdm.1.1.2, eok⟩
      · intro p e
        rw [CEnts.pairs, noPosEntries, edata, noPosEntry, hdm.noPos, knode]
        simp [eraseEntries, eraseEntry]
      · rw [dumpEntries, hentry n (by omega), hN' n (by omega)]
        show Out.ok _ = _
        simp [CEnts.sp, CEnts.body, CEnts.K, indent2]

theorem eqb_yaml (a c : Node) : Node.eqb a c = Yaml.eqb a.yaml c.yaml := by
  obtain ⟨p, t, y⟩ := a; obtain ⟨p', t', y'⟩ := c; rw [Node.eqb]; rfl

theorem keysDiffer_map {m : List (Node × Node)} :
    KeysDiffer m ↔ (m.map fun e => e.1.yaml).Pairwise fun a c => Yaml.eqb a c = false := by
  rw [KeysDiffer, List.pairwise_map]
  simp only [eqb_yaml]

/-- Entries with different keys are a map as they are. -/
theorem mapOf_differ {m : List (Node × Node)} (h : KeysDiffer m) : mapOf m = m := by
  have key : ∀ (r acc : List (Node × Node)), (acc ++ r).Pairwise (fun e e' => Node.eqb e.1 e'.1 = false) →
      r.foldl (fun m e => insertSpec m e.1 e.2) acc = acc ++ r := by
    intro r
    induction r with
    | nil => intro acc _; simp
    | cons x r ih =>
      intro acc hp
      have hno : acc.find? (fun e => Node.eqb x.1 e.1) = none := by
        rw [List.find?_eq_none]
        intro a ha
        have := (List.pairwise_append.1 hp).2.2 a ha x (by simp)
        rw [eqb_comm, this]; simp
      rw [List.foldl_cons, insertSpec, hno, ih _ (by simpa using hp)]
      simp
  have := key m [] h
  simpa [mapOf] using this

/-! Equality and hash do not look at positions and tags. -/

mutual
theorem Node.eqb_erase : ∀ a c : Node, Node.eqb a.erase c.erase = Node.eqb a c
  | .mk _ _ a, .mk _ _ c => by simp only [Node.erase, Node.eqb]; exact Yaml.eqb_erase a c
theorem Yaml.eqb_erase : ∀ a c : Yaml, Yaml.eqb a.erase c.erase = Yaml.eqb a c
  | .seq l, c => by
    cases c <;> first | (simp only [Yaml.erase, Yaml.eqb]; exact nodesEqb_erase _ _) | rfl
  | .map l, c => by
    cases c <;> first | (simp only [Yaml.erase, Yaml.eqb]; exact entriesEqb_erase _ _) | rfl
  | .null, c | .bool _, c | .int _, c | .float _, c | .str _, c | .alias _, c => by cases c <;> rfl
theorem nodesEqb_erase : ∀ a c : List Node, nodesEqb (eraseNodes a) (eraseNodes c) = nodesEqb a c
  | [], [] => rfl
  | [], _ :: _ => rfl
  | _ :: _, [] => rfl
  | x :: xs, y :: ys => by simp only [eraseNodes, nodesEqb]; rw [Node.eqb_erase x y, nodesEqb_erase xs ys]
theorem entriesEqb_erase : ∀ a c : List (Node × Node), entriesEqb (eraseEntries a) (eraseEntries c) = entriesEqb a c
  | [], [] => rfl
  | [], _ :: _ => rfl
  | _ :: _, [] => rfl
  | x :: xs, y :: ys => by simp only [eraseEntries, entriesEqb]; rw [entryEqb_erase x y, entriesEqb_erase xs ys]
theorem entryEqb_erase : ∀ a c : Node × Node, entryEqb (eraseEntry a) (eraseEntry c) = entryEqb a c
  | (a, a'), (c, c') => by simp only [eraseEntry, entryEqb]; rw [Node.eqb_erase a c, Node.eqb_erase a' c']
end

theorem eraseNodes_length : ∀ l : List Node, (eraseNodes l).length = l.length
  | [] => rfl
  | _ :: xs => by rw [eraseNodes, List.length_cons, List.length_cons, eraseNodes_length xs]

mutual
theorem Node.hash_erase : ∀ a : Node, a.erase.hashStream = a.hashStream
  | .mk _ _ a => by simp only [Node.erase, Node.hashStream]; exact Yaml.hash_erase a
theorem Yaml.hash_erase : ∀ a : Yaml, a.erase.hashStream = a.hashStream
  | .seq l => by simp only [Yaml.erase, Yaml.hashStream]; rw [nodesStream_erase, eraseNodes_length]
  | .map l => by simp only [Yaml.erase, Yaml.hashStream]; rw [entriesStream_erase]
  | .null | .bool _ | .int _ | .float _ | .str _ | .alias _ => rfl
theorem nodesStream_erase : ∀ a : List Node, nodesStream (eraseNodes a) = nodesStream a
  | [] => rfl
  | x :: xs => by simp only [eraseNodes, nodesStream]; rw [Node.hash_erase x, nodesStream_erase xs]
theorem entriesStream_erase : ∀ a : List (Node × Node), entriesStream (eraseEntries a) = entriesStream a
  | [] => rfl
  | x :: xs => by simp only [eraseEntries, entriesStream]; rw [entryStream_erase x, entriesStream_erase xs]
theorem entryStream_erase : ∀ a : Node × Node, entryStream (eraseEntry a) = entryStream a
  | (a, a') => by simp only [eraseEntry, entryStream]; rw [Node.hash_erase a, Node.hash_erase a']
end

mutual
theorem Node.readable_erase : ∀ a : Node, Readable a.erase ↔ Readable a
  | .mk _ _ a => by
    simp only [Node.erase, Readable, everywhere_mk]
    refine and_congr ?_ (Yaml.readable_erase a)
    cases a <;> exact Iff.rfl
theorem Yaml.readable_erase : ∀ a : Yaml, Yaml.Kids Readable a.erase ↔ Yaml.Kids Readable a
  | .seq l => by simp only [Yaml.erase, Yaml.Kids]; exact nodes_readable_erase l
  | .map l => by simp only [Yaml.erase, Yaml.Kids]; exact entries_readable_erase l
  | .null | .bool _ | .int _ | .float _ | .str _ | .alias _ => Iff.rfl
theorem nodes_readable_erase : ∀ a : List Node, (∀ x ∈ eraseNodes a, Readable x) ↔ ∀ x ∈ a, Readable x
  | [] => Iff.rfl
  | x :: xs => by
    simp only [eraseNodes, List.forall_mem_cons]
    exact and_congr (Node.readable_erase x) (nodes_readable_erase xs)
theorem entries_readable_erase : ∀ a : List (Node × Node), (∀ k v, (k, v) ∈ eraseEntries a → Readable k ∧ Readable v) ↔
    ∀ k v, (k, v) ∈ a → Readable k ∧ Readable v
  | [] => by simp [eraseEntries]
  | (k, v) :: xs => by
    have h1 := Node.readable_erase k
    have h2 := Node.readable_erase v
    have h3 := entries_readable_erase xs
    simp only [eraseEntries, eraseEntry, List.mem_cons, Prod.mk.injEq]
    constructor
    · rintro h k' v' (⟨rfl, rfl⟩ | hm)
      · have := h _ _ (.inl ⟨rfl, rfl⟩); exact ⟨h1.1 this.1, h2.1 this.2⟩
      · exact h3.1 (fun a b hab => h a b (.inr hab)) k' v' hm
    · rintro h k' v' (⟨rfl, rfl⟩ | hm)
      · have := h _ _ (.inl ⟨rfl, rfl⟩); exact ⟨h1.2 this.1, h2.2 this.2⟩
      · exact h3.2 (fun a b hab => h a b (.inr hab)) k' v' hm
end

theorem keys_of_noPos : ∀ {m m' : List (Node × Node)}, noPosEntries m' = eraseEntries m →
    (m'.map Prod.fst).map Node.erase = (m.map Prod.fst).map Node.erase
  | [], [], _ => rfl
  | [], _ :: _, h => by simp [noPosEntries, eraseEntries] at h
  | _ :: _, [], h => by simp [noPosEntries, eraseEntries] at h
  | (k, v) :: m, (k', v') :: m', h => by
    simp only [noPosEntries, eraseEntries, noPosEntry, eraseEntry, List.cons.injEq, Prod.mk.injEq] at h
    simp only [List.map_cons]
    rw [keys_of_noPos h.2, ← Node.noPos_erase k', h.1.1, Node.erase_erase]

theorem erase_iff {P : Node → Node → Prop} (hP : ∀ a c, P a.erase c.erase ↔ P a c) {a c a' c' : Node} (ha : a.erase = a'.erase)
    (hc : c.erase = c'.erase) : P a c ↔ P a' c' := by rw [← hP, ha, hc, hP]

theorem GoodKeys.erase {ks ks' : List Node} (h : GoodKeys ks) (he : ks'.map Node.erase = ks.map Node.erase) : GoodKeys ks' := by
  have mem : ∀ k' ∈ ks', ∃ k ∈ ks, k.erase = k'.erase := by
    intro k' hk'
    have : k'.erase ∈ ks.map Node.erase := by rw [← he]; exact List.mem_map_of_mem hk'
    simpa using this
  refine ⟨fun k' hk' => ?_, fun k hk k' hk' hq => ?_⟩
  · obtain ⟨k, hk, e⟩ := mem k' hk'
    rw [← Node.readable_erase, ← e, Node.readable_erase]; exact h.1 k hk
  · obtain ⟨a, ha, e⟩ := mem k hk
    obtain ⟨a', ha', e'⟩ := mem k' hk'
    rw [← Node.hash_erase k, ← Node.hash_erase k', ← e, ← e', Node.hash_erase, Node.hash_erase]
    refine h.2 a ha a' ha' ?_
    rw [← Node.eqb_erase, e, e', Node.eqb_erase, hq]

theorem KeysDiffer.erase {m m' : List (Node × Node)} (h : KeysDiffer m)
    (he : (m'.map Prod.fst).map Node.erase = (m.map Prod.fst).map Node.erase) : KeysDiffer m' := by
  have key : ∀ l : List (Node × Node), KeysDiffer l ↔
      ((l.map Prod.fst).map Node.erase).Pairwise fun a c => Node.eqb a c = false := by
    intro l
    rw [KeysDiffer, List.pairwise_map, List.pairwise_map]
    simp only [Node.eqb_erase]
  rw [key, he, ← key]; exact h

theorem seq_dump {cfg : DumpCfg} {l : List Node} (hl : l ≠ []) (hd : itemsDumpable cfg l) (hc : ∀ x ∈ l, ItemClaim cfg x)
    (level : Nat) : ∃ its : Items, its.ok (2 * level) ∧
      (∀ lead, Dumped cfg (.seq lead (2 * level) its) (.seq l)) ∧
      ∃ N, ∀ n, N ≤ n → ∀ root, dumpYaml cfg n [] root level (.seq l) =
        .ok (Blk.seq (cfg.nl ++ spaces (2 * level)) (2 * level) its).text := by
  obtain ⟨its, iok, ikind, istill, idata, N, hN⟩ := items_claim cfg hl hd hc level
  refine ⟨its, iok, fun lead => ⟨⟨by simp [Blk.text], ikind⟩, istill, fun p e => ?_⟩, N, fun n hn root => ?_⟩
  · simp only [Blk.data, Yaml.noPos, Yaml.erase, idata]
  · rw [dumpYaml, hN n hn]
    show truncNl cfg _ = _
    have e : cfg.nl ++ (spaces (2 * level) ++ 0x2D :: (its.sp ++ (its.body (2 * level) ++ cfg.nl))) =
        (cfg.nl ++ spaces (2 * level) ++ 0x2D :: (its.sp ++ its.body (2 * level))) ++ cfg.nl := by simp
    rw [e, truncNl_append, Blk.text]

/-- Different keys are good keys. -/
theorem KeysDiffer.good {m : List (Node × Node)} (hr : ∀ e ∈ m, Readable e.1) (h : KeysDiffer m) : GoodKeys (m.map Prod.fst) := by
  refine ⟨fun k hk => ?_, ?_⟩
  · obtain ⟨e, he, rfl⟩ := List.mem_map.1 hk; exact hr e he
  · have hp : (m.map Prod.fst).Pairwise fun a c => Node.eqb a c = false := List.pairwise_map.2 h
    generalize m.map Prod.fst = ks at hp
    induction ks with
    | nil => intro k hk; cases hk
    | cons a r ih =>
      rw [List.pairwise_cons] at hp
      intro k hk k' hk' he
      rcases List.mem_cons.1 hk with rfl | hka <;> rcases List.mem_cons.1 hk' with rfl | hka'
      · rfl
      · rw [hp.1 _ hka'] at he; cases he
      · rw [eqb_comm, hp.1 _ hka] at he; cases he
      · exact ih hp.2 k hka k' hka' he

theorem map_dump {cfg : DumpCfg} {m : List (Node × Node)} (hm : m ≠ []) (hkr : ∀ e ∈ m, Readable e.1)
    (hdf : KeysDiffer m) (hd : entriesDumpable cfg m) (hc : ∀ k v, (k, v) ∈ m → KeyClaim cfg k ∧ ValueClaim cfg v)
    (root : Root) (level : Nat) : ∃ (es : CEnts), es.ok (2 * level) ∧ (es.c ≠ none ∨ es.b.bare = true) ∧
      (∀ X, trimStart (es.K (2 * level) ++ X) = es.K (2 * level) ++ X) ∧
      (∀ lead, Dumped cfg (.cmap lead (2 * level) es) (.map m)) ∧
      ∀ lead : Bytes, lead = (if root = .map then cfg.nl ++ spaces (2 * level) else []) →
      ∃ N, ∀ n, N ≤ n → dumpYaml cfg n [] root level (.map m) = .ok (Blk.cmap lead (2 * level) es).text := by
  have hk := hdf.good hkr
  obtain ⟨es, eok, ebare, ekind, etrim, estill, edata, N, hN⟩ := entries_claim cfg hm hd hc root level true
  refine ⟨es, eok, ebare, etrim, fun lead => ⟨⟨by simp [Blk.text], ekind⟩,
    by rw [Blk.still]; exact ⟨estill, fun p e => hk.erase (keys_of_noPos (edata p e))⟩, fun p e => ?_⟩, ?_⟩
  · simp only [Blk.data, Yaml.noPos, Yaml.erase]
    rw [mapOf_differ (hdf.erase (keys_of_noPos (edata _ e))), edata]
  rintro lead rfl
  refine ⟨N, fun n hn => ?_⟩
  · rw [dumpYaml, hN n hn]
    show truncNl cfg _ = _
    by_cases hr : root = .map
    · subst hr
      simp only [if_true, Blk.text]
      have e : cfg.nl ++ ((if (!true || decide True) = true then indent2 level else []) ++
          (es.K (2 * level) ++ 0x3A :: (es.sp ++ (es.body (2 * level) ++ cfg.nl)))) =
          (cfg.nl ++ spaces (2 * level) ++ (es.K (2 * level) ++ 0x3A :: (es.sp ++ es.body (2 * level)))) ++ cfg.nl := by
        simp [indent2]
      rw [e, truncNl_append]
    · simp only [hr, if_false, Blk.text]
      have e : ([] ++ ((if (!true || decide False) = true then indent2 level else []) ++
          (es.K (2 * level) ++ 0x3A :: (es.sp ++ (es.body (2 * level) ++ cfg.nl)))) : Bytes) =
          ([] ++ (es.K (2 * level) ++ 0x3A :: (es.sp ++ es.body (2 * level)))) ++ cfg.nl := by
        simp
      rw [e, truncNl_append]

theorem leaf_text_ne {κ : EndKind} {T : Bytes} {v : Yaml} (h : ScalarText κ T v) {y : Nat → Env → Yaml} {pc : Known} :
    (Blk.leaf [] T κ y pc).text ≠ [] := by
  obtain ⟨c, r, rfl, _⟩ := h.leaf.2.head
  simp [Blk.text]

theorem leaf_after {cfg : DumpCfg} {κ : EndKind} {T : Bytes} {y : Yaml} (h : ScalarText κ T y) : AfterLines κ cfg.nl :=
  afterLines_nl cfg (by
    rcases (LeafIs.kind (.inl ⟨y, h, rfl, rfl⟩ : LeafIs κ T (fun _ _ => y) .none)) with h | h
    · exact .inl h
    · exact .inr (.inl h))

theorem still_leaf {lead T : Bytes} {κ : EndKind} {y : Yaml} : (Blk.leaf lead T κ (fun _ _ => y) .none).still := by
  simp [Blk.still]

theorem leadLines_nl2 (cfg : DumpCfg) (τ : Nat) : LeadLines τ (cfg.nl ++ (cfg.nl ++ spaces τ)) :=
  ⟨cfg.nl, [], [[]], cfg.nl_break, .inl rfl, by simp, by simp [IdleLine], by simp [gapLines]⟩

theorem dump_claims (cfg : DumpCfg) : ∀ x : Node, ItemClaim cfg x ∧ ValueClaim cfg x ∧ KeyClaim cfg x := by
  intro x
  induction x using Node.induct with
  | h pos t y kids =>
  suffices h : YItemClaim cfg y ∧ YValueClaim cfg y ∧ KeyClaim cfg (.mk pos t y) from
    ⟨item_node h.1 pos t, value_node h.2.1 pos t, h.2.2⟩
  -- scalars on one line
  have scalarN : y.isScalar = true → y.dumpable cfg false →
      ∀ root level, ∃ b : Blk, b.bare = true ∧ b.okN (2 * level) ∧ Dumped cfg b y ∧
      ((b.lead = [] ∧ ∀ X, trimStart (b.text ++ X) = b.text ++ X) ∨
        (b.lead = cfg.nl ++ spaces (2 * level) ∧ ∃ r, b.text = b.lead ++ 0x2D :: r)) ∧
      ∃ N, ∀ n, N ≤ n → dumpYaml cfg n [] root level y = .ok b.text := by
    intro hs hd root level
    obtain ⟨κ, T, hT, htr, N, hN⟩ := scalar_dump cfg hs hd
    refine ⟨.leaf [] T κ (fun _ _ => y) .none, rfl, ?_, ⟨⟨leaf_text_ne hT, leaf_after hT⟩, still_leaf, fun p e => noPos_scalar hs⟩,
      .inl ⟨rfl, fun X => by simpa [Blk.text] using startsT hT htr X hT.utf8⟩, N, fun n hn => ?_⟩
    · rw [Blk.okN]; exact .inl ⟨.inl rfl, .inl (.inl ⟨y, hT, rfl, rfl⟩)⟩
    · rw [hN n hn]; simp [Blk.text]
  have scalarV : y.isScalar = true → y.dumpable cfg false →
      ∀ level lv, ∃ (sp : Bytes) (b : Blk), b.bare = true ∧ SepIs sp b.lead ∧
        (y.isColl = false → sp = b!" " ∧ b.lead = []) ∧ b.okV (2 * level) ∧ Dumped cfg b y ∧
      ∃ N, ∀ n, N ≤ n → ∃ s, dumpYaml cfg n [] .map lv y = .ok s ∧
        (if y.isColl then s else b!" " ++ s) = sp ++ b.text := by
    intro hs hd level lv
    obtain ⟨κ, T, hT, htr, N, hN⟩ := scalar_dump cfg hs hd
    have hc : y.isColl = false := by cases y <;> first | rfl | simp [Yaml.isScalar] at hs
    refine ⟨b!" ", .leaf [] T κ (fun _ _ => y) .none, rfl, sepIs_blank _, fun _ => ⟨rfl, rfl⟩, ?_,
      ⟨⟨leaf_text_ne hT, leaf_after hT⟩, still_leaf, fun p e => noPos_scalar hs⟩, N, fun n hn => ⟨T, ?_, ?_⟩⟩
    · rw [Blk.okV]; exact .inl ⟨rfl, .inl (.inl ⟨y, hT, rfl, rfl⟩)⟩
    · rw [hN n hn]
    · simp [hc, Blk.text]
  have multi : ∀ s, y = .str s → cfg.windows = false → MultiStr s →
      ∀ level, 0 < level → ∃ T, LitIs (2 * level) T s ∧ Dumped cfg (.lit T (2 * level) s) y ∧
      ∀ n root, dumpYaml cfg n [] root level y = .ok T := by
    rintro s rfl hw ⟨ls, h2, hb, rfl, he, hf⟩ level hlv
    refine ⟨0x7C :: blockLines (2 * level) ls, ⟨.clip, ls, by omega, hb, .inl ⟨by simp [Chomp.mark], by simp [Chomp.ends]⟩⟩,
      ⟨⟨by simp [Blk.text], afterLines_nl cfg (.inr (.inr ⟨⟨_, rfl⟩, hw⟩))⟩, trivial, fun p e => rfl⟩, fun n root => ?_⟩
    rw [dumpYaml, dumpStr_multi hw h2 hb he hf]
  refine ⟨?_, ?_, ?_⟩
  · intro root level inner hroot hin hd
    cases y with
    | null => exact scalarN rfl trivial root level
    | bool b => exact scalarN rfl trivial root level
    | int s => exact scalarN rfl hd root level
    | float s => exact scalarN rfl hd root level
    | str s =>
      simp only [Yaml.dumpable] at hd
      rcases hd with hd | ⟨rfl, hw, hd⟩
      · exact scalarN rfl (by simp only [Yaml.dumpable]; exact .inl hd) root level
      · obtain ⟨T, hT, hD, hN⟩ := multi s rfl hw hd level (hin rfl)
        refine ⟨.lit T (2 * level) s, rfl, ?_, hD, .inl ⟨rfl, ?_⟩, 0, fun n _ => hN n root⟩
        · rw [Blk.okN]; exact ⟨rfl, hT⟩
        · intro X
          obtain ⟨r, rfl | rfl⟩ := hT.ok.1
          · exact trimStart_ascii (by decide) (by decide) _
          · exact trimStart_ascii (by decide) (by decide) _
    | seq l =>
      simp only [Yaml.dumpable] at hd
      obtain ⟨its, iok, hD, N, hN⟩ := seq_dump hd.1 hd.2 (fun x hx => (kids x hx).1) level
      refine ⟨_, ?_, ?_, hD (cfg.nl ++ spaces (2 * level)), .inr ⟨rfl, _, by rw [Blk.text]; rfl⟩, N, fun n hn => hN n hn root⟩
      · rfl
      rw [Blk.okN]; exact ⟨.inr (leadLines_nl cfg _), rfl, iok⟩
    | map m =>
      simp only [Yaml.dumpable] at hd
      obtain ⟨es, eok, ebare, etrim, hD, h⟩ := map_dump hd.1 hd.2.1 hd.2.2.1 hd.2.2.2
        (fun k v h => ⟨(kids k v h).1.2.2, (kids k v h).2.2.1⟩) root level
      obtain ⟨N, hN⟩ := h [] (by simp [hroot])
      refine ⟨_, ?_, ?_, hD [], .inl ⟨rfl, ?_⟩, N, fun n hn => hN n hn⟩
      · rfl
      · rw [Blk.okN]; exact ⟨.inl rfl, rfl, eok, fun _ => ebare⟩
      · intro X
        rw [Blk.text, List.nil_append, List.append_assoc]
        exact etrim _
    | alias a => simp [Yaml.dumpable] at hd
  · intro level lv hlv hd
    cases y with
    | null => exact scalarV rfl trivial level lv
    | bool b => exact scalarV rfl trivial level lv
    | int s => exact scalarV rfl hd level lv
    | float s => exact scalarV rfl hd level lv
    | str s =>
      simp only [Yaml.dumpable] at hd
      rcases hd with hd | ⟨_, hw, hd⟩
      · exact scalarV rfl (by simp only [Yaml.dumpable]; exact .inl hd) level lv
      · have hlv : lv = level + 1 := by simpa using hlv
        subst hlv
        obtain ⟨T, hT, hD, hN⟩ := multi s rfl hw hd (level + 1) (by omega)
        refine ⟨b!" ", .lit T (2 * (level + 1)) s, rfl, sepIs_blank _, fun _ => ⟨rfl, rfl⟩, ?_, hD, 0, fun n _ => ⟨T, hN n _, rfl⟩⟩
        rw [Blk.okV]; exact ⟨by omega, hT⟩
    | seq l =>
      simp only [Yaml.dumpable] at hd
      obtain ⟨its, iok, hD, N, hN⟩ := seq_dump hd.1 hd.2 (fun x hx => (kids x hx).1) lv
      refine ⟨[], _, ?_, sepIs_none cfg _, by simp [Yaml.isColl], ?_, hD (cfg.nl ++ spaces (2 * lv)), N, fun n hn => ⟨_, hN n hn _, rfl⟩⟩
      · rfl
      rw [Blk.okV]; exact ⟨leadLines_nl cfg _, by omega, iok⟩
    | map m =>
      simp only [Yaml.dumpable] at hd
      have hlv : lv = level + 1 := by simpa using hlv
      subst hlv
      obtain ⟨es, eok, ebare, etrim, hD, h⟩ := map_dump hd.1 hd.2.1 hd.2.2.1 hd.2.2.2
        (fun k v h => ⟨(kids k v h).1.2.2, (kids k v h).2.2.1⟩) .map (level + 1)
      obtain ⟨N, hN⟩ := h _ (by simp; rfl)
      refine ⟨[], _, ?_, sepIs_none cfg _, by simp [Yaml.isColl], ?_, hD _, N, fun n hn => ⟨_, hN n hn, rfl⟩⟩
      · rfl
      rw [Blk.okV]; exact ⟨leadLines_nl cfg _, by omega, eok⟩
    | alias a => simp [Yaml.dumpable] at hd
  · intro level hc hd ht
    rw [Node.dumpable] at hd
    obtain ⟨_, hd⟩ := hd
    have hkt : ([] : Bytes) = keptTag (Node.mk pos t y).rawTag := (PlainTag.kept ht).symm
    cases y with
    | seq l =>
      simp only [Yaml.dumpable] at hd
      obtain ⟨its, iok, hD, N, hN⟩ := seq_dump hd.1 hd.2 (fun x hx => (kids x hx).1) (level + 1)
      refine ⟨.seq (cfg.nl ++ (cfg.nl ++ spaces (2 * (level + 1)))) (2 * (level + 1)) its, ⟨_, rfl⟩, ?_, ⟨hD _, hkt⟩, N,
        fun n hn => ⟨_, by rw [dumpNode_eq (show PlainTag t from ht), hN n hn], by simp [Blk.text]⟩⟩
      rw [Blk.okV]; exact ⟨leadLines_nl2 cfg _, by omega, iok⟩
    | map m =>
      simp only [Yaml.dumpable] at hd
      obtain ⟨es, eok, ebare, etrim, hD, h⟩ := map_dump hd.1 hd.2.1 hd.2.2.1 hd.2.2.2
        (fun k v h => ⟨(kids k v h).1.2.2, (kids k v h).2.2.1⟩) .map (level + 1)
      obtain ⟨N, hN⟩ := h _ (by simp; rfl)
      refine ⟨.cmap (cfg.nl ++ (cfg.nl ++ spaces (2 * (level + 1)))) (2 * (level + 1)) es, ⟨_, rfl⟩, ?_, ⟨hD _, hkt⟩, N,
        fun n hn => ⟨_, by rw [dumpNode_eq (show PlainTag t from ht), hN n hn], by simp [Blk.text]⟩⟩
      rw [Blk.okV]; exact ⟨leadLines_nl2 cfg _, by omega, eok⟩
    | _ => simp [Node.yaml, Yaml.isColl] at hc

/-! ## Streams -/

/-- The same tree behind another gap. -/
def Blk.setLead (l : Bytes) : Blk → Blk
  | .leaf _ T κ y pc => .leaf l T κ y pc
  | .lit T τ s => .lit T τ s
  | .seq _ τ its => .seq l τ its
  | .map _ τ es => .map l τ es
  | .cmap _ τ es => .cmap l τ es
  | .prop f b => .prop f b

theorem doc_claim {cfg : DumpCfg} {x : Node} (hd : x.dumpable cfg false) :
    ∃ b : Blk, b.okN 0 ∧ DumpedN cfg b x ∧ ∃ N, ∀ n, N ≤ n → dumpNode cfg n [] .scalar 0 x = .ok b.text := by
  obtain ⟨b, h1, h2, _, _, N, h3⟩ := (dump_claims cfg x).1 .scalar 0 false (by simp) (by simp) hd
  exact ⟨b, h1, h2, N, h3⟩

/-- A document behind `---`. -/
theorem next_claim {cfg : DumpCfg} {x : Node} (hd : x.dumpable cfg false) (ht : PlainTag x.rawTag) :
    ∃ b : Blk, b.okN 0 ∧ DumpedN cfg b x ∧ b.lead = cfg.nl ∧ b.inner = cfg.nl ∧
      ∃ N, ∀ n, N ≤ n → ∃ d, dumpNode cfg n [] .scalar 0 x = .ok d ∧
        cfg.nl ++ trimStart (d ++ cfg.nl) = b.text ++ cfg.nl := by
  obtain ⟨b, h1, h2, hbare, hl, N, h3⟩ := (dump_claims cfg x).1 .scalar 0 false (by simp) (by simp) hd
  replace hbare := hbare ht
  have hnl : LeadLines 0 cfg.nl := by simpa [spaces] using leadLines_nl cfg 0
  have hws : ∀ x ∈ cfg.nl, isWs1 x = true := by
    rcases cfg.nl_break with h | h <;> rw [h] <;> simp <;> decide
  have nolit : ∀ T τ s, b ≠ .lit T τ s := by
    rintro T τ s rfl
    simp only [Blk.okN] at h1
    obtain ⟨h0, _, _, h0', _⟩ := h1
    omega
  have noprop : ∀ f c, b ≠ .prop f c := by rintro f c rfl; simp [Blk.bare] at hbare
  rcases hl with ⟨hl, ht⟩ | ⟨hl, r, hr⟩
  · refine ⟨b.setLead cfg.nl, ?_, ?_, ?_, ?_, N, fun n hn => ⟨_, h3 n hn, ?_⟩⟩
    · cases b with
      | lit T τ s => exact absurd rfl (nolit _ _ _)
      | prop f c => exact absurd rfl (noprop _ _)
      | leaf lead T κ y pc =>
        simp only [Blk.okN, Blk.setLead] at h1 ⊢; exact .inl ⟨.inr hnl, (h1.resolve_right (by simp)).2⟩
      | seq lead τ its => simp only [Blk.okN, Blk.setLead] at h1 ⊢; exact ⟨.inr hnl, h1.2⟩
      | map lead τ es => simp only [Blk.okN, Blk.setLead] at h1 ⊢; exact ⟨.inr hnl, h1.2⟩
      | cmap lead τ es =>
        simp only [Blk.okN, Blk.setLead] at h1 ⊢
        exact ⟨.inr hnl, h1.2.1, h1.2.2.1, fun h => absurd h (by rcases cfg.nl_break with h | h <;> rw [h] <;> simp)⟩
    · refine ⟨⟨?_, ?_, fun p e => ?_⟩, ?_⟩
      · have : (b.setLead cfg.nl).kind = b.kind := by cases b <;> simp [Blk.setLead, Blk.kind]
        rw [this]
        refine ⟨?_, h2.1.1.2⟩
        have := h2.1.1.1
        cases b with
        | lit T τ s => exact absurd rfl (nolit _ _ _)
        | prop f c => exact absurd rfl (noprop _ _)
        | leaf lead T κ y pc => simp only [Blk.lead] at hl; subst hl; simp only [Blk.text, List.nil_append] at this; simp [Blk.setLead, Blk.text, this]
        | seq lead τ its => simp [Blk.setLead, Blk.text]
        | map lead τ es => simp [Blk.setLead, Blk.text]
        | cmap lead τ es => simp [Blk.setLead, Blk.text]
      · have := h2.1.2.1
        cases b <;> simpa [Blk.setLead, Blk.still] using this
      · rw [← h2.1.2.2 (p + cfg.nl.length) e]
        cases b with
        | lit => rfl
        | prop f c => exact absurd rfl (noprop _ _)
        | leaf lead T κ y pc => simp only [Blk.lead] at hl; subst hl; simp [Blk.setLead, Blk.data]
        | seq lead τ its => simp only [Blk.lead] at hl; subst hl; simp [Blk.setLead, Blk.data]
        | map lead τ es => simp only [Blk.lead] at hl; subst hl; simp [Blk.setLead, Blk.data]
        | cmap lead τ es => simp only [Blk.lead] at hl; subst hl; simp [Blk.setLead, Blk.data]
      · rw [← h2.2]; cases b <;> rfl
    · cases b with
      | lit T τ s => exact absurd rfl (nolit _ _ _)
      | prop f c => exact absurd rfl (noprop _ _)
      | leaf => rfl
      | seq => rfl
      | map => rfl
      | cmap => rfl
    · cases b with
      | lit T τ s => exact absurd rfl (nolit _ _ _)
      | prop f c => exact absurd rfl (noprop _ _)
      | leaf => rfl
      | seq => rfl
      | map => rfl
      | cmap => rfl
    · rw [ht]
      cases b with
      | lit T τ s => exact absurd rfl (nolit _ _ _)
      | prop f c => exact absurd rfl (noprop _ _)
      | leaf lead T κ y pc => simp only [Blk.lead] at hl; subst hl; simp [Blk.setLead, Blk.text]
      | seq lead τ its => simp only [Blk.lead] at hl; subst hl; simp [Blk.setLead, Blk.text]
      | map lead τ es => simp only [Blk.lead] at hl; subst hl; simp [Blk.setLead, Blk.text]
      | cmap lead τ es => simp only [Blk.lead] at hl; subst hl; simp [Blk.setLead, Blk.text]
  · have hl' : b.lead = cfg.nl := by simpa [spaces] using hl
    refine ⟨b, h1, h2, hl', ?_, N, fun n hn => ⟨_, h3 n hn, ?_⟩⟩
    · rw [← hl']
      cases b with
      | prop f c => exact absurd rfl (noprop _ _)
      | _ => rfl
    rw [hr, hl', List.append_assoc, trimStart_ws hws, List.cons_append, trimStart_ascii (by decide) (by decide)]

theorem tail_claim {cfg : DumpCfg} {anchors : List Anchors} (ha : ∀ a ∈ anchors, a = []) :
    ∀ (xs : List Node) (i : Nat), 0 < i → (∀ x ∈ xs, x.dumpable cfg false ∧ PlainTag x.rawTag) →
    ∃ t : Tail, (∀ κ c, AfterLines κ cfg.nl → t.ok κ c) ∧ t.still ∧ (∀ p, (t.values p).map Node.noPos = xs.map Node.erase) ∧
      ∃ N, ∀ n, N ≤ n → ∃ r, dumpDocs cfg n anchors i xs = .ok r ∧ t.text = cfg.nl ++ r
  | [], i, _, _ => by
    refine ⟨.stop cfg.nl, fun κ c hκ => ?_, trivial, fun p => rfl, 0, fun n _ => ⟨[], by rw [dumpDocs], by simp [Tail.text]⟩⟩
    rw [Tail.ok]; exact .inr (.inl hκ)
  | x :: xs, i, hi, hd => by
    obtain ⟨b, h1, h2, hl, hin, N1, h3⟩ := next_claim (hd x (by simp)).1 (hd x (by simp)).2
    obtain ⟨t, t1, tst, t2, N2, t3⟩ := tail_claim ha xs (i + 1) (by omega) fun y hy => hd y (by simp [hy])
    refine ⟨.next cfg.nl [] b t, fun κ c hκ => ?_, ⟨h2.1.2.1, tst⟩, fun p => ?_, max N1 N2, fun n hn => ?_⟩
    · rw [Tail.ok]
      refine ⟨.inl hκ, ?_, h1, .inl ?_, t1 _ _ h2.1.1.2⟩
      · rw [hl]; simpa using sepIs_none cfg []
      · rw [hin]; rcases cfg.nl_break with h | h <;> rw [h] <;> simp
    · rw [Tail.values, List.map_cons, t2, Blk.value, Blk.node, h2.noPos]; rfl
    · obtain ⟨d, hd1, hd2⟩ := h3 n (by omega)
      obtain ⟨r, hr1, hr2⟩ := t3 n (by omega)
      have hg : anchors.getD i [] = [] := by
        rw [List.getD_eq_getElem?_getD]
        cases h : anchors[i]? with
        | none => rfl
        | some a => exact ha a (List.mem_of_getElem? h)
      have hi' : i ≠ 0 := by omega
      refine ⟨b!"---" ++ cfg.nl ++ trimStart (d ++ cfg.nl) ++ r, ?_, ?_⟩
      · rw [dumpDocs, dumperDump, hg, hd1]
        show Out.bind (dumpDocs cfg n anchors (i + 1) xs) _ = _
        rw [hr1]
        show Out.ok _ = _
        rw [if_neg hi']
      · simp only [Tail.text, hr2, List.nil_append]
        rw [← List.append_assoc b.text, ← hd2]
        simp

/-- What is dumped reads back as the same data. -/
theorem dump_reads {cfg : DumpCfg} {anchors : List Anchors} (ha : ∀ a ∈ anchors, a = []) {ns : List Node} (hne : ns ≠ [])
    (hd : ∀ x ∈ ns, x.dumpable cfg false) (htg : ∀ x ∈ ns.tail, PlainTag x.rawTag) :
    ∃ text ns', Ends (fun n => dump cfg n ns anchors) (.ok text) ∧ Reads text ns' ∧
      ns'.map Node.noPos = ns.map Node.erase := by
  obtain ⟨x, xs, rfl⟩ := List.exists_cons_of_ne_nil hne
  obtain ⟨b, h1, h2, N1, h3⟩ := doc_claim (hd x (by simp))
  obtain ⟨t, t1, tst, t2, N2, t3⟩ := tail_claim ha xs 1 (by omega) fun y hy => ⟨hd y (by simp [hy]), htg y hy⟩
  have hok : (Stream.mk none b t []).ok := ⟨h1, t1 _ _ h2.1.1.2, rfl⟩
  have hr := reads_ok hok ⟨h2.1.2.1, tst⟩
  refine ⟨_, _, ⟨by simp, max N1 N2, fun n hn => ?_⟩, hr, ?_⟩
  · obtain ⟨r, hr1, hr2⟩ := t3 n (by omega)
    have hg : anchors.getD 0 [] = [] := by
      rw [List.getD_eq_getElem?_getD]
      cases h : anchors[0]? with
      | none => rfl
      | some a => exact ha a (List.mem_of_getElem? h)
    show dumpDocs cfg n anchors 0 (x :: xs) = _
    rw [dumpDocs, dumperDump, hg, h3 n (by omega)]
    show Out.bind (dumpDocs cfg n anchors (0 + 1) xs) _ = _
    rw [hr1]
    simp only [Out.bind]
    show Out.ok _ = _
    simp [Stream.text, Stream.head, hr2]
  · simp only [Stream.values, List.map_cons, t2]
    rw [Blk.value, Blk.node, h2.noPos]

end YamlPeg
