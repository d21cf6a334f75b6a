import Verif.Proof.IndicatorSpec
import Verif.Model.Grammar
import Verif.Model.Loader
import Verif.Proof.Leaves
/-!
# Properties of text functions: C06, C07 (`indicated_msg`), C16 (keywords), C22 (`escape`)
-/

namespace YamlPeg.Props
open YamlPeg

/-! ## C06, C07: `indicated_msg` -/

def notNl (c : UInt8) : Bool := c != 0x0A

/-- The part of the line of position `p` that is before `p`. -/
def lineBefore (doc : Bytes) (p : Nat) : Bytes := ((doc.take p).reverse.takeWhile notNl).reverse

/-- The part of the line of position `p` from `p` on. -/
def lineAfter (doc : Bytes) (p : Nat) : Bytes := (doc.drop p).takeWhile notNl

/-- One plus the number of newlines before `p`. -/
def lineNo (doc : Bytes) (p : Nat) : Nat := (doc.take p).count 0x0A + 1

/-- One plus the distance back to the start of the line. -/
def colNo (doc : Bytes) (p : Nat) : Nat := (lineBefore doc p).length + 1

theorem splitNl_cons (d : Bytes) : ∃ ls, splitNl d = d.takeWhile notNl :: ls ∧
    (∀ x r, d.dropWhile notNl = x :: r → ls = splitNl r) ∧ (d.dropWhile notNl = [] → ls = []) := by
  induction d with
  | nil => exact ⟨[], by simp [splitNl]⟩
  | cons c r ih =>
    by_cases hc : c = 0x0A
    · subst hc
      exact ⟨splitNl r, by simp [splitNl, notNl, List.takeWhile, List.dropWhile]⟩
    · obtain ⟨ls, h1, h2, h3⟩ := ih
      have hn : notNl c = true := by simp [notNl, hc]
      refine ⟨ls, ?_, ?_, ?_⟩
      · simp [splitNl, hc, h1, List.takeWhile, hn]
      · simpa [List.dropWhile, hn] using h2
      · simpa [List.dropWhile, hn] using h3

theorem takeWhile_all {l : Bytes} (h : ∀ x ∈ l, notNl x = true) : l.takeWhile notNl = l := by
  induction l with
  | nil => rfl
  | cons x xs ih =>
    rw [List.takeWhile_cons, h x (List.mem_cons_self ..), if_pos rfl,
      ih fun y hy => h y (List.mem_cons_of_mem _ hy)]

theorem takeWhile_append_nl (l r : Bytes) : (l ++ 0x0A :: r).takeWhile notNl = l.takeWhile notNl := by
  induction l with
  | nil => simp [List.takeWhile, notNl]
  | cons x xs ih =>
    simp only [List.cons_append, List.takeWhile_cons]
    rw [ih]

theorem indicatedLoop_eq (n : Nat) : ∀ (d : Bytes) (line p : Nat), d.length ≤ n → p ≤ d.length →
    indicatedLoop (splitNl d) line p = some (lineMsg (line + (d.take p).count 0x0A)
      (lineBefore d p).length (lineBefore d p ++ lineAfter d p)) := by
  induction n with
  | zero =>
    intro d line p hn hp
    have : d = [] := by simpa using hn
    subst this
    have : p = 0 := by simpa using hp
    subst this
    simp [splitNl, indicatedLoop, lineBefore, lineAfter]
  | succ n ih =>
    intro d line p hn hp
    obtain ⟨ls, h1, h2, h3⟩ := splitNl_cons d
    have hsplit : d.takeWhile notNl ++ d.dropWhile notNl = d := List.takeWhile_append_dropWhile
    have hall : ∀ x ∈ d.takeWhile notNl, notNl x = true := fun x hx => by
      have := List.all_takeWhile (p := notNl) (l := d)
      exact List.all_eq_true.1 this x hx
    rw [h1, indicatedLoop]
    generalize hl : d.takeWhile notNl = l at *
    by_cases hlt : p ≤ l.length
    · rw [if_pos (by omega)]
      have ht : d.take p = l.take p := by
        rw [← hsplit, List.take_append_of_le_length hlt]
      have hmem : ∀ x ∈ l.take p, notNl x = true := fun x hx => hall x (List.mem_of_mem_take hx)
      have hb : lineBefore d p = l.take p := by
        rw [lineBefore, ht, takeWhile_all, List.reverse_reverse]
        intro x hx
        exact hmem x (by simpa using hx)
      have hc : (d.take p).count 0x0A = 0 := by
        rw [ht, List.count_eq_zero]
        intro hm
        have := hmem _ hm
        simp [notNl] at this
      have ha : lineAfter d p = l.drop p := by
        rw [lineAfter, ← hsplit, List.drop_append_of_le_length hlt]
        cases hr : d.dropWhile notNl with
        | nil =>
          rw [List.append_nil, takeWhile_all]
          intro x hx
          exact hall x (List.mem_of_mem_drop hx)
        | cons x r =>
          have hx : x = 0x0A := by
            have := List.head?_dropWhile_not notNl d
            rw [hr] at this
            simpa [notNl] using this
          subst hx
          rw [takeWhile_append_nl, takeWhile_all]
          intro x hx
          exact hall x (List.mem_of_mem_drop hx)
      rw [hb, ha, hc, List.take_append_drop, List.length_take]
      simp [Nat.min_eq_left hlt]
    · rw [if_neg (by omega)]
      cases hr : d.dropWhile notNl with
      | nil =>
        rw [hr, List.append_nil] at hsplit
        rw [hsplit] at hlt
        omega
      | cons x r =>
        have hx : x = 0x0A := by
          have := List.head?_dropWhile_not notNl d
          rw [hr] at this
          simpa [notNl] using this
        subst hx
        rw [h2 _ _ hr]
        rw [hr] at hsplit
        have hlen : d.length = l.length + (r.length + 1) := by rw [← hsplit]; simp
        rw [ih r _ _ (by omega) (by omega)]
        obtain ⟨q, hq⟩ : ∃ q, p = l.length + 1 + q := ⟨p - (l.length + 1), by omega⟩
        have hq' : p - (l.length + 1) = q := by omega
        have ht : d.take p = l ++ 0x0A :: r.take q := by
          rw [← hsplit, List.take_append, hq, List.take_of_length_le (by omega)]
          congr 1
          rw [show l.length + 1 + q - l.length = q + 1 by omega, List.take_succ_cons]
        have hd : d.drop p = r.drop q := by
          rw [← hsplit, hq, List.drop_append, List.drop_eq_nil_of_le (by omega), List.nil_append]
          rw [show l.length + 1 + q - l.length = q + 1 by omega, List.drop_succ_cons]
        have hb : lineBefore d p = lineBefore r q := by
          rw [lineBefore, ht, lineBefore]
          congr 1
          rw [List.reverse_append, List.reverse_cons, List.append_assoc]
          exact takeWhile_append_nl _ _
        have ha : lineAfter d p = lineAfter r q := by rw [lineAfter, hd, lineAfter]
        have hc : l.count 0x0A = 0 := by
          rw [List.count_eq_zero]
          intro hm
          have := hall _ hm
          simp [notNl] at this
        rw [hq', hb, ha, ht, List.count_append, hc, List.count_cons_self]
        congr 2
        omega

/-- **C06.** For each position of the document (its end included) the message is
`line:column`, the whole line, and a caret under the column. -/
theorem C06_indicated_msg (doc : Bytes) (p : Nat) (hp : p ≤ doc.length) :
    indicatedMsg doc p = some (
      natDec (lineNo doc p) ++ b!":" ++ natDec (colNo doc p) ++ b!"\n" ++
      lossy (lineBefore doc p ++ lineAfter doc p) ++ b!"\n" ++
      List.replicate (colNo doc p - 1) 0x20 ++ b!"^") := by
  rw [indicatedMsg, indicatedLoop_eq doc.length doc 0 p (Nat.le_refl _) hp]
  simp [lineMsg, lineNo, colNo, spaces]

/-- **C06.** `indicated_msg_file` puts the path in front. -/
theorem C06_indicated_msg_file (path doc : Bytes) (p : Nat) :
    indicatedMsgFile path doc p = (indicatedMsg doc p).map fun m => path ++ b!":" ++ m := rfl

/-- The line number and column of the specification really locate `p`: the
document is the part before the line, the line, and the rest. -/
theorem C06_line_is_whole_line (doc : Bytes) (p : Nat) (hp : p ≤ doc.length) :
    ∃ before after, doc = before ++ (lineBefore doc p ++ lineAfter doc p) ++ after ∧
      p = before.length + (lineBefore doc p).length ∧
      (before = [] ∨ before.getLast? = some 0x0A) ∧
      (after = [] ∨ after.head? = some 0x0A) ∧
      0x0A ∉ lineBefore doc p ++ lineAfter doc p := by
  refine ⟨((doc.take p).reverse.dropWhile notNl).reverse, (doc.drop p).dropWhile notNl, ?_, ?_, ?_, ?_, ?_⟩
  · have h1 : ((doc.take p).reverse.dropWhile notNl).reverse ++ lineBefore doc p = doc.take p := by
      rw [lineBefore, ← List.reverse_append, List.takeWhile_append_dropWhile, List.reverse_reverse]
    have h2 : lineAfter doc p ++ (doc.drop p).dropWhile notNl = doc.drop p := by
      rw [lineAfter, List.takeWhile_append_dropWhile]
    rw [← List.append_assoc, h1, List.append_assoc, h2, List.take_append_drop]
  · have h1 : ((doc.take p).reverse.dropWhile notNl).reverse ++ lineBefore doc p = doc.take p := by
      rw [lineBefore, ← List.reverse_append, List.takeWhile_append_dropWhile, List.reverse_reverse]
    have := congrArg List.length h1
    rw [List.length_append, List.length_take] at this
    omega
  · cases hr : (doc.take p).reverse.dropWhile notNl with
    | nil => left; rfl
    | cons x r =>
      right
      have := List.head?_dropWhile_not notNl (doc.take p).reverse
      rw [hr] at this
      simpa [notNl] using this
  · cases hr : (doc.drop p).dropWhile notNl with
    | nil => left; rfl
    | cons x r =>
      right
      have := List.head?_dropWhile_not notNl (doc.drop p)
      rw [hr] at this
      simpa [notNl] using this
  · intro h
    have hmem : ∀ (l : Bytes), (0x0A : UInt8) ∉ l.takeWhile notNl := by
      intro l hm
      have := List.all_eq_true.1 (List.all_takeWhile (p := notNl) (l := l)) _ hm
      simp [notNl] at this
    rcases List.mem_append.1 h with h | h
    · exact hmem _ (by simpa [lineBefore] using h)
    · exact hmem _ h

example : indicatedMsg b!"a: b\ncd: e" 7 = some b!"2:3\ncd: e\n  ^" := by decide

/-- **C07.** `indicated_msg` panics exactly past the end of the document. -/
theorem C07_indicated_msg_panics (doc : Bytes) (p : Nat) :
    indicatedMsg doc p = none ↔ doc.length < p := by
  have := indicatedMsg_isSome doc p
  cases h : indicatedMsg doc p with
  | none => simp [h] at this; simpa using this
  | some m => simp [h] at this; simp; omega

example : indicatedMsg b!"ab" 2 ≠ none ∧ indicatedMsg b!"ab" 3 = none := by decide

/-! ## C16: keywords -/

/-- The core-schema keywords and their meaning (a table, not the code). -/
def keywords : List (Bytes × Yaml) :=
  [(b!"~", .null), (b!"null", .null), (b!"Null", .null), (b!"NULL", .null),
   (b!"true", .bool true), (b!"True", .bool true), (b!"TRUE", .bool true),
   (b!"false", .bool false), (b!"False", .bool false), (b!"FALSE", .bool false),
   (b!".nan", .float b!"NaN"), (b!".NaN", .float b!"NaN"), (b!".NAN", .float b!"NaN"),
   (b!".inf", .float b!"inf"), (b!".Inf", .float b!"inf"), (b!".INF", .float b!"inf"),
   (b!"-.inf", .float b!"-inf"), (b!"-.Inf", .float b!"-inf"), (b!"-.INF", .float b!"-inf")]

/-- **C16.** Each keyword resolves to its table entry. -/
theorem C16_keywords : ∀ kv ∈ keywords, resolvePlain kv.1 = kv.2 := by
  intro kv h
  simp only [keywords, List.mem_cons, List.not_mem_nil, or_false] at h
  rcases h with rfl | rfl | rfl | rfl | rfl | rfl | rfl | rfl | rfl | rfl | rfl | rfl | rfl | rfl |
    rfl | rfl | rfl | rfl | rfl <;> rfl

/-- **C16.** Every other text stays a string, verbatim. -/
theorem C16_other_text (s : Bytes) (h : ∀ kv ∈ keywords, kv.1 ≠ s) : resolvePlain s = .str s := by
  have h' : ∀ k, (∃ v, (k, v) ∈ keywords) → (s == k) = false := by
    rintro k ⟨v, hv⟩
    have := h _ hv
    simpa using Ne.symm this
  have H : ∀ k v, (k, v) ∈ keywords → (s == k) = false := fun k v hv => h' k ⟨v, hv⟩
  simp only [keywords, List.mem_cons, List.not_mem_nil, or_false] at H
  simp only [resolvePlain]
  simp [-beq_iff_eq, -beq_eq_false_iff_ne, H b!"~" .null, H b!"null" .null, H b!"Null" .null, H b!"NULL" .null,
    H b!"true" (.bool true), H b!"True" (.bool true), H b!"TRUE" (.bool true),
    H b!"false" (.bool false), H b!"False" (.bool false), H b!"FALSE" (.bool false),
    H b!".nan" (.float b!"NaN"), H b!".NaN" (.float b!"NaN"), H b!".NAN" (.float b!"NaN"),
    H b!".inf" (.float b!"inf"), H b!".Inf" (.float b!"inf"), H b!".INF" (.float b!"inf"),
    H b!"-.inf" (.float b!"-inf"), H b!"-.Inf" (.float b!"-inf"), H b!"-.INF" (.float b!"-inf")]

example : resolvePlain b!"nul" = .str b!"nul" := rfl

/-! ## C22: `escape` -/

/-- **C22.** `escape` undoes escaping, for every text. -/
theorem C22_escape (s : Bytes) : escape (s.flatMap escapeByte) = s := escape_escapeByte s

/-- **C22.** A text without backslash is not changed at all. -/
theorem C22_escape_plain (s : Bytes) (h : 0x5C ∉ s) : escape s = s := by
  induction s with
  | nil => rfl
  | cons c r ih =>
    have hc : c ≠ 0x5C := fun e => h (e ▸ List.mem_cons_self ..)
    have hr : escapeGo false r = r := ih fun hm => h (List.mem_cons_of_mem _ hm)
    simp [escape, escapeGo, hc, hr]

example : escape b!"a\\nb\\\\" = b!"a\nb\\" := by decide

end YamlPeg.Props
