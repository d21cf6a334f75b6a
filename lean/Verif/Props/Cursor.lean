import Verif.Proof.Safety2
import Verif.Model.Cursor
/-!
# Properties of the base parser: C03, C04, C05

The specification vocabulary is at the beginning of each section and does not
refer to the model's helpers.
-/

namespace YamlPeg.Props
open YamlPeg M Frame

/-! ## C04: `take_while` -/

/-- `n` is the length of the longest prefix of `l` whose bytes all satisfy `f`. -/
def LongestRun (f : UInt8 → Bool) (l : Bytes) (n : Nat) : Prop :=
  n ≤ l.length ∧ (∀ i c, i < n → l[i]? = some c → f c = true) ∧
    (∀ c, l[n]? = some c → f c = false)

/-- How much of a run of `n` bytes an option takes. -/
def cut : TakeOpt → Nat → Nat
  | .one, n => min n 1
  | .range _ hi, n => min n hi
  | .more _, n => n

/-- The least count an option accepts. -/
def need : TakeOpt → Nat
  | .one => 1
  | .range lo _ => lo
  | .more lo => lo

/-- `Range(lo, 0)` is excluded: the counter is compared after it was increased,
so that option takes everything. -/
def properOpt : TakeOpt → Prop
  | .range _ hi => 0 < hi
  | _ => True

theorem takeCount_run (f : UInt8 → Bool) (opt : TakeOpt) (hp : properOpt opt) (l : Bytes) (n : Nat)
    (h : LongestRun f l n) (k : Nat)
    (hk : match opt with | .one => k = 0 | .range _ hi => k < hi | .more _ => True) :
    takeCount f opt l k = cut opt (k + n) := by
  induction l generalizing n k with
  | nil =>
    have : n = 0 := by have := h.1; simpa using this
    subst this
    cases opt <;> simp only [takeCount, cut] at * <;> omega
  | cons x xs ih =>
    cases n with
    | zero =>
      have hx : f x = false := h.2.2 x (by simp)
      simp only [takeCount, hx]
      cases opt <;> simp only [cut] at * <;> simp <;> omega
    | succ n =>
      have hx : f x = true := h.2.1 0 x (by omega) (by simp)
      have h' : LongestRun f xs n := by
        refine ⟨by have := h.1; simpa using this, ?_, ?_⟩
        · intro i c hi hc
          exact h.2.1 (i + 1) c (by omega) (by simpa using hc)
        · intro c hc
          exact h.2.2 c (by simpa using hc)
      simp only [takeCount, hx, if_true]
      cases opt with
      | one => simp only [cut]; simp only at hk; omega
      | range lo hi =>
        simp only at hk
        simp only [cut]
        split
        · omega
        · rw [ih n h' (k + 1) (by simp only; omega)]
          simp only [cut]; omega
      | more lo =>
        simp only [cut]
        rw [ih n h' (k + 1) trivial]
        simp only [cut]; omega

/-- **C04.** With the cursor inside the document, `take_while` takes exactly the
longest run (cut to the option), succeeds iff the count suffices, and otherwise
goes back to the mark; nothing else of the parser changes. -/
theorem C04_take_while (f : UInt8 → Bool) (opt : TakeOpt) (hp : properOpt opt) (s : Parser)
    (hs : s.pos ≤ s.doc.length) (n : Nat) (hn : LongestRun f (s.doc.drop s.pos) n) :
    takeWhile f opt s =
      if need opt ≤ cut opt n then (.ok (), { s with pos := s.pos + cut opt n })
      else (.err .mismatch, { s with pos := s.eaten }) := by
  have hc := takeCount_run f opt hp _ n hn 0 (by cases opt with
    | one => rfl
    | range lo hi => exact hp
    | more lo => trivial)
  simp only [takeWhile, hs, if_true, Parser.rest, hc, Nat.zero_add]
  cases opt with
  | one =>
    simp only [TakeOpt.lo?, need, cut]
    by_cases h0 : n = 0
    · simp [h0]
    · have : min n 1 = 1 := by omega
      simp [this]
  | range lo hi =>
    simp only [TakeOpt.lo?, need, cut, Option.some.injEq]
    by_cases h0 : min n hi = 0
    · simp only [h0, if_true]
      by_cases hl : lo = 0
      · simp [hl]
      · rw [if_neg hl, if_neg (by omega)]
    · simp only [h0, if_false]
      by_cases hl : min n hi < lo
      · have hl' : ¬ lo ≤ min n hi := by omega
        simp only [hl, hl', if_true, if_false]
      · have hl' : lo ≤ min n hi := by omega
        simp only [hl, hl', if_true, if_false]
  | more lo =>
    simp only [TakeOpt.lo?, need, cut, Option.some.injEq]
    by_cases h0 : n = 0
    · simp only [h0, if_true]
      by_cases hl : lo = 0
      · simp [hl]
      · rw [if_neg hl, if_neg (by omega)]
    · simp only [h0, if_false]
      by_cases hl : n < lo
      · have hl' : ¬ lo ≤ n := by omega
        simp only [hl, hl', if_true, if_false]
      · have hl' : lo ≤ n := by omega
        simp only [hl, hl', if_true, if_false]

/-- **C04, the excluded option.** `Range(a, 0)` is no empty range: it behaves as `More(a)`. -/
theorem C04_counterexample_range_zero (f : UInt8 → Bool) (lo : Nat) (s : Parser) :
    takeWhile f (.range lo 0) s = takeWhile f (.more lo) s := by
  have h : ∀ (l : Bytes) k, takeCount f (.range lo 0) l k = takeCount f (.more lo) l k := by
    intro l
    induction l with
    | nil => intro k; rfl
    | cons c cs ih => intro k; simp [takeCount, ih]
  simp only [takeWhile, h, TakeOpt.lo?]
  rfl

/-- Every byte list has exactly one longest run, so C04 covers every state. -/
theorem longestRun_exists (f : UInt8 → Bool) (l : Bytes) : ∃ n, LongestRun f l n := by
  induction l with
  | nil => exact ⟨0, by simp [LongestRun]⟩
  | cons x xs ih =>
    cases hx : f x with
    | false => exact ⟨0, by simp, by intro i c h; omega, by simp [hx]⟩
    | true =>
      obtain ⟨n, h1, h2, h3⟩ := ih
      refine ⟨n + 1, by simpa using h1, ?_, by simpa using h3⟩
      intro i c hi hc
      cases i with
      | zero => simp at hc; exact hc ▸ hx
      | succ i => exact h2 i c (by omega) (by simpa using hc)

/-- Non-vacuity: `aab` after a mark at 0, cursor at 0, `Range(1, 2)`. -/
example : takeWhile (fun c => c == 0x61) (.range 1 2) (Parser.new b!"aaab") =
    (.ok (), { Parser.new b!"aaab" with pos := 2 }) := by
  have := C04_take_while (fun c => c == 0x61) (.range 1 2) (by simp [properOpt]) (Parser.new b!"aaab")
    (by simp [Parser.new]) 3 ⟨by simp [Parser.new], by
      intro i c h1 h2
      match i, h1 with
      | 0, _ => simp [Parser.new] at h2; simp [← h2]
      | 1, _ => simp [Parser.new] at h2; simp [← h2]
      | 2, _ => simp [Parser.new] at h2; simp [← h2], by simp [Parser.new]⟩
  simpa [need, cut, Parser.new] using this

/-! ## C03 and C05: every public sub-parser -/

/-- The public sub-parsers of `Parser` (grammar.rs, directive.rs, mod.rs) that
take no closure. `string_quoted` and `string_plain` carry their fuel. -/
inductive Sub where
  | food | foodStr | text | err (name : String)
  | sym (c : UInt8) | symSet (l : Bytes) | symSeq (l : Bytes)
  | takeWhile (f : UInt8 → Bool) (opt : TakeOpt)
  | ind (level : Nat) | indDefine (level : Nat)
  | ws (opt : TakeOpt) | inv (opt : TakeOpt) | nl | gap (cmt : Bool) | comment
  | bound | complexMapping | int | float | sciFloat
  | stringQuoted (n : Nat) (q : UInt8) (ignore : Bytes)
  | stringPlain (n level : Nat) (inner : Bool)
  | stringLiteral (level : Nat) | stringFolded (level : Nat)
  | stringWrapped (level : Nat) (sep : UInt8) (leading : Bool) | chomp
  | identifier | tag | anchor | anchorUse | directive
  | backward
  /-- `back(n)` by a caller that goes back to its mark at most. -/
  | back (n : Nat)

/-- Throw the value away. -/
def void {α : Type} (x : PM α) : PM Unit := do let _ ← x; pure ()

/-- What each call runs. -/
def Sub.run : Sub → PM Unit
  | .food => void YamlPeg.food
  | .foodStr => void YamlPeg.foodStr
  | .text => void YamlPeg.text
  | .err name => errAt name
  | .sym c => YamlPeg.sym c
  | .symSet l => YamlPeg.symSet l
  | .symSeq l => YamlPeg.symSeq l
  | .takeWhile f o => YamlPeg.takeWhile f o
  | .ind l => YamlPeg.ind l
  | .indDefine l => YamlPeg.indDefine l
  | .ws o => YamlPeg.ws o
  | .inv o => YamlPeg.inv o
  | .nl => YamlPeg.nl
  | .gap c => void (YamlPeg.gap c)
  | .comment => YamlPeg.comment
  | .bound => YamlPeg.bound
  | .complexMapping => YamlPeg.complexMapping
  | .int => void YamlPeg.int
  | .float => void YamlPeg.float
  | .sciFloat => void YamlPeg.sciFloat
  | .stringQuoted n q ig => void (YamlPeg.stringQuoted n q ig)
  | .stringPlain n l i => void (YamlPeg.stringPlain n l i)
  | .stringLiteral l => void (YamlPeg.stringLiteral l)
  | .stringFolded l => void (YamlPeg.stringFolded l)
  | .stringWrapped l s b => void (YamlPeg.stringWrapped l s b)
  | .chomp => void YamlPeg.chomp
  | .identifier => YamlPeg.identifier
  | .tag => void YamlPeg.tag
  | .anchor => void YamlPeg.anchor
  | .anchorUse => void YamlPeg.anchorUse
  | .directive => YamlPeg.directive
  | .backward => YamlPeg.backward
  | .back n => fun s => YamlPeg.back (min n (s.pos - s.eaten)) s

/-- The panics sub-parsers can raise: an unknown tag handle, and `err` after
`consume` (see `C03_consume_err_panics`). -/
def subPanic (p : Panic) : Prop := p = .tagHandle ∨ p = .unreachable

/-- The parser invariant's parameters used here. -/
def anyCfg (doc : Bytes) : PCfg := ⟨doc, 0, False, subPanic, True⟩

theorem void_pk {c : PCfg} {α : Type} {x : PM α} {V : α → Prop} (h : (PK c).Holds x V) :
    (PK c).Holds (void x) (fun _ => True) :=
  Holds.bind h fun _ _ => Holds.pure trivial

theorem foodStr_pk {c : PCfg} : (PK c).Holds foodStr (fun _ => True) := by
  intro s hs
  have : s.pos ≤ s.doc.length := by rw [hs.doc]; exact hs.pos
  simp only [foodStr, this, if_true]
  exact ⟨hs, rfl, trivial⟩

theorem back_pk {c : PCfg} (n : Nat) :
    (PK c).Holds (fun s => back (min n (s.pos - s.eaten)) s) (fun _ => True) := by
  intro s hs
  have h1 := hs.eaten
  have : min n (s.pos - s.eaten) ≤ s.pos := by omega
  simp only [back, this, if_true]
  exact ⟨⟨hs.doc, hs.consumed, hs.lo, by simp only; omega, by have := hs.pos; simp only; omega, hs.indent, hs.tag1, hs.tag2⟩, rfl, trivial⟩

theorem sub_pk (doc : Bytes) (o : Sub) : (PK (anyCfg doc)).Holds o.run (fun _ => True) := by
  have hd : (anyCfg doc).div := trivial
  have hX : (anyCfg doc).strict ∨ (anyCfg doc).X .unreachable := .inr (.inr rfl)
  have hT : (anyCfg doc).X .tagHandle := .inl rfl
  cases o with
  | food => exact void_pk food_pk
  | foodStr => exact void_pk foodStr_pk
  | text => exact void_pk text_pk
  | err name => exact errAt_pk hX
  | sym c => exact sym_pk
  | symSet l => exact symSet_pk
  | symSeq l => exact symSeq_pk
  | takeWhile f o => exact takeWhile_pk
  | ind l => exact ind_pk
  | indDefine l => exact indDefine_pk
  | ws o => exact ws_pk
  | inv o => exact inv_pk
  | nl => exact nl_pk
  | gap c => exact void_pk gap_pk
  | comment => exact comment_pk
  | bound => exact bound_pk
  | complexMapping => exact complexMapping_pk
  | int => exact void_pk int_pk
  | float => exact void_pk float_pk
  | sciFloat => exact void_pk sciFloat_pk
  | stringQuoted n q ig => exact void_pk (stringQuoted_pk hd)
  | stringPlain n l i => exact void_pk (stringPlain_pk hd)
  | stringLiteral l => exact void_pk stringLiteral_pk
  | stringFolded l => exact void_pk stringFolded_pk
  | stringWrapped l s b => exact void_pk stringWrapped_pk
  | chomp => exact void_pk chomp_pk
  | identifier => exact identifier_pk
  | tag => exact void_pk (tag_pk hT)
  | anchor => exact void_pk anchor_pk
  | anchorUse => exact void_pk anchorUse_pk
  | directive => exact directive_pk hX
  | backward => exact backward_pk
  | back n => exact back_pk n

/-- Programs over the sub-parsers: calls, `forward`, sequencing with `?`,
"try, then go on anyway", and `context`. -/
inductive Prog where
  | call (o : Sub)
  | forward
  | andThen (a b : Prog)
  | orElse (a b : Prog)
  | always (a b : Prog)
  | context (a : Prog)

def Prog.run : Prog → PM Unit
  | .call o => o.run
  | .forward => YamlPeg.forward
  | .andThen a b => do a.run; b.run
  | .orElse a b => do if ← isOk a.run then pure () else b.run
  | .always a b => do let _ ← isOk a.run; b.run
  | .context a => YamlPeg.context a.run

theorem prog_pf (doc : Bytes) (p : Prog) : (PF (anyCfg doc)).Holds p.run (fun _ => True) := by
  induction p with
  | call o => exact pk_pf (sub_pk doc o)
  | forward => exact forward_pf
  | andThen a b iha ihb => exact Holds.bind iha fun _ _ => ihb
  | orElse a b iha ihb =>
    exact Holds.bind (V := fun _ => True) (Holds.isOk iha fun _ => trivial) fun _ _ =>
      Holds.ite (fun _ => Holds.pure trivial) fun _ => ihb
  | always a b iha ihb =>
    exact Holds.bind (V := fun _ => True) (Holds.isOk iha fun _ => trivial) fun _ _ => ihb
  | context a iha => exact pk_pf (context_pk iha)

/-- One step of a history: a program, or `consume`. -/
inductive Step where
  | prog (p : Prog)
  | consume

/-- The parser after a history (results are dropped: every step runs whether or
not the steps before matched). -/
def runHistory (s : Parser) : List Step → Parser
  | [] => s
  | .prog p :: r => runHistory (p.run s).2 r
  | .consume :: r => runHistory (YamlPeg.consume s).2 r

/-- The document is unchanged and both cursors are in order inside it. -/
def CursorInside (doc : Bytes) (s : Parser) : Prop :=
  s.doc = doc ∧ s.eaten ≤ s.pos ∧ s.pos ≤ doc.length

theorem consume_wf {doc : Bytes} {s : Parser} (h : PWF (anyCfg doc) s) :
    PWF (anyCfg doc) (consume s).2 :=
  ⟨h.doc, fun hf => hf.elim, Nat.zero_le _, Nat.le_refl _, Nat.zero_le _, h.indent, h.tag1, h.tag2⟩

/-- A parser on a document, set to a place inside it (`Parser::new(doc).pos(at)`; `Parser::new(doc)` is `at = 0`). -/
def startAt (doc : Bytes) (at_ : Nat) : Parser := (Parser.new doc).setPos at_

example (doc : Bytes) : startAt doc 0 = Parser.new doc := rfl

theorem new_wf (doc : Bytes) {p : Nat} (hp : p ≤ doc.length) : PWF (anyCfg doc) (startAt doc p) :=
  ⟨rfl, fun hf => hf.elim, Nat.zero_le _, Nat.le_refl _, hp, by simp [startAt, Parser.setPos, Parser.new],
    rfl, rfl⟩

theorem history_wf {doc : Bytes} (h : List Step) (s : Parser) (hs : PWF (anyCfg doc) s) :
    PWF (anyCfg doc) (runHistory s h) := by
  induction h generalizing s with
  | nil => exact hs
  | cons x r ih =>
    cases x with
    | prog p => exact ih _ (prog_pf doc p s hs).1
    | consume => exact ih _ (consume_wf hs)

/-- **C03.** After any history of sub-parser calls the cursors are inside the
unchanged document. -/
theorem C03_cursor_inside (doc : Bytes) (p : Nat) (hp : p ≤ doc.length) (h : List Step) :
    CursorInside doc (runHistory (startAt doc p) h) :=
  have hw := history_wf h _ (new_wf doc hp)
  ⟨hw.doc, hw.eaten, hw.pos⟩

/-- **C03.** After any history, `food`, `food_str` and `text` return normally. -/
theorem C03_food_text (doc : Bytes) (p : Nat) (hp : p ≤ doc.length) (h : List Step) :
    let s := runHistory (startAt doc p) h
    food s = (.ok (doc.drop s.pos), s) ∧ foodStr s = (.ok (lossy (doc.drop s.pos)), s) ∧
      text s = (.ok (lossy ((doc.take s.pos).drop s.eaten)), s) := by
  have hw := history_wf h _ (new_wf doc hp)
  generalize runHistory (startAt doc p) h = s at hw
  have hl : s.pos ≤ s.doc.length := by rw [hw.doc]; exact hw.pos
  have hr : s.rest = doc.drop s.pos := by unfold Parser.rest; rw [hw.doc]; rfl
  refine ⟨by simp only [food, hl, if_true, hr], by simp only [foodStr, hl, if_true, hr], ?_⟩
  obtain ⟨k, pre, mid, post, rfl⟩ := PWF.exists_st hw
  have hd : doc = pre ++ (mid ++ post) := hw.doc.symm
  subst hd
  rw [text_st, st_pos, st_eaten]
  congr 3
  rw [← List.append_assoc, ← List.length_append, List.take_left, List.drop_left]

/-- **C03.** No sub-parser call after any history panics, except on an unknown tag
handle, or when an error message is made after `consume`. -/
theorem C03_calls_partial (doc : Bytes) (at_ : Nat) (ha : at_ ≤ doc.length) (h : List Step) (p : Prog) (x : Panic)
    (hp : (p.run (runHistory (startAt doc at_) h)).1 = .panic x) :
    x = .tagHandle ∨ x = .unreachable := by
  have hw := history_wf h _ (new_wf doc ha)
  have := (prog_pf doc p _ hw).2.2
  rw [hp] at this
  exact this

/-- **C03, negative part.** `err` after `consume` panics: `indicator()` counts
the consumed bytes although the document keeps them. -/
theorem C03_consume_err_panics :
    ((Sub.run (.err "x")) (runHistory (startAt b!"abc" 0)
      [.prog (.call (.symSeq b!"abc")), .consume, .prog (.call (.symSeq b!"abc"))])).1
      = .panic .unreachable := by decide

/-- Non-vacuity: a history that really moves. -/
example : (runHistory (startAt b!"x &a - b" 2)
    [.prog (.call .anchor), .prog .forward, .prog (.context (.call (.ws (.more 1)))), .prog (.call (.symSeq b!"- ")), .prog (.call (.back 1))]).pos = 6 := by
  decide

/-- **C05.** `context` restores the mark whatever its closure does, also when
the closure fails or panics. -/
theorem C05_context {α : Type} (f : PM α) (s : Parser) : (context f s).2.eaten = s.eaten := rfl

/-- **C05.** Every sub-parser keeps the mark, matched or not, from every state
whose cursors are inside the document. -/
theorem C05_sub_parsers (doc : Bytes) (p : Nat) (hp : p ≤ doc.length) (h : List Step) (o : Sub) :
    let s := runHistory (startAt doc p) h
    (o.run s).2.eaten = s.eaten :=
  (sub_pk doc o _ (history_wf h _ (new_wf doc hp))).2.1

/-- **C05.** So the text after a successful sub-parser starts at the caller's
mark and ends at the new cursor. -/
theorem C05_text_after (doc : Bytes) (p : Nat) (hp : p ≤ doc.length) (h : List Step) (o : Sub) :
    let s := runHistory (startAt doc p) h
    let s' := (o.run s).2
    (text s').1 = .ok (lossy ((doc.take s'.pos).drop s.eaten)) := by
  have hw := history_wf h _ (new_wf doc hp)
  obtain ⟨h1, h2, -⟩ := sub_pk doc o _ hw
  intro s s'
  have := (C03_food_text doc p hp (h ++ [.prog (.call o)])).2.2
  have e : ∀ (h : List Step) (s : Parser), runHistory s (h ++ [.prog (.call o)]) =
      (o.run (runHistory s h)).2 := by
    intro h
    induction h with
    | nil => intro s; rfl
    | cons x r ih => intro s; cases x <;> exact ih _
  rw [e] at this
  have h2 : s'.eaten = s.eaten := h2
  rw [← h2, this]

end YamlPeg.Props
