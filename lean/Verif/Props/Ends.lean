import Verif.Proof.RunsD
import Verif.Proof.Hang
import Verif.Proof.Stale
import Verif.Props.Fuel
import Verif.Props.Layout
/-!
# C01: which documents are parsed in finite time

`Ends f o` and `Hangs f` are defined in Props/Fuel.lean.  `QuotesClosed doc`
(Proof/RunsQ.lean): wherever a value may begin (at the start, behind white space
and behind the bytes `-+>[,{:?*&`, behind the version of `%YAML`, behind the
first `!` of `%TAG`), a quote that stands there is closed by a later one, and an
anchor or a tag ends in front of one of `:{}[] ,` or a line break.
`MarkersBare doc` (Proof/RunsD.lean): a `---` that is not at the very beginning
has nothing but a comment on its line.
-/

namespace YamlPeg.Props
open YamlPeg

/-- Documents of any length and nesting depth, whose quotes are closed, are parsed
in finite time by both entry points. -/
theorem C01_returns_partial (h : HashCfg) (doc : Bytes) (hq : QuotesClosed doc) (hb : MarkersBare doc) :
    (∃ o, Ends (fun n => parse h n doc) o) ∧ (∃ o, Ends (fun n => parseCyclic h n doc) o) := by
  have h1 : parse h (doc.length + 2) doc ≠ .diverge := parse_runs h hq hb false
  have h2 : parseCyclic h (doc.length + 2) doc ≠ .diverge := by
    have := parse_runs h hq hb true
    unfold parseCyclic
    generalize loaderParse (doc.length + 2) { Loader.new h doc with cyclicMode := true } = x at this ⊢
    rcases x with ⟨r, l⟩
    cases r <;> first | (intro h; cases h; done) | exact fun _ => this rfl
  exact ⟨⟨_, h1, _, fun m hm => C49_parse_stable h doc _ m hm h1⟩,
    ⟨_, h2, _, fun m hm => C49_parse_cyclic_stable h doc _ m hm h2⟩⟩

/-- How long it takes at most: no loop goes round more than `doc.length + 2` times, and calls are nested no deeper than
that (fuel `n` bounds both). -/
theorem C01_bounded_partial (h : HashCfg) (doc : Bytes) (hq : QuotesClosed doc) (hb : MarkersBare doc) (n : Nat)
    (hn : doc.length + 2 ≤ n) : parse h n doc ≠ .diverge ∧ parseCyclic h n doc ≠ .diverge := by
  have h1 : parse h (doc.length + 2) doc ≠ .diverge := parse_runs h hq hb false
  have h2 : parseCyclic h (doc.length + 2) doc ≠ .diverge := by
    have := parse_runs h hq hb true
    unfold parseCyclic
    generalize loaderParse (doc.length + 2) { Loader.new h doc with cyclicMode := true } = x at this ⊢
    rcases x with ⟨r, l⟩
    cases r <;> first | (intro h; cases h; done) | exact fun _ => this rfl
  rw [C49_parse_stable h doc _ n hn h1, C49_parse_cyclic_stable h doc _ n hn h2]
  exact ⟨h1, h2⟩

/-- The property fails: a document that begins with `'` and has no closing quote
(every other quote being one of a pair `''`) is never parsed. -/
theorem C01_counterexample_single_quote (h : HashCfg) (body : Bytes) (hq : unclosed 0x27 0x27 body = true) :
    Hangs (fun n => parse h n (0x27 :: body)) ∧ Hangs (fun n => parseCyclic h n (0x27 :: body)) := by
  have key : ∀ n c, (loaderParse n { Loader.new h (0x27 :: body) with cyclicMode := c }).1 = .diverge := by
    intro n c
    have e : ({ Loader.new h (0x27 :: body) with cyclicMode := c } : Loader) =
        ld { Loader.new h (0x27 :: body) with cyclicMode := c } (st .start [] [] (0x27 :: body)) := by
      simp [ld, Loader.new, st, Parser.new, Ctx.start]
    rw [e]
    exact loaderParse_div (by decide) (by rfl) (by decide) fun n p L' => scalarAtom_single_div hq ..
  refine ⟨fun n => key n false, fun n => ?_⟩
  have := key n true
  show parseCyclic h n _ = _
  unfold parseCyclic
  generalize loaderParse n { Loader.new h (0x27 :: body) with cyclicMode := true } = x at this ⊢
  rcases x with ⟨r, l⟩
  cases this
  rfl

/-- The same for `"`, where the escape is `\"`. -/
theorem C01_counterexample_double_quote (h : HashCfg) (body : Bytes) (hq : unclosed 0x5C 0x22 body = true) :
    Hangs (fun n => parse h n (0x22 :: body)) ∧ Hangs (fun n => parseCyclic h n (0x22 :: body)) := by
  have key : ∀ n c, (loaderParse n { Loader.new h (0x22 :: body) with cyclicMode := c }).1 = .diverge := by
    intro n c
    have e : ({ Loader.new h (0x22 :: body) with cyclicMode := c } : Loader) =
        ld { Loader.new h (0x22 :: body) with cyclicMode := c } (st .start [] [] (0x22 :: body)) := by
      simp [ld, Loader.new, st, Parser.new, Ctx.start]
    rw [e]
    exact loaderParse_div (by decide) (by rfl) (by decide) fun n p L' => scalarAtom_double_div hq ..
  refine ⟨fun n => key n false, fun n => ?_⟩
  have := key n true
  show parseCyclic h n _ = _
  unfold parseCyclic
  generalize loaderParse n { Loader.new h (0x22 :: body) with cyclicMode := true } = x at this ⊢
  rcases x with ⟨r, l⟩
  cases this
  rfl

/-! The hypotheses are met. -/

example : Hangs (fun n => parse .exact n b!"'it''s open") :=
  (C01_counterexample_single_quote .exact b!"it''s open" (by decide)).1
example : Hangs (fun n => parse .exact n b!"\"open\\\"") :=
  (C01_counterexample_double_quote .exact b!"open\\\"" (by decide)).1

/-- Text without quotes does not close a string. -/
theorem unclosed_noQuote {a q : UInt8} : ∀ {E : Bytes}, (∀ c ∈ E, c ≠ q) → unclosed a q E = true
  | [], _ => rfl
  | [c], h => by simpa [unclosed] using h c (by simp)
  | c :: d :: r, h => by
    have hd : d ≠ q := h d (by simp)
    have hc : c ≠ q := h c (by simp)
    have ih := unclosed_noQuote (a := a) (E := d :: r) fun x hx => h x (by simp [List.mem_cons.1 hx])
    simp [unclosed, hd, hc, ih]

/-- The escaped text of a string does not close it. -/
theorem unclosed_quoted {X : Bytes} (hX : ∀ r, X ≠ 0x22 :: r) : ∀ s : Bytes,
    unclosed 0x5C 0x22 (s.flatMap quoteByte ++ X) = unclosed 0x5C 0x22 X
  | [] => rfl
  | c :: s => by
    have ih := unclosed_quoted hX s
    have hh : ∀ r, s.flatMap quoteByte ++ X ≠ 0x22 :: r := by
      intro r
      cases s with
      | nil => exact hX r
      | cons d s =>
        simp only [List.flatMap_cons, List.append_assoc]
        unfold quoteByte escapeByte
        repeat' split
        all_goals simp
        intro h; contradiction
    have bs : ∀ R : Bytes, (∀ r, R ≠ 0x22 :: r) → unclosed 0x5C 0x22 (0x5C :: R) = unclosed 0x5C 0x22 R := by
      intro R hR
      cases R with
      | nil => rfl
      | cons d r =>
        have : d ≠ 0x22 := by rintro rfl; exact hR r rfl
        simp [unclosed, this]
    rw [List.flatMap_cons, List.append_assoc]
    generalize s.flatMap quoteByte ++ X = R at ih hh
    rw [← ih]
    unfold quoteByte escapeByte
    split
    · rfl
    split
    · show unclosed 0x5C 0x22 (0x5C :: 0x5C :: R) = _
      rw [bs _ (by simp), bs _ hh]
    split
    · show unclosed 0x5C 0x22 (0x5C :: 0x6E :: R) = _
      rw [bs _ (by simp), unclosed_skip (by decide) (by decide)]
    split
    · show unclosed 0x5C 0x22 (0x5C :: 0x72 :: R) = _
      rw [bs _ (by simp), unclosed_skip (by decide) (by decide)]
    split
    · show unclosed 0x5C 0x22 (0x5C :: 0x74 :: R) = _
      rw [bs _ (by simp), unclosed_skip (by decide) (by decide)]
    split
    · show unclosed 0x5C 0x22 (0x5C :: 0x62 :: R) = _
      rw [bs _ (by simp), unclosed_skip (by decide) (by decide)]
    split
    · show unclosed 0x5C 0x22 (0x5C :: 0x66 :: R) = _
      rw [bs _ (by simp), unclosed_skip (by decide) (by decide)]
    · exact unclosed_skip (by assumption) (by assumption) R

/-- **C21** is false for every string that ends in a backslash: written as in
`C21_double_quoted_partial`, in front of any text without a further `"`, it makes both parsers loop forever. -/
theorem C21_counterexample_backslash (h : HashCfg) (s E : Bytes) (hl : s.getLast? = some 0x5C) (hE : ∀ c ∈ E, c ≠ 0x22) :
    let doc := b!"\"" ++ s.flatMap (fun c => if c = 0x22 then b!"\\\"" else escapeByte c) ++ b!"\"" ++ E
    Hangs (fun n => parse h n doc) ∧ Hangs (fun n => parseCyclic h n doc) := by
  obtain ⟨s, rfl⟩ : ∃ t, s = t ++ [0x5C] := by
    rw [List.getLast?_eq_some_iff] at hl; exact hl
  have e : (fun c => if c = 0x22 then b!"\\\"" else escapeByte c) = quoteByte := rfl
  have hu : unclosed 0x5C 0x22 ((s ++ [0x5C]).flatMap quoteByte ++ (0x22 :: E)) = true := by
    have : (s ++ [0x5C]).flatMap quoteByte ++ (0x22 :: E) = s.flatMap quoteByte ++ (0x5C :: 0x5C :: 0x22 :: E) := by
      simp [quoteByte, escapeByte]
    rw [this, unclosed_quoted (by simp)]
    simpa [unclosed] using unclosed_noQuote hE
  have := C01_counterexample_double_quote h _ hu
  rw [e]
  simpa using this

example : Hangs (fun n => parse .exact n b!"\"C:\\\\\"\n") :=
  (C21_counterexample_backslash .exact b!"C:\\" b!"\n" rfl (by decide)).1

theorem hangs_cyclic {h : HashCfg} {doc : Bytes} {n : Nat}
    (hn : (loaderParse n { Loader.new h doc with cyclicMode := true }).1 = .diverge) : parseCyclic h n doc = .diverge := by
  unfold parseCyclic
  generalize loaderParse n { Loader.new h doc with cyclicMode := true } = x at hn ⊢
  rcases x with ⟨r, l⟩
  cases hn
  rfl

/-- **C01** is false for every stream of this kind: a document `s` that by itself is
read (C52), whose last value stands in the column of its key (as in `a:\n- x\n`), and
behind it a line `--- T` with any plain text `T`. -/
theorem C01_counterexample_stale_indent (h : HashCfg) {s : Stream} (hs : s.ok) {G : Bytes} (hend : s.tail = .stop G)
    (hG : AfterLines s.first.kind G) (hflush : ¬ s.first.calm) {T E : Bytes} (hT : PlainLine T)
    (hE : ∃ c r, E = c :: r ∧ (c = 0x0A ∨ c = 0x0D)) :
    (s.fine false → Hangs (fun n => parse h n (s.text ++ (b!"--- " ++ (T ++ E))))) ∧
    (s.fine true → Hangs (fun n => parseCyclic h n (s.text ++ (b!"--- " ++ (T ++ E))))) := by
  obtain ⟨N, hN⟩ := loaderParse_stale hs hend hG hflush hT hE
  generalize s.text ++ (b!"--- " ++ (T ++ E)) = doc at hN
  refine ⟨fun hf => ?_, fun hf => ?_⟩
  · refine hangs_of_large (N := N) (fun n m hnm hn => C49_parse_stable h doc n m hnm hn) fun n hn => ?_
    have := hN n hn (Loader.new h doc) rfl hf
    rw [← new_st] at this
    exact this
  · refine hangs_of_large (N := N) (fun n m hnm hn => C49_parse_cyclic_stable h doc n m hnm hn) fun n hn => ?_
    have := hN n hn { Loader.new h doc with cyclicMode := true } rfl hf
    exact hangs_cyclic this

/-- The document `a:`, `- x`. -/
def flushDoc : Stream where
  mark := none
  first := .map [] 0 (.one b!"a" (.str b!"a") [] (.seq b!"\n" 0
    (.one b!" " (.leaf [] b!"x" .loose (fun _ _ => .str b!"x") .none))))
  tail := .stop b!"\n"

theorem flushDoc_ok : flushDoc.ok := by
  refine ⟨?_, .inr (.inl (after_lf (by simp [flushDoc, Blk.kind, Ents.kind, Items.kind]))), rfl⟩
  simp only [flushDoc, Blk.okN, Ents.ok, Blk.okV, Items.ok, Blk.lead, Ents.keys]
  exact ⟨.inl trivial, trivial, ⟨⟨_, word (by decide) (by decide)⟩, .inl (sep_lf []), lead_lf 0, Nat.le_refl 0,
    .inl (sep_space _), .inl ⟨.inl trivial, .inl (.inl ⟨_, word (by decide) (by decide), rfl, rfl⟩)⟩⟩, keysOK_str _ (by simp)⟩

theorem flushDoc_still : flushDoc.still := ⟨by simp [flushDoc, Blk.still, Ents.still, Items.still], trivial⟩

/-- By itself the first document is read. -/
example : Reads b!"a:\n- x\n" flushDoc.values := C52_layout_still flushDoc_ok flushDoc_still

/-- With a second document on the line of its marker, nothing is read. -/
example : Hangs (fun n => parse .exact n b!"a:\n- x\n--- c\n") ∧ Hangs (fun n => parseCyclic .exact n b!"a:\n- x\n--- c\n") := by
  have := C01_counterexample_stale_indent .exact flushDoc_ok rfl
    (after_lf (by simp [flushDoc, Blk.kind, Ents.kind, Items.kind]))
    (by simp [flushDoc, Blk.calm, Ents.calm, Blk.calmV]) (T := b!"c") (E := b!"\n") (isWord_plainLine (by decide)) ⟨_, _, rfl, .inl rfl⟩
  have hf : ∀ c, flushDoc.fine c := fun c => ⟨(Blk.still_spec _ flushDoc_still.1 _).2.2 _, trivial⟩
  exact ⟨this.1 (hf false), this.2 (hf true)⟩

/-- A directive, nested collections, quoted strings, tags, anchors, an alias, two documents. -/
def tameDoc : Bytes := b!"%YAML 1.2\n---\na: &x\n  - [1, {b: 'it''s'}]\n  - \"d\\\"\" # e\n  - !!str k\n  - !t [*x]\n--- # next\n? &y f\n: g\n"

/-- Decidable form of `QOk`. -/
def qokB (r : Bytes) : Bool :=
  match r with
  | [] => true
  | c :: b =>
    (c != 0x27 || !unclosed 0x27 0x27 b) && (c != 0x22 || !unclosed 0x5C 0x22 b) &&
    (c != 0x26 || !headAlnum b || headIn bnd (b.dropWhile idByte)) &&
    (c != 0x21 || match tagLeft b with
      | none => true
      | some q => headIn bnd q)

theorem qok_of {r : Bytes} (h : qokB r = true) : QOk r := by
  cases r with
  | nil => exact .nil
  | cons c b =>
    simp only [qokB, Bool.and_eq_true] at h
    obtain ⟨⟨⟨h1, h2⟩, h3⟩, h4⟩ := h
    refine ⟨?_, ?_, ?_, ?_⟩ <;> intro b' e <;> (simp only [List.cons.injEq] at e; obtain ⟨rfl, rfl⟩ := e)
    · simpa using h1
    · simpa using h2
    · intro ha; simpa [ha] using h3
    · intro q hq; simpa [hq] using h4

/-- The version of a `%YAML` directive. -/
def yamlB (r : Bytes) : Bool :=
  !(b!"%YAML").isPrefixOf r ||
    (let p := (r.drop 5).dropWhile isBlank
     !((b!"1.1").isPrefixOf p || (b!"1.2").isPrefixOf p) || qokB (p.drop 3))

/-- The `!` of a `%TAG` directive. -/
def tagDirB (r : Bytes) : Bool :=
  !(b!"%TAG").isPrefixOf r ||
    (let p := (r.drop 4).dropWhile isBlank
     !(b!"!").isPrefixOf p || qokB (p.drop 1))

theorem dropWhile_blank {w r : Bytes} {c : UInt8} (hw : ∀ x ∈ w, isBlank x = true) (hc : isBlank c = false) :
    (w ++ c :: r).dropWhile isBlank = c :: r := by
  rw [dropWhile_all hw, List.dropWhile_cons, if_neg (by simp [hc])]

theorem yaml_of {w v post : Bytes} (h : yamlB (b!"%YAML" ++ w ++ v ++ post) = true) (hw : ∀ c ∈ w, isBlank c = true)
    (hv : v = b!"1.1" ∨ v = b!"1.2") : QOk post := by
  refine qok_of ?_
  have e : (b!"%YAML" ++ w ++ v ++ post).drop 5 = w ++ (v ++ post) := by simp
  have e1 : (b!"%YAML").isPrefixOf (b!"%YAML" ++ w ++ v ++ post) = true := by
    rw [List.isPrefixOf_iff_prefix]; exact ⟨w ++ v ++ post, by simp⟩
  have e2 : (w ++ (v ++ post)).dropWhile isBlank = v ++ post := by
    rcases hv with rfl | rfl <;> exact dropWhile_blank hw (by decide)
  have e3 : ((b!"1.1").isPrefixOf (v ++ post) || (b!"1.2").isPrefixOf (v ++ post)) = true := by
    rcases hv with rfl | rfl <;> simp [List.isPrefixOf]
  have e4 : (v ++ post).drop 3 = post := by rcases hv with rfl | rfl <;> rfl
  unfold yamlB at h
  simp only [e1, e, e2, e3, e4] at h
  simpa using h

theorem tagDir_of {w post : Bytes} (h : tagDirB (b!"%TAG" ++ w ++ b!"!" ++ post) = true) (hw : ∀ c ∈ w, isBlank c = true) :
    QOk post := by
  refine qok_of ?_
  have e : (b!"%TAG" ++ w ++ b!"!" ++ post).drop 4 = w ++ (b!"!" ++ post) := by simp
  have e1 : (b!"%TAG").isPrefixOf (b!"%TAG" ++ w ++ b!"!" ++ post) = true := by
    rw [List.isPrefixOf_iff_prefix]; exact ⟨w ++ b!"!" ++ post, by simp⟩
  have e2 : (w ++ (b!"!" ++ post)).dropWhile isBlank = b!"!" ++ post := dropWhile_blank hw (by decide)
  have e3 : (b!"!").isPrefixOf (b!"!" ++ post) = true := by simp [List.isPrefixOf]
  have e4 : (b!"!" ++ post).drop 1 = post := rfl
  unfold tagDirB at h
  simp only [e1, e, e2, e3, e4] at h
  simpa using h

/-- Decidable form of `QuotesClosed`, at every position. -/
def quotesClosedB : Bytes → Bool
  | [] => true
  | c :: r => (!opener c || qokB r) && yamlB (c :: r) && tagDirB (c :: r) && quotesClosedB r

theorem quotesClosedB_tail {pre r : Bytes} (h : quotesClosedB (pre ++ r) = true) : quotesClosedB r = true := by
  induction pre with
  | nil => exact h
  | cons c pre ih =>
    simp only [List.cons_append, quotesClosedB, Bool.and_eq_true] at h
    exact ih h.2

theorem quotesClosed_of {doc : Bytes} (h0 : qokB doc = true) (h : quotesClosedB doc = true) : QuotesClosed doc := by
  refine ⟨qok_of h0, ?_, ?_, ?_⟩
  · rintro pre c post rfl hc
    have := quotesClosedB_tail h
    simp only [quotesClosedB, Bool.and_eq_true, hc] at this
    exact qok_of (by simpa using this.1.1.1)
  · rintro pre w v post rfl hw hv
    have := quotesClosedB_tail h
    refine yaml_of (w := w) (v := v) ?_ hw hv
    generalize b!"%YAML" ++ w ++ v ++ post = x at this ⊢
    cases x with
    | nil => decide
    | cons c r => simp only [quotesClosedB, Bool.and_eq_true] at this; exact this.1.1.2
  · rintro pre w post rfl hw
    have := quotesClosedB_tail h
    refine tagDir_of (w := w) ?_ hw
    generalize b!"%TAG" ++ w ++ b!"!" ++ post = x at this ⊢
    cases x with
    | nil => decide
    | cons c r => simp only [quotesClosedB, Bool.and_eq_true] at this; exact this.1.2

/-- Decidable form of `MarkersBare`. -/
def bareLineB (post : Bytes) : Bool :=
  match post.dropWhile (· == 0x20) with
  | [] => false
  | c :: r => c == 0x0A || c == 0x0D || (c == 0x23 && !(r.dropWhile fun x => x != 0x0A && x != 0x0D).isEmpty)

theorem bareLine_of {post : Bytes} (h : bareLineB post = true) : BareLine post := by
  have e := List.takeWhile_append_dropWhile (p := (· == (0x20 : UInt8))) (l := post)
  have hs : ∀ c ∈ post.takeWhile (· == (0x20 : UInt8)), c = 0x20 := fun c hc => by simpa using mem_takeWhile hc
  unfold bareLineB at h
  generalize post.takeWhile (· == (0x20 : UInt8)) = sp at e hs
  generalize post.dropWhile (· == (0x20 : UInt8)) = r at e h
  cases r with
  | nil => simp at h
  | cons c r =>
    simp only [Bool.or_eq_true, Bool.and_eq_true, beq_iff_eq] at h
    rcases h with h | ⟨rfl, h⟩
    · exact ⟨sp, [], c, r, e.symm, hs, .inl rfl, h⟩
    · have e2 := List.takeWhile_append_dropWhile (p := fun x : UInt8 => x != 0x0A && x != 0x0D) (l := r)
      have h3 : ∀ c ∈ r.takeWhile (fun x : UInt8 => x != 0x0A && x != 0x0D), c ≠ 0x0A ∧ c ≠ 0x0D :=
        fun c hc => by simpa using mem_takeWhile hc
      have h4 := List.head?_dropWhile_not (fun x : UInt8 => x != 0x0A && x != 0x0D) r
      generalize r.takeWhile _ = t at e2 h3
      generalize r.dropWhile _ = u at e2 h h4
      cases u with
      | nil => simp at h
      | cons x u =>
        refine ⟨sp, 0x23 :: t, x, u, by rw [← e, ← e2]; simp, hs, .inr ⟨t, rfl, h3⟩, ?_⟩
        simp at h4
        by_cases hx : x = 0x0A
        · exact .inl hx
        · exact .inr (h4 hx)

def markersBareB : Bytes → Bool
  | [] => true
  | c :: r => (!(b!"---").isPrefixOf r || bareLineB (r.drop 3)) && markersBareB r

theorem markersBare_of {doc : Bytes} (h : markersBareB doc = true) : MarkersBare doc := by
  intro pre
  induction pre generalizing doc with
  | nil => intro post _ h; exact absurd rfl h
  | cons c pre ih =>
    rintro post rfl _
    simp only [List.cons_append, markersBareB, Bool.and_eq_true] at h
    cases pre with
    | nil => exact bareLine_of (by simpa using h.1)
    | cons d pre => exact ih h.2 post rfl (by simp)

theorem tameDoc_closed : QuotesClosed tameDoc := quotesClosed_of (by decide +kernel) (by decide +kernel)

/-- `tameDoc` meets the hypotheses of `C01_returns_partial`. -/
example : QuotesClosed tameDoc ∧ MarkersBare tameDoc := ⟨tameDoc_closed, markersBare_of (by decide +kernel)⟩

end YamlPeg.Props
