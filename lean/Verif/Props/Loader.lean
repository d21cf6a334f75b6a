import Verif.Proof.LoaderTop
import Verif.Proof.PropText
/-!
# Properties of `parse` that hold for every document

C02 (panics), C08 (errors), C09 (positions), C10 (no alias left), C11 (anchor
tables), C13/C14 (anchors and aliases).

Fuel: `parse h n doc` is the outcome of the Rust call as far as it is reached
within `n` rounds; the theorems hold for every `n`, hence for the outcome of the
Rust call whenever it returns.
-/

namespace YamlPeg.Props
open YamlPeg M

/-! ## What every parse satisfies -/

theorem parse_top (h : HashCfg) (n : Nat) (doc : Bytes) :
    TopGood ⟨doc, false, h⟩ 1 (loaderParse n (Loader.new h doc)) :=
  loaderParse_top ⟨doc, false, h⟩ n

theorem parseCyclic_top (h : HashCfg) (n : Nat) (doc : Bytes) :
    TopGood ⟨doc, true, h⟩ 1 (loaderParse n { Loader.new h doc with cyclicMode := true }) :=
  loaderParse_top ⟨doc, true, h⟩ n

theorem parse_run {h : HashCfg} {n : Nat} {doc : Bytes} {o : Out (List Node)}
    (hp : parse h n doc = o) : ∃ l, loaderParse n (Loader.new h doc) = (o, l) ∧
      TopGood ⟨doc, false, h⟩ 1 (o, l) := by
  have ht := parse_top h n doc
  rcases hx : loaderParse n (Loader.new h doc) with ⟨r, l⟩
  rw [hx] at ht
  have : r = o := by rw [← hp, parse, hx]
  subst this
  exact ⟨l, rfl, ht⟩

theorem parseCyclic_run {h : HashCfg} {n : Nat} {doc : Bytes} {o : Out (List Node × List Anchors)}
    (hp : parseCyclic h n doc = o) : ∃ r l,
      loaderParse n { Loader.new h doc with cyclicMode := true } = (r, l) ∧
      o = r.map (fun root => (root, l.anchors)) ∧ TopGood ⟨doc, true, h⟩ 1 (r, l) := by
  have ht := parseCyclic_top h n doc
  rcases hx : loaderParse n { Loader.new h doc with cyclicMode := true } with ⟨r, l⟩
  rw [hx] at ht
  refine ⟨r, l, rfl, ?_, ht⟩
  rw [← hp, parseCyclic, hx]

/-! ## C02 -/

/-- The digits behind `0o`: decimal digits and `b` to `h` (not `a`), in either case. -/
def octalDigits : Bytes := b!"0123456789bcdefghBCDEFGH"

/-- The digits behind `0x`: decimal digits and `b` to `p` (not `a`), in either case. -/
def hexDigits : Bytes := b!"0123456789bcdefghijklmnopBCDEFGHIJKLMNOP"

/-- The texts of integers: decimal digits, perhaps behind a minus sign; octal and hexadecimal numbers. -/
def IntForm (t : Bytes) : Prop :=
  (∃ sg d, (sg = [] ∨ sg = b!"-") ∧ d ≠ [] ∧ (∀ x ∈ d, x ∈ b!"0123456789") ∧ t = sg ++ d) ∨
  (∃ d, d ≠ [] ∧ (∀ x ∈ d, x ∈ octalDigits) ∧ t = b!"0o" ++ d) ∨
  (∃ d, d ≠ [] ∧ (∀ x ∈ d, x ∈ hexDigits) ∧ t = b!"0x" ++ d)

theorem isDigit_mem (c : UInt8) : isDigit c = true ↔ c ∈ b!"0123456789" := by
  have := byte_forall (P := fun c => decide (isDigit c = true ↔ c ∈ b!"0123456789")) (by decide +kernel) c
  simpa only [decide_eq_true_eq] using this

theorem octalDigit_mem (c : UInt8) : asciiDigit 8 c = true ↔ c ∈ octalDigits := by
  have := byte_forall (P := fun c => decide (asciiDigit 8 c = true ↔ c ∈ octalDigits)) (by decide +kernel) c
  simpa only [decide_eq_true_eq] using this

theorem hexDigit_mem (c : UInt8) : asciiDigit 16 c = true ↔ c ∈ hexDigits := by
  have := byte_forall (P := fun c => decide (asciiDigit 16 c = true ↔ c ∈ hexDigits)) (by decide +kernel) c
  simpa only [decide_eq_true_eq] using this

theorem intText_iff (t : Bytes) : IntText t ↔ IntForm t := by
  simp only [IntText, IntForm, IsSign, IsDigits, isDigit_mem, octalDigit_mem, hexDigit_mem, and_assoc]

/-- The texts of floats: `NaN`, `inf`, `-inf`; decimal digits, perhaps behind a minus sign, then perhaps a point and digits, or an exponent. -/
def FloatForm (t : Bytes) : Prop :=
  t = b!"NaN" ∨ t = b!"inf" ∨ t = b!"-inf" ∨
  ∃ sg d u, (sg = [] ∨ sg = b!"-") ∧ d ≠ [] ∧ (∀ x ∈ d, x ∈ b!"0123456789") ∧ t = sg ++ d ++ u ∧
    (u = [] ∨ (∃ f, (∀ x ∈ f, x ∈ b!"0123456789") ∧ u = b!"." ++ f) ∨
     ∃ e es x, (e = b!"e" ∨ e = b!"E") ∧ (es = [] ∨ es = b!"+" ∨ es = b!"-") ∧ x ≠ [] ∧ (∀ c ∈ x, c ∈ b!"0123456789") ∧ u = e ++ es ++ x)

theorem floatText_form {t : Bytes} (h : FloatText t) : FloatForm t := by
  rcases h with h | h | h | ⟨sg, d, hs, hd, rfl⟩ | ⟨sg, d, f, hs, hd, hf, rfl⟩ | ⟨sg, d, e, es, x, hs, hd, he, hes, hx, rfl⟩
  · exact .inl h
  · exact .inr (.inl h)
  · exact .inr (.inr (.inl h))
  · exact .inr (.inr (.inr ⟨sg, d, [], hs, hd.1, fun x h => (isDigit_mem x).1 (hd.2 x h), by simp, .inl rfl⟩))
  · exact .inr (.inr (.inr ⟨sg, d, 0x2E :: f, hs, hd.1, fun x h => (isDigit_mem x).1 (hd.2 x h), rfl,
      .inr (.inl ⟨f, fun x h => (isDigit_mem x).1 (hf x h), rfl⟩)⟩))
  · exact .inr (.inr (.inr ⟨sg, d, e :: (es ++ x), hs, hd.1, fun x h => (isDigit_mem x).1 (hd.2 x h), rfl,
      .inr (.inr ⟨[e], es, x, he.imp (by rintro rfl; rfl) (by rintro rfl; rfl), hes, hx.1, fun c h => (isDigit_mem c).1 (hx.2 c h), by simp⟩)⟩))

/-- A text that reads as an integer for the parser, occurs in the document, and
whose value `to_i64` cannot represent. -/
def UnreadableIntIn (doc : Bytes) : Prop := ∃ s, s <:+: doc ∧ IntForm s ∧ toI64 s = none

/-- C02, partial: of all the panics of the model (slices, indices, underflow,
unwraps, `unreachable!`) only two can happen: the lookup of an unknown tag
handle, in a document containing `!`, and the `unwrap` in the comparison of
integer map keys, in a document containing an unreadable integer. -/
theorem C02_panic_causes_partial (h : HashCfg) (n : Nat) (doc : Bytes) (p : Panic)
    (hp : parse h n doc = .panic p) :
    (p = .tagHandle ∧ 0x21 ∈ doc) ∨ (p = .intUnwrap ∧ UnreadableIntIn doc) := by
  obtain ⟨l, -, ht⟩ := parse_run hp
  refine Or.imp id (And.imp id fun ⟨s, h1, h2, h3⟩ => ⟨s, h1, (intText_iff s).1 h2, h3⟩) ht

theorem C02_panic_causes_cyclic_partial (h : HashCfg) (n : Nat) (doc : Bytes) (p : Panic)
    (hp : parseCyclic h n doc = .panic p) :
    (p = .tagHandle ∧ 0x21 ∈ doc) ∨ (p = .intUnwrap ∧ UnreadableIntIn doc) := by
  obtain ⟨r, l, -, ho, ht⟩ := parseCyclic_run hp
  cases r with
  | panic q =>
    simp only [Out.map, Out.panic.injEq] at ho
    subst ho; exact Or.imp id (And.imp id fun ⟨s, h1, h2, h3⟩ => ⟨s, h1, (intText_iff s).1 h2, h3⟩) ht
  | _ => simp [Out.map] at ho

/-- C02, partial: a document without `!` whose integers all fit never panics. -/
theorem C02_no_panic_partial (h : HashCfg) (n : Nat) (doc : Bytes) (h1 : 0x21 ∉ doc)
    (h2 : ∀ s, s <:+: doc → IntForm s → (toI64 s).isSome) (p : Panic) :
    parse h n doc ≠ .panic p ∧ parseCyclic h n doc ≠ .panic p := by
  have bad : ¬ UnreadableIntIn doc := by
    rintro ⟨s, a, b, e⟩
    have := h2 s a b
    simp [e] at this
  constructor
  · intro hp
    rcases C02_panic_causes_partial h n doc p hp with ⟨-, h⟩ | ⟨-, h⟩
    · exact h1 h
    · exact bad h
  · intro hp
    rcases C02_panic_causes_cyclic_partial h n doc p hp with ⟨-, h⟩ | ⟨-, h⟩
    · exact h1 h
    · exact bad h

/-- In particular, a document without `!` and without decimal digits never panics. -/
theorem C02_no_panic_text_partial (h : HashCfg) (n : Nat) (doc : Bytes) (h1 : 0x21 ∉ doc)
    (h2 : ∀ x ∈ doc, isDigit x = false) (p : Panic) :
    parse h n doc ≠ .panic p ∧ parseCyclic h n doc ≠ .panic p := by
  refine C02_no_panic_partial h n doc h1 (fun s hs ht => ?_) p
  exfalso
  have hmem : ∀ x ∈ s, isDigit x = false := fun x hx => h2 x (hs.subset hx)
  rcases ht with ⟨sg, d, -, hne, hd, rfl⟩ | ⟨d, -, -, rfl⟩ | ⟨d, -, -, rfl⟩
  · cases d with
    | nil => exact hne rfl
    | cons x xs =>
      have a := (isDigit_mem x).2 (hd x (by simp))
      have b := hmem x (by simp)
      rw [a] at b; simp at b
  · have := hmem 0x30 (by simp); simp [isDigit] at this
  · have := hmem 0x30 (by simp); simp [isDigit] at this

example : 0x21 ∉ (b!"key: [value, {a: b}]\n- x") ∧
    ∀ x ∈ (b!"key: [value, {a: b}]\n- x"), isDigit x = false := by decide

/-! ## C08 -/

/-- C08: the message of every `Terminate` error is the `indicated_msg` of the
document at a position not past its end. -/
theorem C08_errors_point_into_document (h : HashCfg) (n : Nat) (doc : Bytes) (name : String)
    (msg : Bytes) (hp : parse h n doc = .err (.terminate name msg)) :
    ∃ p, p ≤ doc.length ∧ indicatedMsg doc p = some msg := by
  obtain ⟨l, -, ht⟩ := parse_run hp
  exact ht

theorem C08_errors_point_into_document_cyclic (h : HashCfg) (n : Nat) (doc : Bytes) (name : String)
    (msg : Bytes) (hp : parseCyclic h n doc = .err (.terminate name msg)) :
    ∃ p, p ≤ doc.length ∧ indicatedMsg doc p = some msg := by
  obtain ⟨r, l, -, ho, ht⟩ := parseCyclic_run hp
  cases r with
  | err e =>
    simp only [Out.map, Out.err.injEq] at ho
    subst ho; exact ht
  | _ => simp [Out.map] at ho

/-- C08: building a message never panics. -/
theorem C08_no_message_panic (h : HashCfg) (n : Nat) (doc : Bytes) :
    parse h n doc ≠ .panic .unreachable ∧ parseCyclic h n doc ≠ .panic .unreachable := by
  constructor
  · intro hp
    rcases C02_panic_causes_partial h n doc _ hp with ⟨h, -⟩ | ⟨h, -⟩ <;> simp at h
  · intro hp
    rcases C02_panic_causes_cyclic_partial h n doc _ hp with ⟨h, -⟩ | ⟨h, -⟩ <;> simp at h

/-- The hypothesis is met: this document fails with such an error. -/
example : (match parse .exact 6 b!"a: *b\n" with
    | .err (.terminate _ m) => m == (indicatedMsg b!"a: *b\n" 5).getD []
    | _ => false) = true := by decide +kernel

/-! ## C09, C10, C11 -/

/-- C09: every node anywhere in the result has a position not past the end. -/
theorem C09_positions_inside (h : HashCfg) (n : Nat) (doc : Bytes) (roots : List Node)
    (hp : parse h n doc = .ok roots) :
    ∀ root ∈ roots, ∀ m, Occurs m root → m.pos ≤ doc.length := by
  obtain ⟨l, -, -, -, -, ht⟩ := parse_run hp
  exact fun root hr m hm => (ht root hr m hm).1

theorem C09_positions_inside_cyclic (h : HashCfg) (n : Nat) (doc : Bytes) (roots : List Node)
    (anchors : List Anchors) (hp : parseCyclic h n doc = .ok (roots, anchors)) :
    (∀ root ∈ roots, ∀ m, Occurs m root → m.pos ≤ doc.length) ∧
    (∀ A ∈ anchors, ∀ name node, mapGet name A = some node →
      ∀ m, Occurs m node → m.pos ≤ doc.length) := by
  obtain ⟨r, l, -, ho, ht⟩ := parseCyclic_run hp
  cases r with
  | ok v =>
    simp only [Out.map, Out.ok.injEq, Prod.mk.injEq] at ho
    obtain ⟨rfl, rfl⟩ := ho
    obtain ⟨hl, -, -, hv⟩ := ht
    exact ⟨fun root hr m hm => (hv root hr m hm).1,
      fun A hA k node hk m hm => (hl.nodes A hA k node hk m hm).1⟩
  | _ => simp [Out.map] at ho

/-- C10: no alias anywhere in the result of `parse`. -/
theorem C10_no_alias (h : HashCfg) (n : Nat) (doc : Bytes) (roots : List Node)
    (hp : parse h n doc = .ok roots) :
    ∀ root ∈ roots, ∀ m, Occurs m root → ∀ a, m.yaml ≠ .alias a := by
  obtain ⟨l, -, -, -, -, ht⟩ := parse_run hp
  intro root hr m hm a ha
  have := (ht root hr m hm).2
  rw [ha] at this
  simp [LeafOk] at this

/-- The hypothesis is met by a document with an alias. -/
example : (parse .exact 8 b!"- &a x\n- *a\n").isOk = true := by decide +kernel

/-- C11: as many anchor tables as documents, and at least one document. -/
theorem C11_one_table_per_document (h : HashCfg) (n : Nat) (doc : Bytes) (roots : List Node)
    (anchors : List Anchors) (hp : parseCyclic h n doc = .ok (roots, anchors)) :
    anchors.length = roots.length ∧ roots ≠ [] := by
  obtain ⟨r, l, -, ho, ht⟩ := parseCyclic_run hp
  cases r with
  | ok v =>
    simp only [Out.map, Out.ok.injEq, Prod.mk.injEq] at ho
    obtain ⟨rfl, rfl⟩ := ho
    obtain ⟨hl, hi, h1, -⟩ := ht
    refine ⟨by rw [hl.anchors, hi], ?_⟩
    rintro rfl
    simp at h1
  | _ => simp [Out.map] at ho

/-- `parse` returns at least one document, too. -/
theorem C11_at_least_one_document (h : HashCfg) (n : Nat) (doc : Bytes) (roots : List Node)
    (hp : parse h n doc = .ok roots) : roots ≠ [] := by
  obtain ⟨l, -, -, -, h1, -⟩ := parse_run hp
  rintro rfl
  simp at h1

example : (parseCyclic .exact 8 b!"&a x\n---\n*a\n--- y\n").isOk = true := by decide +kernel

/-- **C09.** Integers of a parse result are texts of the form `IntForm` that stand in the document; floats are of the form
`FloatForm`, and can be read. -/
theorem C09_number_texts (h : HashCfg) (n : Nat) (doc : Bytes) (roots : List Node)
    (hp : parse h n doc = .ok roots) : ∀ root ∈ roots, ∀ m, Occurs m root →
      (∀ s, m.yaml = .int s → IntForm s ∧ s <:+: doc) ∧
      (∀ s, m.yaml = .float s → FloatForm s ∧ (toF64 s).isSome) := by
  obtain ⟨l, -, -, -, -, ht⟩ := parse_run hp
  intro root hr m hm
  have := (ht root hr m hm).2
  refine ⟨fun s hs => ?_, fun s hs => ?_⟩
  · rw [hs] at this; exact ⟨(intText_iff s).1 this.1, this.2⟩
  · rw [hs] at this; exact ⟨floatText_form this, FloatText.isSome this⟩

/-! ## C13, C14 -/

/-- In the state `l`, the current document binds `name` to `node`. -/
def Bound (l : Loader) (name : Bytes) (node : Node) : Prop :=
  ∃ A, l.anchors[l.docInd]? = some A ∧ mapGet name A = some node

/-- C13: parsing a node never changes or removes a binding of the current
document, nor anything of the other documents' tables. -/
theorem C13_bindings_kept (c : LCfg) (n level : Nat) (map flow : Bool) (l l' : Loader) (node : Node)
    (hl : LWF c l) (hr : scalar n level map flow l = (.ok node, l')) :
    (∀ name x, Bound l name x → Bound l' name x) ∧
    (∀ i, i ≠ l.docInd → l'.anchors[i]? = l.anchors[i]?) := by
  have h := scalar_lf (c := c) n level map flow l hl
  rw [hr] at h
  obtain ⟨-, h, -⟩ := h
  have h : LRel l l' := h
  refine ⟨?_, h.others⟩
  rintro name x ⟨A, hA, hx⟩
  obtain ⟨A', h1, h2⟩ := h.current A hA
  exact ⟨A', by rw [h.docInd]; exact h1, h2 name x hx⟩

/-- C13: the same when the attempt mismatches and the parser goes on. -/
theorem C13_bindings_kept_mismatch (c : LCfg) (n level : Nat) (map flow : Bool) (l l' : Loader)
    (hl : LWF c l) (hr : scalar n level map flow l = (.err .mismatch, l')) :
    (∀ name x, Bound l name x → Bound l' name x) ∧
    (∀ i, i ≠ l.docInd → l'.anchors[i]? = l.anchors[i]?) := by
  have h := scalar_lf (c := c) n level map flow l hl
  rw [hr] at h
  obtain ⟨-, h, -⟩ := h
  have h : LRel l l' := h
  refine ⟨?_, h.others⟩
  rintro name x ⟨A, hA, hx⟩
  obtain ⟨A', h1, h2⟩ := h.current A hA
  exact ⟨A', by rw [h.docInd]; exact h1, h2 name x hx⟩

/-- C13: finished documents keep their tables for the rest of the parse. -/
theorem C13_finished_tables_kept (c : LCfg) (n : Nat) (l l' : Loader) (node : Node) (hl : L0 c l)
    (hr : doc n l = (.ok node, l')) : ∀ i, i < l.docInd → l'.anchors[i]? = l.anchors[i]? := by
  have h := doc_l0 (n := n) hl
  rw [hr] at h
  exact h.2.1.done

/-- C13: a node that defines an anchor whose name is bound already makes the
parse fail with "duplicated anchor definition". -/
theorem C13_second_definition_fails (c : LCfg) (f : LM Yaml) (l l1 l2 : Loader) (name tag : Bytes)
    (y : Yaml) (x : Node)
    (hprops : nodeProps l = (.ok (name, tag), l1)) (hname : name ≠ [])
    (hf : f l1 = (.ok y, l2)) (hl2 : LWF c l2) (hb : Bound l2 name x) :
    ∃ msg l3, scalarNode f l = (.err (.terminate "duplicated anchor definition" msg), l3) := by
  obtain ⟨A, hA, hx⟩ := hb
  have hne : (!name.isEmpty) = true := by cases name <;> simp_all
  have hcur : curAnchors { l2 with parser := { l2.parser with eaten := l2.parser.pos } } =
      (.ok A, { l2 with parser := { l2.parser with eaten := l2.parser.pos } }) := by
    simp only [curAnchors, hA]
  have hfw : lift forward l2 = (.ok (), { l2 with parser := { l2.parser with eaten := l2.parser.pos } }) :=
    rfl
  have hind : (indicatedMsg l2.parser.doc l2.parser.indicator).isSome := by
    rw [indicatedMsg_isSome, Parser.indicator, hl2.parser.consumed trivial]
    have h1 : l2.parser.pos ≤ c.doc.length := hl2.parser.pos
    have h2 : l2.parser.doc = c.doc := hl2.parser.doc
    rw [h2]; omega
  obtain ⟨msg, hmsg⟩ := Option.isSome_iff_exists.1 hind
  refine ⟨msg, ?_⟩
  rw [scalarNode, bind_ok hprops]
  show ∃ l3, (M.get >>= _) l1 = _
  rw [bind_ok (get_run _), bind_ok hf, bind_ok hfw]
  simp only [hne, if_true, anchorInsert]
  simp only [bind_run, hcur, modify_run, pure_run, hx, Option.isSome_some, if_true, lerr, lift, errAt,
    Parser.indicator]
  rw [show l2.parser.consumed + l2.parser.pos = l2.parser.indicator from rfl, hmsg]
  exact ⟨_, rfl⟩

/-- C14: in `parse`, an alias gives the data of the node the current document
binds to that name, and nothing else. -/
theorem C14_alias_value (l : Loader) (name : Bytes) (node : Node) (hc : l.cyclicMode = false)
    (hb : Bound l name node) : useAlias name l = (.ok node.yaml, l) := by
  obtain ⟨A, hA, hx⟩ := hb
  simp only [useAlias, bind_run, get_run, hc, Bool.false_eq_true, if_false, curAnchors, hA, hx, pure_run]

/-- C14: an alias whose name the current document does not bind is an error,
whatever the other documents bind. -/
theorem C14_unbound_alias_fails (c : LCfg) (l : Loader) (name : Bytes) (hl : LWF c l)
    (hc : c.cyc = false) (hb : ∀ node, ¬ Bound l name node) :
    ∃ p msg, p ≤ c.doc.length ∧ indicatedMsg c.doc p = some msg ∧
      useAlias name l = (.err (.terminate "anchor referenced before definition" msg), l) := by
  obtain ⟨A, h1, h2, h3⟩ := curAnchors_run hl
  have hnone : mapGet name A = none := by
    cases hg : mapGet name A with
    | none => rfl
    | some node => exact absurd ⟨A, h1, hg⟩ (hb node)
  have h4 : l.parser.pos ≤ c.doc.length := hl.parser.pos
  have h5 : l.parser.doc = c.doc := hl.parser.doc
  have hcon := hl.parser.consumed trivial
  have hind : (indicatedMsg c.doc l.parser.indicator).isSome := by
    rw [indicatedMsg_isSome, Parser.indicator, hcon]; omega
  obtain ⟨msg, hmsg⟩ := Option.isSome_iff_exists.1 hind
  refine ⟨l.parser.indicator, msg, ?_, hmsg, ?_⟩
  · rw [Parser.indicator, hcon]; omega
  · have hcy : l.cyclicMode = false := hl.cyc.trans hc
    simp only [useAlias, bind_run, get_run, hcy, Bool.false_eq_true, if_false, h3, hnone, lerr, lift,
      errAt, h5, hmsg]
    cases l; cases hcy; rfl

/-- C14: in cyclic mode an alias stays an alias. -/
theorem C14_alias_cyclic (l : Loader) (name : Bytes) (hc : l.cyclicMode = true) :
    useAlias name l = (.ok (.alias name), l) := by
  simp only [useAlias, bind_run, get_run, hc, if_true, pure_run]

end YamlPeg.Props
