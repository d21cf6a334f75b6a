import Verif.Proof.SerdeNode
import Verif.Props.Nodes
/-!
# Properties of the serde back end: C42–C47, C53, C54

`f.Exact` is the contract of Rust's `Display for f64` (the text reads back as the
same number); `FloatFmt.exact_exists` shows it can be met.
-/

namespace YamlPeg.Props
open YamlPeg

section
variable {h : HashCfg} {f : FloatFmt}

/-! ## C42: values through nodes -/

/-- **C42**. A value of a type comes back from `to_node` unchanged, *exactly if*
its integers fit into `i64`, its characters are ASCII, no `Some` wraps a value
written as `null`, and no `f32` is rounded away on the way back (`Val.survives`; see C69). -/
theorem C42_round_trip_iff (hf : f.Exact) {t : Ty} (ht : t.wf) {v : Val} (hv : HasTy t v) :
    (∃ n, ser h f v = .ok n ∧ de h f t n = .ok v) ↔ v.survives f := by
  constructor
  · rintro ⟨n, h1, h2⟩
    exact conv t ht v n hv h1 h2
  · intro hs
    obtain ⟨n, hn⟩ := rt (h := h) hf t ht v hv hs
    exact ⟨n, hn.ser, hn.de⟩

/-- A list of values is read back from the list of their nodes. -/
theorem C42_documents (hf : f.Exact) {t : Ty} (ht : t.wf) : ∀ vs : List Val,
    (∀ v ∈ vs, HasTy t v ∧ v.survives f) →
    ∃ ns, ns.length = vs.length ∧ (∀ (i : Nat) v n, vs[i]? = some v → ns[i]? = some n → ser h f v = .ok n) ∧
      deDocs h f t ns = .ok vs
  | [], _ => ⟨[], rfl, by simp, rfl⟩
  | v :: r, hv => by
    obtain ⟨n, hn⟩ := rt (h := h) hf t ht v (hv v (by simp)).1 (hv v (by simp)).2
    obtain ⟨ns, h1, h2, h3⟩ := C42_documents hf ht r (fun x hx => hv x (by simp [hx]))
    refine ⟨n :: ns, by simp [h1], ?_, ?_⟩
    · intro i x m hx hm
      cases i with
      | zero => simp at hx hm; subst hx hm; exact hn.ser
      | succ i => exact h2 i x m (by simpa using hx) (by simpa using hm)
    · simp only [deDocs, hn.de, h3]; rfl

/-- A sample type: `struct { id: u16, tags: Vec<String>, shape: enum { Dot, Box(i8, Option<char>) }, at: (f64, ()) }`. -/
def sampleTy : Ty := .struct
  [(b!"id", .int .u16), (b!"tags", .seq .str),
   (b!"shape", .enum [(b!"Dot", .unit), (b!"Box", .tuple [.int .i8, .option .char])]),
   (b!"at", .tuple [.f64, .unit])]

/-- A sample value of it. -/
def sampleVal : Val := .struct
  [(b!"id", .int .u16 65535), (b!"tags", .seq [.str b!"a", .str []]),
   (b!"shape", .variant b!"Box" (.tuple [.int .i8 (-128), .some (.char 'x')])),
   (b!"at", .tuple [.f64 .nan, .unit])]

example : sampleTy.wf := by
  simp only [sampleTy, Ty.wf, fieldsWf, fieldWf, variantsWf, variantWf, payloadWf, tysWf]
  decide
example : HasTy sampleTy sampleVal := by
  simp only [sampleTy, sampleVal, HasTy, HasFields, HasField, HasVariant, HasVariant1, HasPayload, HasTys]
  simp [HasTy, F64.Canonical]
  decide
example : sampleVal.survives f := by
  simp only [sampleVal, Val.survives, survivesFields, survivesField, survivesAll, VVal.survives, Val.nullish]
  simp

/-- C42 fails for characters outside ASCII: deserializing fails. -/
theorem C42_counterexample_char :
    ∃ n, ser h f (.char 'é') = .ok n ∧ de h f .char n = .err .invalidType 0 := by
  refine ⟨strNode [195, 169], ?_, rfl⟩
  have : String.utf8EncodeChar 'é' = [195, 169] := by decide +kernel
  simp only [ser, this]

/-- C42 fails for `u64` beyond `i64::MAX`: deserializing panics. -/
theorem C42_counterexample_u64 :
    ∃ n, ser h f (.int .u64 9223372036854775808) = .ok n ∧ de h f (.int .u64) n = .panic .intUnwrap := by
  refine ⟨.ofYaml (.int (intDec 9223372036854775808)), rfl, ?_⟩
  have : inI64 9223372036854775808 = false := by decide
  simp [de, deInt, Node.ofYaml, Node.yaml, toI64_intDec, this]

/-- C42 fails for `Some(())`: it becomes `None`. -/
theorem C42_counterexample_some_unit :
    ∃ n, ser h f (.some .unit) = .ok n ∧ de h f (.option .unit) n = .ok .none :=
  ⟨_, rfl, rfl⟩

/-- Tuples are not checked for their length from above: what is left over is ignored. -/
theorem C42_tuple_ignores_rest {ts : List Ty} {l r : List Node} {p : Nat} {tag : Bytes} {v : Val}
    (hv : de h f (.tuple ts) (.mk p tag (.seq l)) = .ok v) :
    de h f (.tuple ts) (.mk p tag (.seq (l ++ r))) = .ok v := by
  have : ∀ (gs : List (Node → SRes Val)) (l r : List Node) vs, deTuple gs l = .ok vs → deTuple gs (l ++ r) = .ok vs := by
    intro gs
    induction gs with
    | nil => intro l r vs hh; cases hh; rfl
    | cons g gs ih =>
      intro l r vs hh
      cases l with
      | nil => cases hh
      | cons n l =>
        simp only [deTuple, List.cons_append] at hh ⊢
        obtain ⟨x, e1, hh⟩ := SRes.bind_eq_ok hh
        obtain ⟨xs, e2, hh⟩ := SRes.bind_eq_ok hh
        rw [e1, SRes.bind_ok, ih l r xs e2, SRes.bind_ok]
        exact hh
  simp only [de, Node.yaml] at hv ⊢
  obtain ⟨vs, e1, hv⟩ := SRes.bind_eq_ok hv
  rw [this _ _ r _ e1]
  exact hv

/-- A struct may also be written as a sequence: the fields take the elements in the
order of their declaration, and what is left over is ignored. -/
theorem C42_struct_from_sequence {p : Nat} {tag : Bytes} {r : List Node} : ∀ {fs : List (Bytes × Ty)} {l : List Node} {vs : List Val},
    fs.length = l.length → (fs.zip l).map (fun e => de h f e.1.2 e.2) = vs.map SRes.ok →
    de h f (.struct fs) (.mk p tag (.seq (l ++ r))) = .ok (.struct ((fs.map Prod.fst).zip vs)) := by
  have key : ∀ (fs : List (Bytes × Ty)) (l : List Node) (vs : List Val), fs.length = l.length →
      (fs.zip l).map (fun e => de h f e.1.2 e.2) = vs.map SRes.ok →
      deTuple ((deFields h f fs).map (·.read)) (l ++ r) = .ok vs ∧ (deFields h f fs).map (·.name) = fs.map Prod.fst := by
    intro fs
    induction fs with
    | nil =>
      intro l vs hl hh
      cases l with
      | nil => cases vs with
        | nil => exact ⟨by simp [deFields, deTuple], by simp [deFields]⟩
        | cons => simp at hh
      | cons => simp at hl
    | cons e fs ih =>
      intro l vs hl hh
      cases l with
      | nil => simp at hl
      | cons n l =>
        cases vs with
        | nil => simp at hh
        | cons v vs =>
          simp only [List.zip_cons_cons, List.map_cons, List.cons.injEq] at hh
          obtain ⟨h1, h2⟩ := ih l vs (by simpa using hl) hh.2
          obtain ⟨name, t⟩ := e
          simp only [deFields, deField, List.map_cons, List.cons_append, deTuple, hh.1, SRes.bind_ok, h1, h2]
          exact ⟨rfl, trivial⟩
  intro fs l vs hl hh
  obtain ⟨h1, h2⟩ := key fs l vs hl hh
  simp only [de, Node.yaml, deStructSeq, h1, SRes.bind_ok, h2]
  rfl

example : de h f (.struct [(b!"x", .bool), (b!"y", .str)]) (.mk 0 [] (.seq [.mk 1 [] (.bool true), .mk 7 [] (.str b!"s")])) =
    .ok (.struct [(b!"x", .bool true), (b!"y", .str b!"s")]) :=
  C42_struct_from_sequence (r := []) (l := [.mk 1 [] (.bool true), .mk 7 [] (.str b!"s")]) (vs := [.bool true, .str b!"s"]) rfl
    (by simp [de, Node.yaml])

/-! ## C43: integers -/

/-- **C43** (fitting). A node that holds the integer `i` gives exactly `i` in every
integer type that has `i`, whichever way the number is written. -/
theorem C43_fits_partial {s : Bytes} {i : Int} (hs : toI64 s = some i) (w : IntTy) (hw : w.holds i)
    (p : Nat) (tag : Bytes) : de h f (.int w) (.mk p tag (.int s)) = .ok (.int w i) := by
  simp only [de, deInt, Node.yaml, hs, cast_holds hw]

/-- What happens to an integer that does not fit: there is no error; the result is
the integer of the target type congruent to it modulo the type's size. -/
theorem C43_wraps {s : Bytes} {i : Int} (hs : toI64 s = some i) (w : IntTy) (p : Nat) (tag : Bytes) :
    ∃ j, de h f (.int w) (.mk p tag (.int s)) = .ok (.int w j) ∧ w.holds j ∧ (2 ^ w.bits : Int) ∣ i - j := by
  refine ⟨w.cast i, by simp only [de, deInt, Node.yaml, hs], ?_, ?_⟩
  · unfold IntTy.holds IntTy.cast
    by_cases hsg : w.signed
    · simp only [hsg, if_true]
      have h2 : (2 : Int) ^ w.bits = 2 * 2 ^ (w.bits - 1) := by cases w <;> rfl
      have hp : 0 < 2 ^ w.bits := Nat.two_pow_pos _
      have a := Int.le_bmod (x := i) hp
      have c := Int.bmod_lt (x := i) hp
      have hpc : ((2 ^ w.bits : Nat) : Int) = 2 * 2 ^ (w.bits - 1) := by push_cast; exact h2
      rw [hpc] at a c
      omega
    · simp only [hsg]
      have hp : (0 : Int) < 2 ^ w.bits := by cases w <;> decide
      exact ⟨Int.emod_nonneg _ (by omega), Int.emod_lt_of_pos _ hp⟩
  · unfold IntTy.cast
    by_cases hsg : w.signed
    · simp only [hsg, if_true]
      have := Int.bmod_add_bdiv i (2 ^ w.bits)
      push_cast at this
      exact ⟨i.bdiv (2 ^ w.bits), by omega⟩
    · simp only [hsg]
      have := Int.emod_add_mul_ediv i (2 ^ w.bits)
      have e : i.emod (2 ^ w.bits) = i % 2 ^ w.bits := rfl
      exact ⟨i / 2 ^ w.bits, by simp only [Bool.false_eq_true, if_false, e]; omega⟩

/-- C43 fails: 300 read as `u8` is 44, silently. -/
theorem C43_counterexample : de h f (.int .u8) (.ofYaml (.int b!"300")) = .ok (.int .u8 44) := by
  have : toI64 b!"300" = some 300 := by decide +kernel
  simp only [de, deInt, Node.yaml, Node.ofYaml, this]
  rfl

/-- C43 fails: a number outside `i64` panics, whatever the integer type (even a
type that has the number). -/
theorem C43_counterexample_panic {i : Int} (hi : ¬ (-(2 ^ 63) ≤ i ∧ i < 2 ^ 63)) (w : IntTy) :
    de h f (.int w) (.ofYaml (.int (intDec i))) = .panic .intUnwrap := by
  have : inI64 i = false := by
    cases e : inI64 i
    · rfl
    · exact absurd (inI64_iff.1 e) hi
  simp [de, deInt, Node.ofYaml, Node.yaml, toI64_intDec, this]

example : ∃ s i, toI64 s = some i ∧ IntTy.i16.holds i ∧ s ≠ intDec i := ⟨b!"0x7fff", 32767, by decide +kernel⟩

/-! ## C44: error positions -/

/-- **C44**. For every type (nested as deeply as you like) and every node with
readable numbers, deserializing does not panic; an `invalid type` error carries the
position of a node that was read where a node of another kind was wanted, with the
one exception of a variant whose payload is missing (position 0); an error for an
alias carries the alias's position; the other errors carry position 0. -/
theorem C44_positions (hf : f.Exact) (t : Ty) {n : Node} (hn : Readable n) :
    match de h f t n with
    | .ok _ => True
    | .panic _ => False
    | .err .invalidType p =>
      (∃ w m, Visits (.ty t) n w m ∧ Occurs m n ∧ ¬ w.accepts m.yaml ∧ p = m.pos) ∨
      (p = 0 ∧ ∃ vs m s q, Visits (.ty t) n (.ty (.enum vs)) m ∧ m.yaml = .str s ∧ (s, q) ∈ vs ∧ q ≠ .unit)
    | .err .anchor p => ∃ m a, Visits (.ty t) n (.ty .node) m ∧ Occurs m n ∧ m.yaml = .alias a ∧ p = m.pos
    | .err .parse _ => False
    | .err _ p => p = 0 := by
  have := de_blamed (h := h) hf t n hn
  cases e : de h f t n with
  | ok v => trivial
  | panic p => rw [e] at this; exact this
  | err k p =>
    rw [e] at this
    cases k with
    | invalidType =>
      rcases this with ⟨w, m, h1, h2, h3⟩ | h1
      · exact .inl ⟨w, m, h1, h1.occurs, h2, h3⟩
      · exact .inr h1
    | anchor =>
      obtain ⟨m, a, h1, h2, h3⟩ := this
      exact ⟨m, a, h1, h1.occurs, h2, h3⟩
    | _ => exact this

/-- A node of a kind the type does not accept is always rejected, and it is this
very node that is blamed. -/
theorem C44_top_mismatch (t : Ty) : ∀ {n : Node}, Readable n → ¬ t.accepts n.yaml → (∀ a, n.yaml ≠ .alias a) →
    de h f t n = .err .invalidType n.pos := by
  have key : ∀ n : Node, Readable n → ∀ {α : Type}, (unexpected n : SRes α) = .err .invalidType n.pos := by
    intro n hn α
    have := hn.here
    unfold unexpected
    unfold ReadableHere at this
    split <;> rename_i hy <;> simp_all
  induction t using Ty.rec (motive_2 := fun _ => True) (motive_3 := fun _ => True) (motive_4 := fun _ => True)
    (motive_5 := fun _ => True) (motive_6 := fun _ => True) (motive_7 := fun _ => True) with
  | bool => intro n hn ha _; simp only [de]; split <;> simp_all [Ty.accepts]
  | int w => intro n hn ha _; simp only [de, deInt]; split <;> simp_all [Ty.accepts]
  | f64 => intro n hn ha _; simp only [de]; split <;> simp_all [Ty.accepts]
  | f32 => intro n hn ha _; simp only [de]; split <;> simp_all [Ty.accepts]
  | char => intro n hn ha _; simp only [de]; split <;> simp_all [Ty.accepts]
  | str => intro n hn ha _; simp only [de]; split <;> simp_all [Ty.accepts]
  | bytes => intro n hn ha _; simp only [de]; split <;> simp_all [Ty.accepts]
  | unit => intro n hn ha _; simp only [de]; split <;> simp_all [Ty.accepts]
  | option t ih =>
    intro n hn ha hl
    simp only [Ty.accepts, not_or] at ha
    simp only [de]
    split
    · simp_all
    · rw [ih hn ha.2 hl]; rfl
  | seq t ih => intro n hn ha _; simp only [de]; split <;> simp_all [Ty.accepts]
  | tuple ts => intro n hn ha _; simp only [de]; split <;> simp_all [Ty.accepts]
  | map => intro n hn ha _; simp only [de]; split <;> simp_all [Ty.accepts]
  | newtype t ih => intro n hn ha hl; simp only [de]; rw [ih hn ha hl]; rfl
  | struct => intro n hn ha _; simp only [de]; split <;> simp_all [Ty.accepts]
  | enum => intro n hn ha _; simp only [de]; split <;> simp_all [Ty.accepts]
  | node => intro n hn ha hl; exact absurd hl ha
  | _ => trivial

example : de h f (.seq (.int .i32)) (.mk 3 [] (.seq [.mk 5 [] (.int b!"1"), .mk 9 [] (.str b!"x")])) =
    .err .invalidType 9 := by
  have : toI64 b!"1" = some 1 := by decide +kernel
  simp [de, Node.yaml, deSeq, deInt, this, unexpected, Node.pos]

/-- The exception: the error for a missing payload has no position. -/
theorem C44_counterexample_payload {name : Bytes} {t : Ty} (p : Nat) (tag : Bytes) :
    de h f (.enum [(name, .newtype t)]) (.mk p tag (.str name)) = .err .invalidType 0 := by
  simp only [de, Node.yaml, deEnum, deIdent, deVariants, deVariant, SRes.bind_ok]
  rw [List.find?_cons_of_pos (by simp)]
  rfl

/-- `from_str` succeeds exactly if the text parses and every document deserializes; the values
are those of the documents, in order. -/
theorem C44_from_str_ok {t : Ty} {doc : Bytes} {n : Nat} {vs : List Val} :
    fromStr h f n t doc = some (.ok vs) ↔ ∃ ns, parse h n doc = .ok ns ∧ ns.map (de h f t) = vs.map SRes.ok := by
  have key : ∀ (ns : List Node) (vs : List Val), deDocs h f t ns = .ok vs ↔ ns.map (de h f t) = vs.map SRes.ok := by
    intro ns
    induction ns with
    | nil => intro vs; cases vs <;> simp [deDocs]
    | cons x r ih =>
      intro vs
      simp only [deDocs]
      constructor
      · intro hh
        obtain ⟨a, e1, hh⟩ := SRes.bind_eq_ok hh
        obtain ⟨as, e2, hh⟩ := SRes.bind_eq_ok hh
        cases hh
        simp [e1, (ih as).1 e2]
      · intro hh
        cases vs with
        | nil => simp at hh
        | cons v vs =>
          simp only [List.map_cons, List.cons.injEq] at hh
          rw [hh.1, SRes.bind_ok, (ih vs).2 hh.2]; rfl
  rw [fromStr]
  cases parse h n doc <;> simp [key]

/-- An error of the parser is passed on as an error, not as an empty list of documents; `from_str`
panics only if parsing or deserializing does. -/
theorem C44_from_str_syntax_error {t : Ty} {doc : Bytes} {n : Nat} :
    fromStr h f n t doc = some (.err .parse 0) ↔ (∃ e, parse h n doc = .err e) ∨
      ∃ ns, parse h n doc = .ok ns ∧ deDocs h f t ns = .err .parse 0 := by
  rw [fromStr]
  cases parse h n doc <;> simp

/-! ## C45: nodes through serde -/

/-- **C45**. For every node whose numbers are readable and whose mappings have
different keys: with an alias inside, `to_node` fails with the alias error; without,
`to_node` and deserializing as `Node` both give a node equal to it. -/
theorem C45_nodes (hf : f.Exact) {n : Node} (hn : Readable n) (hk : KeysDistinct n) :
    (HasAlias n → ser h f (.node n) = .err .anchor 0 ∧ ∃ m a, Occurs m n ∧ m.yaml = .alias a ∧ de h f .node n = .err .anchor m.pos) ∧
    (¬ HasAlias n → ∃ n', ser h f (.node n) = .ok n' ∧ de h f .node n = .ok (.node n') ∧ Node.eq? n n' = .ok true ∧
      SameData n n') := by
  constructor
  · intro ha
    constructor
    · rcases serNode_outcome (h := h) hf n hn with ⟨_, h2⟩ | ⟨h1, _⟩
      · simpa only [ser] using h2
      · exact absurd ha h1
    · rcases deNode_outcome (h := h) hf n hn with ⟨m, a, h1, h2, h3⟩ | ⟨h1, _⟩
      · exact ⟨m, a, h1, h2, by simp only [de, h3]; rfl⟩
      · exact absurd ha h1
  · intro ha
    obtain ⟨n', h1, h2, h3, h4⟩ := node_rt (h := h) hf n hn ha hk
    refine ⟨n', by simpa only [ser] using h1, by simp only [de, h2]; rfl, ?_, ?_⟩
    · rw [eq?_ok n hn n' h4, h3]
    · exact same_of_eqb n n' hn h4 h3

/-- A sample node: `{a: [0x10, x], b: 1.5}` with positions and a tag. -/
def sampleNode : Node := .mk 2 b!"tag:x" (.map
  [(.mk 2 [] (.str b!"a"), .mk 5 [] (.seq [.mk 6 [] (.int b!"0x10"), .mk 11 [] (.str b!"x")])),
   (.mk 15 [] (.str b!"b"), .mk 18 [] (.float b!"1.5"))])

example : Readable sampleNode ∧ KeysDistinct sampleNode := by
  have e1 : (toI64 b!"0x10").isSome := by decide +kernel
  have e2 : (toF64 b!"1.5").isSome := by decide +kernel
  constructor
  · simp only [sampleNode]
    refine everywhere_mk.2 ⟨trivial, ?_⟩
    intro k v hkv
    simp only [List.mem_cons, List.not_mem_nil, or_false, Prod.mk.injEq] at hkv
    rcases hkv with ⟨rfl, rfl⟩ | ⟨rfl, rfl⟩
    · refine ⟨everywhere_mk.2 ⟨trivial, trivial⟩, everywhere_mk.2 ⟨trivial, ?_⟩⟩
      intro x hx
      simp only [List.mem_cons, List.not_mem_nil, or_false] at hx
      rcases hx with rfl | rfl
      · exact everywhere_mk.2 ⟨e1, trivial⟩
      · exact everywhere_mk.2 ⟨trivial, trivial⟩
    · exact ⟨everywhere_mk.2 ⟨trivial, trivial⟩, everywhere_mk.2 ⟨e2, trivial⟩⟩
  · simp only [sampleNode]
    refine everywhere_mk.2 ⟨?_, ?_⟩
    · intro es he
      cases he
      refine .cons ?_ (.cons (by simp) .nil)
      intro e he
      simp only [List.mem_cons, List.not_mem_nil, or_false] at he
      subst he
      decide
    intro k v hkv
    simp only [List.mem_cons, List.not_mem_nil, or_false, Prod.mk.injEq] at hkv
    rcases hkv with ⟨rfl, rfl⟩ | ⟨rfl, rfl⟩
    · refine ⟨everywhere_mk.2 ⟨?_, trivial⟩, everywhere_mk.2 ⟨?_, ?_⟩⟩
      · intro es he; cases he
      · intro es he; cases he
      intro x hx
      simp only [List.mem_cons, List.not_mem_nil, or_false] at hx
      rcases hx with rfl | rfl <;> refine everywhere_mk.2 ⟨?_, trivial⟩ <;> intro es he <;> cases he
    · constructor <;> refine everywhere_mk.2 ⟨?_, trivial⟩ <;> intro es he <;> cases he

/-- Nodes with unreadable numbers panic when serialized. -/
theorem C45_counterexample_panic : ser h f (.node (.ofYaml (.int b!"99999999999999999999"))) = .panic .intUnwrap := by
  have : toI64 b!"99999999999999999999" = none := by decide +kernel
  simp [ser, serNode, serYaml, Node.ofYaml, this]

/-! ## C46: `InlineList` -/

/-- **C46**. Every view of an `InlineList` agrees with its list of items. -/
theorem C46_list_view {T : Type} (x : InlineList T) :
    x.intoIter = x.iter ∧ x.len = x.iter.length ∧ (x.isEmpty = true ↔ x.iter = []) ∧
    (x.isSingle = true ↔ ∃ e, x.iter = [e]) ∧ (∀ e, x = .inline e → x.iter = [e]) ∧
    (∀ v, x = .list v → x.iter = v) ∧ (InlineList.default : InlineList T).iter = [] := by
  cases x with
  | list v =>
    simp [InlineList.iter, InlineList.intoIter, InlineList.len, InlineList.isEmpty, InlineList.isSingle,
      InlineList.default, List.length_eq_one_iff]
  | inline e =>
    simp [InlineList.iter, InlineList.intoIter, InlineList.len, InlineList.isEmpty, InlineList.isSingle,
      InlineList.default]

theorem allOk_iff {T : Type} {g : Node → Option T} : ∀ {l : List Node} {v : List T},
    allOk g l = some v ↔ l.map g = v.map some := by
  intro l
  induction l with
  | nil => intro v; cases v <;> simp [allOk]
  | cons n r ih =>
    intro v
    simp only [allOk]
    cases hg : g n with
    | none => cases v <;> simp [hg]
    | some x =>
      cases v with
      | nil => simp
      | cons y w => 
        simp only [Option.map_eq_some_iff, List.map_cons, hg, List.cons.injEq, Option.some.injEq]
        constructor
        · rintro ⟨u, h1, h2, h3⟩; subst h3; exact ⟨h2, ih.1 h1⟩
        · rintro ⟨h1, h2⟩; exact ⟨w, ih.2 h2, h1, rfl⟩

/-- Reading an `InlineList`: a sequence of items gives these items, a single item
gives the one item, whatever the item type's reader `g` is. -/
theorem C46_read {T : Type} (hf : f.Exact) (g : Node → Option T) {n : Node} (hn : Readable n) (ha : ¬ HasAlias n) :
    (∀ l v, n.yaml = .seq l → l.map g = v.map some → ∃ x, InlineList.de h f g n = .ok x ∧ x.iter = v) ∧
    (∀ e, (∀ l, n.yaml ≠ .seq l) → g n = some e → ∃ x, InlineList.de h f g n = .ok x ∧ x.iter = [e]) := by
  have hb : bufferNode h f n = .ok () := by
    rcases deNode_outcome (h := h) hf n hn with ⟨m, a, h1, h2, _⟩ | ⟨_, n', h2, _⟩
    · exact absurd ⟨m, a, h1, h2⟩ ha
    · simp only [bufferNode, h2]; rfl
  constructor
  · intro l v hl hg
    refine ⟨.list v, ?_, rfl⟩
    simp only [InlineList.de, hb, SRes.bind_ok, hl, allOk_iff.2 hg]
  · intro e hl hg
    refine ⟨.inline e, ?_, rfl⟩
    simp only [InlineList.de, hb, SRes.bind_ok, hg]

/-! ## C47: `Optional` -/

/-- The payload the callback gets: the given one, or the default one for `Bool(true)`. -/
inductive Enabled {T : Type} (d : T) : Optional T → T → Prop
  | default : Enabled d (.bool true) d
  | given {t} : Enabled d (.some t) t

/-- **C47**. `ok` and `ok_instead` call the callback once, with the payload, if the
value is enabled, and otherwise not at all; `ok_or` and `ok_or_instead` call exactly
one of the two callbacks, once, and return its result. Every value is either
`Bool(false)` or enabled with exactly one payload. -/
theorem C47_callbacks {T R σ : Type} (d : T) (x : Optional T) (c : T → σ → σ) (k : T → σ → R × σ) (g : σ → R × σ) (s : σ) :
    (x = .bool false → x.ok d c s = s ∧ x.okInstead c d s = s ∧ x.okOr d k g s = g s ∧ x.okOrInstead k d g s = g s) ∧
    (∀ t, Enabled d x t → x.ok d c s = c t s ∧ x.okInstead c d s = c t s ∧ x.okOr d k g s = k t s ∧
      x.okOrInstead k d g s = k t s) ∧
    (x ≠ .bool false → ∃ t, Enabled d x t ∧ ∀ t', Enabled d x t' → t' = t) ∧
    (x = .bool false → ∀ t, ¬ Enabled d x t) ∧ Enabled d (Optional.default : Optional T) d := by
  refine ⟨?_, ?_, ?_, ?_, .default⟩
  · rintro rfl; exact ⟨rfl, rfl, rfl, rfl⟩
  · rintro t (_ | _) <;> exact ⟨rfl, rfl, rfl, rfl⟩
  · intro hx
    match x with
    | .bool true => exact ⟨d, .default, fun t' h' => by cases h'; rfl⟩
    | .bool false => exact absurd rfl hx
    | .some t => exact ⟨t, .given, fun t' h' => by cases h'; rfl⟩
  · rintro rfl t ht; cases ht

/-- The calls made, seen through a log. -/
example : (Optional.some 3).okOr 7 (fun t l => (t, l ++ [t])) (fun l => (0, l)) [] = (3, [3]) := rfl

/-- Reading an `Optional`: a boolean is the switch; anything else is the payload. -/
theorem C47_read {T : Type} (hf : f.Exact) (g : Node → Option T) {n : Node} (hn : Readable n) (ha : ¬ HasAlias n) :
    (∀ v, n.yaml = .bool v → Optional.de h f g n = .ok (.bool v)) ∧
    (∀ e, (∀ v, n.yaml ≠ .bool v) → g n = some e → Optional.de h f g n = .ok (.some e)) := by
  have hb : bufferNode h f n = .ok () := by
    rcases deNode_outcome (h := h) hf n hn with ⟨m, a, h1, h2, _⟩ | ⟨_, n', h2, _⟩
    · exact absurd ⟨m, a, h1, h2⟩ ha
    · simp only [bufferNode, h2]; rfl
  constructor
  · intro v hv
    simp only [Optional.de, hb, SRes.bind_ok, hv]
  · intro e hv hg
    simp only [Optional.de, hb, SRes.bind_ok, hg]

/-! ## C53: `Stringify` -/

/-- **C53**. Reading a scalar as `Stringify` and printing it: strings are verbatim,
booleans are `true`/`false`, integers within `i32` are printed in decimal; null,
aliases and collections are rejected. -/
theorem C53_stringify (hf : f.Exact) (g : F64 → Bytes) {n : Node} (hn : Readable n) :
    (∀ s, n.yaml = .str s → ∃ x, Stringify.de h f n = .ok x ∧ x.toString g = s) ∧
    (∀ v, n.yaml = .bool v → ∃ x, Stringify.de h f n = .ok x ∧ x.toString g = if v then b!"true" else b!"false") ∧
    (∀ s i, n.yaml = .int s → toI64 s = some i → IntTy.i32.holds i →
      ∃ x, Stringify.de h f n = .ok x ∧ x.toString g = intDec i) ∧
    (∀ s x, n.yaml = .float s → toF64 s = some x → ∃ r, Stringify.de h f n = .ok r ∧ r.toString g = g x.toF32) ∧
    ((n.yaml = .null ∨ (∃ l, n.yaml = .seq l) ∨ (∃ m, n.yaml = .map m) ∨ ∃ a, n.yaml = .alias a) →
      ∃ e p, Stringify.de h f n = .err e p) := by
  have hb : HasAlias n ∨ bufferNode h f n = .ok () := by
    rcases deNode_outcome (h := h) hf n hn with ⟨m, a, h1, h2, _⟩ | ⟨_, n', h2, _⟩
    · exact .inl ⟨m, a, h1, h2⟩
    · right; simp only [bufferNode, h2]; rfl
  obtain ⟨p, tag, y⟩ := n
  refine ⟨?_, ?_, ?_, ?_, ?_⟩
  · rintro s rfl
    exact ⟨.str s, rfl, rfl⟩
  · rintro v rfl
    refine ⟨.bool v, rfl, ?_⟩
    cases v <;> rfl
  · rintro s i rfl hi h32
    refine ⟨.int i, ?_, rfl⟩
    simp [Stringify.de, bufferNode, deNode, deYaml, Node.yaml, hi, h32]
  · rintro s x rfl hi
    refine ⟨.float x.toF32, ?_, rfl⟩
    simp [Stringify.de, bufferNode, deNode, deYaml, Node.yaml, hi]
  · intro hy
    rcases deNode_outcome (h := h) hf _ hn with ⟨m, a, h1, h2, h3⟩ | ⟨_, n', h2, _⟩
    · exact ⟨.anchor, m.pos, by simp only [Stringify.de, bufferNode, h3]; rfl⟩
    · refine ⟨.invalidType, 0, ?_⟩
      simp only [Stringify.de, bufferNode, h2, SRes.bind_ok, SRes.pure_eq]
      rcases hy with hy | ⟨l, hy⟩ | ⟨l, hy⟩ | ⟨l, hy⟩ <;> simp [hy]

/-- **C53** fails beyond `i32`: the integer is printed as the `f32` nearest to it, which is
another number (2147483648). -/
theorem C53_counterexample (g : F64 → Bytes) : ∃ x, Stringify.de h f (.ofYaml (.int b!"2147483649")) = .ok x ∧
    x.toString g = g (Node.f64OfInt 2147483648) := by
  have : toI64 b!"2147483649" = some 2147483649 := by decide +kernel
  have h3 : f32OfInt 2147483649 = Node.f64OfInt 2147483648 := by decide +kernel
  refine ⟨.float (f32OfInt 2147483649), ?_, by rw [h3]; rfl⟩
  have h2 : ¬ IntTy.i32.holds 2147483649 := by decide
  simp [Stringify.de, bufferNode, deNode, deYaml, Node.yaml, Node.ofYaml, this, h2]

/-! ## C54: structs from mappings -/

theorem fieldLoop_spec {D : List DeField} (hd : (D.map (·.name)).Nodup) : ∀ es : List (Node × Node),
    (∀ e ∈ es, ∃ nm, e.1.yaml = .str nm) → es.Pairwise (fun a c => a.1.yaml ≠ c.1.yaml) →
    (∀ k v, (k, v) ∈ es → ∀ x ∈ D, k.yaml = .str x.name → ∃ a, x.read v = .ok a) →
    ∃ got, deFieldLoop D es = .ok got ∧ (got.map Prod.fst).Nodup ∧
      ∀ nm a, (nm, a) ∈ got ↔ ∃ x ∈ D, x.name = nm ∧ ∃ k v, (k, v) ∈ es ∧ k.yaml = .str nm ∧ x.read v = .ok a
  | [], _, _, _ => ⟨[], rfl, by simp, by simp⟩
  | (k, v) :: r, hs, hp, hr => by
    rw [List.pairwise_cons] at hp
    obtain ⟨got, h1, h2, h3⟩ := fieldLoop_spec hd r (fun e he => hs e (by simp [he])) hp.2
      (fun k v hkv => hr k v (by simp [hkv]))
    obtain ⟨nm, hnm⟩ := hs (k, v) (by simp)
    simp only at hnm
    have hfresh : ∀ a, (nm, a) ∉ got := by
      intro a ha
      obtain ⟨x, _, _, k', v', q1, q2, _⟩ := (h3 nm a).1 ha
      exact hp.1 (k', v') q1 (by simp only; rw [hnm, q2])
    have hid : deIdent k = .ok nm := by simp [deIdent, hnm]
    cases hfind : D.find? (fun x => x.name == nm) with
    | none =>
      refine ⟨got, by simp only [deFieldLoop, hid, SRes.bind_ok, hfind, h1], h2, ?_⟩
      intro nm' a
      rw [h3]
      constructor
      · rintro ⟨x, q1, q2, k', v', q3, q4⟩
        exact ⟨x, q1, q2, k', v', by simp [q3], q4⟩
      · rintro ⟨x, q1, q2, k', v', q3, q4, q5⟩
        refine ⟨x, q1, q2, k', v', ?_, q4, q5⟩
        rcases List.mem_cons.1 q3 with e | e
        · cases e
          rw [hnm] at q4
          cases q4
          have := List.find?_eq_none.1 hfind x q1
          simp [q2] at this
        · exact e
    | some x =>
      have hxD := List.mem_of_find?_eq_some hfind
      have hxn : x.name = nm := by simpa using List.find?_some hfind
      obtain ⟨a, ha⟩ := hr k v (by simp) x hxD (by rw [hxn]; exact hnm)
      refine ⟨(nm, a) :: got, by simp only [deFieldLoop, hid, SRes.bind_ok, hfind, ha, h1, SRes.pure_eq], ?_, ?_⟩
      · rw [List.map_cons, List.nodup_cons]
        refine ⟨?_, h2⟩
        intro hm
        obtain ⟨⟨n', a'⟩, q1, q2⟩ := List.mem_map.1 hm
        simp only at q2
        subst q2
        exact hfresh a' q1
      · intro nm' a'
        rw [List.mem_cons, h3]
        constructor
        · rintro (e | ⟨y, q1, q2, k', v', q3, q4⟩)
          · cases e
            exact ⟨x, hxD, hxn, k, v, by simp, hnm, ha⟩
          · exact ⟨y, q1, q2, k', v', by simp [q3], q4⟩
        · rintro ⟨y, q1, q2, k', v', q3, q4, q5⟩
          rcases List.mem_cons.1 q3 with e | e
          · cases e
            rw [hnm] at q4
            cases q4
            have e1 := find_name hd q1
            rw [q2, hfind] at e1
            cases e1
            rw [ha] at q5
            cases q5
            exact .inl rfl
          · exact .inr ⟨y, q1, q2, k', v', e, q4, q5⟩

theorem mapGet_mem {V : Type} {k : Bytes} {v : V} : ∀ {l : List (Bytes × V)}, mapGet k l = some v → (k, v) ∈ l
  | (k', v') :: r, hh => by
    rw [mapGet] at hh
    split at hh
    · rename_i he
      have : k = k' := by simpa using he
      cases hh; subst this; simp
    · exact List.mem_cons_of_mem _ (mapGet_mem hh)

/-- **C54**. A struct is read from a mapping by field names: the order of the
entries does not matter, entries that are no fields are ignored, and a missing
`Option` field is `None`. (`val` names the expected value of each field.) -/
theorem C54_struct {fs : List (Bytes × Ty)} (hfs : (fs.map Prod.fst).Nodup) {es : List (Node × Node)}
    (hs : ∀ e ∈ es, ∃ nm, e.1.yaml = .str nm) (hp : es.Pairwise (fun a c => a.1.yaml ≠ c.1.yaml)) (val : Bytes → Val)
    (hval : ∀ nm t, (nm, t) ∈ fs →
      (∃ k v, (k, v) ∈ es ∧ k.yaml = .str nm ∧ de h f t v = .ok (val nm)) ∨
      ((∃ u, t = .option u) ∧ val nm = .none ∧ ∀ k v, (k, v) ∈ es → k.yaml ≠ .str nm))
    (p : Nat) (tag : Bytes) :
    de h f (.struct fs) (.mk p tag (.map es)) = .ok (.struct (fs.map fun e => (e.1, val e.1))) := by
  have huniq : ∀ k v k' v', (k, v) ∈ es → (k', v') ∈ es → k.yaml = k'.yaml → v = v' := by
    clear hs hval
    induction es with
    | nil => intro k v k' v' hx; cases hx
    | cons e r ih =>
      rw [List.pairwise_cons] at hp
      intro k v k' v' hx hx' he
      rcases List.mem_cons.1 hx with e1 | e1 <;> rcases List.mem_cons.1 hx' with e2 | e2
      · rw [← e1] at e2; cases e2; rfl
      · subst e1; exact absurd he (hp.1 _ e2)
      · subst e2; exact absurd he.symm (hp.1 _ e1)
      · exact ih hp.2 k v k' v' e1 e2 he
  have hmem : ∀ x ∈ deFields h f fs, ∃ t, (x.name, t) ∈ fs ∧ x.read = de h f t ∧ x.optional = t.isOption := by
    intro x hx
    rw [deFields_map] at hx
    obtain ⟨⟨nm, t⟩, q1, rfl⟩ := List.mem_map.1 hx
    exact ⟨t, q1, rfl, rfl⟩
  obtain ⟨got, h1, h2, h3⟩ := fieldLoop_spec (D := deFields h f fs) (by rw [deFields_names]; exact hfs) es hs hp
    (by
      intro k v hkv x hx hk
      obtain ⟨t, q1, q2, _⟩ := hmem x hx
      rcases hval x.name t q1 with ⟨k', v', r1, r2, r3⟩ | ⟨_, _, r3⟩
      · have := huniq k v k' v' hkv r1 (by rw [hk, r2])
        subst this
        exact ⟨_, by rw [q2]; exact r3⟩
      · exact absurd hk (r3 k v hkv))
  have fill : ∀ gs : List (Bytes × Ty), (∀ e ∈ gs, e ∈ fs) →
      deFieldFill got (deFields h f gs) = .ok (gs.map fun e => (e.1, val e.1)) := by
    intro gs
    induction gs with
    | nil => intro _; rfl
    | cons e r ih =>
      intro hg
      obtain ⟨nm, t⟩ := e
      have ih' := ih (fun e he => hg e (by simp [he]))
      have hin := hg (nm, t) (by simp)
      have hx : deField h f (nm, t) ∈ deFields h f fs := by
        rw [deFields_map]; exact List.mem_map.2 ⟨_, hin, rfl⟩
      simp only [deFields, deField, deFieldFill]
      rcases hval nm t hin with ⟨k, v, r1, r2, r3⟩ | ⟨⟨u, ru⟩, r2, r3⟩
      · have hg1 : (nm, val nm) ∈ got := (h3 nm _).2 ⟨_, hx, rfl, k, v, r1, r2, r3⟩
        rw [mapGet_nodup h2 hg1]
        simp [ih']
      · have : mapGet nm got = none := by
          cases hh : mapGet nm got with
          | none => rfl
          | some a =>
            obtain ⟨x, _, _, k, v, q1, q2, _⟩ := (h3 nm a).1 (mapGet_mem hh)
            exact absurd q2 (r3 k v q1)
        simp [this, ru, Ty.isOption, ih', r2]
  simp only [de, Node.yaml, deStructMap, h1, SRes.bind_ok, fill fs (fun e he => he), SRes.pure_eq]

/-- A missing field that is no `Option` is an error, if the present ones can be read. -/
theorem C54_missing {fs : List (Bytes × Ty)} (hfs : (fs.map Prod.fst).Nodup) {es : List (Node × Node)}
    (hs : ∀ e ∈ es, ∃ nm, e.1.yaml = .str nm) (hp : es.Pairwise (fun a c => a.1.yaml ≠ c.1.yaml))
    (hread : ∀ nm t k v, (nm, t) ∈ fs → (k, v) ∈ es → k.yaml = .str nm → ∃ a, de h f t v = .ok a)
    {nm : Bytes} {t : Ty} (hn : (nm, t) ∈ fs) (ht : ∀ u, t ≠ .option u) (hm : ∀ k v, (k, v) ∈ es → k.yaml ≠ .str nm)
    (p : Nat) (tag : Bytes) : de h f (.struct fs) (.mk p tag (.map es)) = .err .missingField 0 := by
  have hopt : t.isOption = false := by
    cases t <;> first | rfl | exact absurd rfl (ht _)
  obtain ⟨got, h1, h2, h3⟩ := fieldLoop_spec (D := deFields h f fs) (by rw [deFields_names]; exact hfs) es hs hp
    (by
      intro k v hkv x hx hk
      rw [deFields_map] at hx
      obtain ⟨⟨nm, t⟩, q1, rfl⟩ := List.mem_map.1 hx
      exact hread nm t k v q1 hkv hk)
  have hg : mapGet nm got = none := by
    cases hh : mapGet nm got with
    | none => rfl
    | some a =>
      obtain ⟨x, _, _, k, v, q1, q2, _⟩ := (h3 nm a).1 (mapGet_mem hh)
      exact absurd q2 (hm k v q1)
  have fill : ∀ gs : List (Bytes × Ty), (nm, t) ∈ gs → deFieldFill got (deFields h f gs) = .err .missingField 0 := by
    intro gs
    induction gs with
    | nil => intro hh; cases hh
    | cons e r ih =>
      obtain ⟨nm', t'⟩ := e
      intro hh
      rw [deFields, deField, deFieldFill]
      rcases List.mem_cons.1 hh with e | e
      · cases e
        simp [hg, hopt]
      · rw [ih e]
        split
        · rfl
        · split <;> rfl
  simp only [de, Node.yaml, deStructMap, h1, SRes.bind_ok, fill fs hn, SRes.bind_err]

/-- Entries in another order, one of them unknown, one `Option` missing. -/
example : de h f (.struct [(b!"a", .str), (b!"b", .bool), (b!"c", .option .str)])
    (.mk 0 [] (.map [(strNode b!"b", .ofYaml (.bool true)), (strNode b!"x", .ofYaml (.seq [])), (strNode b!"a", strNode b!"v")])) =
    .ok (.struct [(b!"a", .str b!"v"), (b!"b", .bool true), (b!"c", .none)]) := by
  refine C54_struct (fs := [(b!"a", .str), (b!"b", .bool), (b!"c", .option .str)]) (by decide) (by simp [strNode, Node.ofYaml, Node.yaml]) (by simp [strNode, Node.ofYaml, Node.yaml]) (fun nm => if nm = b!"a" then .str b!"v" else if nm = b!"b" then .bool true else .none) ?_ 0 []
  intro nm t hm
  simp only [List.mem_cons, List.not_mem_nil, or_false, Prod.mk.injEq] at hm
  rcases hm with ⟨rfl, rfl⟩ | ⟨rfl, rfl⟩ | ⟨rfl, rfl⟩
  · exact .inl ⟨strNode b!"a", strNode b!"v", by simp, rfl, rfl⟩
  · exact .inl ⟨strNode b!"b", .ofYaml (.bool true), by simp, rfl, rfl⟩
  · refine .inr ⟨⟨_, rfl⟩, by simp, ?_⟩
    intro k v hkv
    simp only [List.mem_cons, List.not_mem_nil, or_false, Prod.mk.injEq] at hkv
    rcases hkv with ⟨rfl, rfl⟩ | ⟨rfl, rfl⟩ | ⟨rfl, rfl⟩ <;> simp [strNode, Node.ofYaml, Node.yaml]

end
end YamlPeg.Props
