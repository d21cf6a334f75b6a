# Formal model of yaml-peg-rs in Lean 4 — design

## 1. What is modelled

| Rust | Lean | remarks |
|---|---|---|
| `src/indicator.rs` | `Verif/Model/Indicator.lean` | complete |
| `src/parser/error.rs` | `Verif/Model/Basic.lean` | `PError`, `PError::or`; `Display` in `Verif/Model/Message.lean`, `Debug` in `Debug.lean` |
| `node!` in `src/lib.rs` | `Verif/Model/Macro.lean` | all forms; the prefixes `rc`, `arc` only choose the counter (see `Share.lean`) |
| `Debug` in `src/node.rs`, `src/yaml.rs`; `src/serde/error.rs` | `Verif/Model/Debug.lean` | compact form `{:?}`; which non-ASCII characters are escaped is a parameter |
| `src/parser/base/mod.rs` | `Verif/Model/Parser.lean`, `Verif/Model/Cursor.lean` | complete |
| `src/parser/base/grammar.rs`, `directive.rs` | `Verif/Model/Grammar.lean` | complete |
| `src/parser/mod.rs` | `Verif/Model/Loader.lean` | complete |
| `src/yaml.rs`, `src/node.rs` | `Verif/Model/Node.lean`, `Number.lean` | data, `to_i64`, `to_f64`, equality, hash stream, map insertion, accessors, indexing, `From` conversions |
| `src/repr.rs`, the sharing side of `src/node.rs` | `Verif/Model/Share.lean` | heap of counted cells; `new`, `new_repr`, `set_yaml`, `set_repr`, `clone`, `clone_yaml`, `yaml`, `rc_ref` (strong count), drop, `==` with `Rc`'s pointer shortcut |
| `src/dumper.rs` | `Verif/Model/Dumper.lean` | complete |
| `src/serde/*` | `Verif/Model/Serde.lean` | serializer, deserializer, `InlineList`, `Optional`, `Stringify` over an explicit universe of types (`f32`: `Verif/Model/Float32.lean`) |
| `std`, `ritelinked`, `serde` | `Verif/Model/Text.lean` and parts of the above | the functions called, see §3 |

Except in `Share.lean`, nodes are plain immutable values; C60 proves that this is what
programs see.  Not modelled: overflow of reference counts and weak references,
doc examples,
allocation failure, and stack depth (Rust recursion may overflow the stack on
deep input; the model has an unbounded stack).

`Verif/Model/RepoTests.lean` runs the crate's own test-suite (`src/tests/mod.rs`,
`complete_doc.yaml`, the documentation examples) in the model; every expected value
comes out.  Those are tests of the model's fidelity, not claims.

### Conventions

* A method on `&mut self` returning `PResult<T>` is a function
  `σ → Out T × σ`; the state is returned in *every* case, since Rust does not
  roll back.
* `Out` = `ok | err | panic | diverge`.  Every panic site of the source is an
  explicit `Panic` constructor.  Integer overflow checks are on (debug profile):
  an unsigned subtraction below zero is a panic.
* Loops that provably progress have internal fuel and a theorem that it never
  runs out.  Loops that need not progress (`string_quoted`, `string_plain`, the
  loader) take the fuel `n` as an argument.  "The Rust call returns `r`" is
  `∃ n, model n = r` with `r ≠ diverge`; "the Rust call never returns" is
  `∀ n, model n = diverge`.  C49 proves both notions are sound: outcomes other
  than `diverge` never change with more fuel.
* Hash tables: `HashCfg.probe` says which pairs of hash streams meet in the same
  probe sequence; only `probe s s = true` is assumed.  Theorems quantify over
  all `HashCfg`.

## 2. How each property is treated

The property list is `properties.jsonl`; the exact theorem names and the
current status are in `MANIFEST.json`.

| id | model | proof idea |
|---|---|---|
| C01 | `parse`, `parseCyclic` with fuel | false of the code: divergence families are proved for all fuel; positive theorem for a syntactic class by progress measure (`_partial`) |
| C02 | panics explicit in `Out` | false of the code for two panic sites (unknown tag handle, out-of-range integer keys); all *other* panics excluded for all inputs by an invariant through the whole grammar and loader |
| C03 | `Parser` methods as an operation alphabet | invariant `eaten ≤ pos ≤ len`, induction over operation lists |
| C04 | `takeWhile` | direct, against an independent longest-prefix specification |
| C05 | `context`, all grammar methods | every sub-parser of `grammar.rs` keeps `eaten` |
| C06/C07 | `indicatedMsg` | induction over the lines against a newline-counting specification |
| C08 | errors of `parse` | invariant through the loader: each `Terminate` message is an `indicatedMsg` at a position ≤ len |
| C09–C11, C13, C14 | loader state | invariants through the loader by induction on fuel; for whole documents: `Proof/Faults.lean` says where the first unknown alias, second definition or unknown handle of a layout is (in block and flow collections), by induction on the layout |
| C12 | two runs in lock-step (`Proof/Blind.lean`) | simulation between the cyclic and the non-cyclic run on input without `*`; same lock-step lemma as C48 |
| C15–C21, C23–C29 | `parse` on document families | symbolic evaluation of the whole pipeline (`parse`→…→`take_while`) on families quantified over all words, digit strings, item lists |
| C28 | `seq_flow`, `map_flow` that are not closed (`Proof/OpenFlow.lean`, `Proof/OpenEnd.lean`) | grammars `Unclosed` and `Cut` of open collections, nested to any depth; predicates `OpenLast` ("fails softly") and `LeafOKE` closed under nesting |
| C22 | `escape` | induction |
| C30, C31 | directives, tags | symbolic evaluation + invariants |
| C32–C34 | `Node.eq?`, hash streams, map insertion | mutual induction; the Eq/Hash contract is false for number texts (negation proved), the positive theorem is for canonical numbers |
| C35–C38, C51 | accessors, `to_i64`, `From` | case analysis, decimal digit induction |
| C39 | `dump` with fuel | false of the code (hang and panic families proved); positive on a syntactic class |
| C40, C41 | `parse ∘ dump` | false in general (negations proved); positive theorem for the class of safe trees by induction on the tree |
| C42–C45 | serde universe | induction over types/values |
| C46, C47, C53 | `InlineList`, `Optional`, `Stringify` | case analysis |
| C69 | `f32` (`Model/Float32.lean`): rounding to 24 bits; `as f32` of an `f64`, of an `i64` | `Rounded32` (nearest, ties to even) and its uniqueness; rounding twice is rounding once off the midpoints, since midpoints are `f64`s and rounding is monotone against them |
| C70 | the whole loader on texts with a mistake (`Proof/Broken.lean`, `BrokenBlock.lean`, `BrokenTerm.lean`, `BrokenDoc.lean`) | `BadText T name o`, a grammar of texts with a mistake at `o`; predicates `TermBad`/`BadN`/`BadV`/`SeqHole`/`MapHole`/`BadRoot` ("ends with this error") closed under each way of putting something in front or around, using the reading theorems of C52 for the parts that are right; the error passes all alternatives |
| C71 | `mapInsert` as `BTreeMap::insert`, anchor tables in the loader state, `findAnchor` (`Proof/Order.lean`) | ordered tables as part of the loader invariant `LWF`/`L0`, with the lexicographic `<` of lists as specification; induction over the table for the dumper |
| C72 | `sym`, `symSet`, `symSeq`, `ws`, `inv`, `nl`, `comment`, `bound`, `complexMapping`, `gap` on any state in order | languages as relations (`Blanks`, `Break`, `Comment`, `Boundary`, `Gap` in `Props/Scan.lean`), `Exact` = both directions; the run equations of `Proof/Zip*.lean` and, for gaps, induction over the lines |
| C73 | `identifier`, `anchor`, `anchorUse`, `tag` | `Name`, `Tag` as inductive specifications over the tag table; case analysis of the text behind the cursor |
| C74 | `numPrefix`, `octal`, `hexadecimal`, `int`, `float`, `sciFloat` | `Integer`, `Fraction`, `Scientific`; same method |
| C75 | `ind`, `indDefine`, `chomp` | `TableFor` (entry by entry), `Chomped`; same method |
| C76 | the whole loader, two runs | `FurtherOn` (outcome further on), `Node.mapPos` (Spec/Positions); simulation: `Sim` (Proof/Sim) relates two runs of every loader function once the sub-parsers are related (`Base`); Proof/Shift gives `Base` for the states over `D` and `pre ++ D` |
| C77 | `loaderParse` | `opening`: directives, gap and `---` are taken; then the simulation of C76 from behind the `---`; counterexamples by kernel evaluation |
| C78, C79 | the whole loader, two runs | `withBreaks`, `crlf`, `crOnly`, `lfPlace`, `NoBlankLines` (Spec/LineEnds), `Alike` (outcomes up to places); the simulation of C76 with `Base` for the states over `D` and over `D` with other breaks (Proof/LineEnds): the rests are related by `RR`, which also allows the middle of a `\r\n` (block scalars step one byte back); texts read between mark and cursor are equal where they are used; counterexamples by kernel evaluation |
| C80 | the whole loader, two runs | `Resolved` (relation, Spec/Resolve), `AliasKey`; a second simulation (`Ksim`, Proof/Resolve) of the two modes: the parsers are equal, the world is the table of `parse_cyclic`, which only grows; nodes are related by `Resolved` in the current world unless a key holds an alias; maps with alias-free keys collect alike, others keep an alias in a key (`eq?_alias`) |
| C81 | the whole loader | `Node.positions`, `Node.Before`, `InOrderHere` (Spec/InOrder); every loader function is shown to give nodes whose positions lie between the cursor before and after (`Sp`, Proof/InOrder), so that what is read later stands later; `entriesInsert` keeps values in order but moves repeated keys; counterexamples for aliases in `parse` and repeated keys |
| C82 | the whole loader | size = `(positionsL roots).length`; carried through the same induction as C81 (`SpanN a b n`: at most `2(b-a)+1` nodes between two marks; `SpanD` for the documents): every item has its `-` or `,`, every entry its `:`; repeated keys only make it smaller. Counterexample with aliases: the family `bomb k` is an instance of the layouts of C52, its size by induction on `k` |
| C83 | the dumper | `Node.noPos` leaves the data and tags; induction over the dumper, `findAnchor` compares nodes and so sees no position (C32); documents by induction from the end; `trim_start` cannot eat into the last line break unless it eats all |
| C84 | the dumper, `cfg!(windows)` | `crlf` commutes with every step: trimming (`\r\n` is white space as `\n` is), joining lines (which hold no line feed), cutting the last line break (buffers are empty or end in one), debug output (no line feed); induction over nodes with `PlainTexts` (Spec/DumpText) |
| C85 | the whole loader | `WrittenY`, `Node.Clear`, `ClearHere` (Spec/Written) with the texts of C73 and C74; the induction of C81 carries the texts (`SpanY D a b`). Numbers and aliases are read from the mark: `Fr` (cursor on the mark, or at the end of the text) holds before every scalar, since a sequence or map that gives up with a mismatch has just moved to the mark or read a sub-parser that leaves it so (`Mf`). Strings: every step of their loops adds no more than it reads (`Ex`, `Cost`, Proof/Extent) |
| C86 | the whole loader | `amountL` (Spec/Amount) adds up all texts; the induction of C81 carries the sum beside the number of nodes: `amount + spread D * a ≤ spread D * b` for what is read between the marks `a` and `b`, from `WrittenY` (C85) at the leaves; `entriesCollect` only drops keys and values. Counterexample for aliases in `parse` |
| C55 | `to_string` = `to_node` + `dump`; `from_str` | induction over the type: the value's node prints like a dumpable node that reads as the value (`TX`, Proof/SerdeText), then C40's round trip and C56 |
| C56 | the whole `Deserializer` | induction over the type; results of a node and of the node without positions and tags |
| C57 | `string_plain`, `string_quoted`, `gap` (`Proof/Fold.lean`, `Proof/PlainFold.lean`) | induction over the lines of the scalar and over the tokens of a line; plain folded leaves are part of the layout grammar of C52 |
| C58 | `dump`, `findAnchor`, `parse_cyclic` (`Proof/DumpAnchors.lean`) | induction over the node: the printed text is a tree of the layout grammar of C52 with properties; its anchors are those in front of nodes |
| C64 | `map`, `complex_key`, `complex_mapping` (`Proof/Tree.lean`: `CEnts`; `Proof/TreeRead.lean`: `CEnts.readKey`, `CEnts.read`) | maps whose keys are trees are part of the layout grammar of C52; mutual induction over trees, items and entries |
| C59 | `seq_flow`, `map_flow`, `string_quoted` and the scalars in flow context (`Proof/Flow.lean`, `Proof/FlowPlain.lean`, `Proof/ScalarText.lean`) | JSON data and its printers are defined as data types and functions of their own in `Props/Json.lean`; induction over the value: the printed text is the text of a flow collection of C24 |
| C60–C63 | `Model/Share.lean`: a heap with reference counts, histories of API operations; values without sharing in `Spec/Share.lean` | refinement: invariant (counts = holders, children older than parents) kept by every operation, simulation of the value semantics by induction over the history |
| C65 | `node_props` and everything between it and `parse` (`Proof/Mismatch.lean`), `Display` | `Mismatch` never leaves the other methods (compositional, state-free); invariant for the place |
| C66 | all calls of `self.err` (`Proof/ErrNames.lean`) | frame logic: the invariant of the parser and the signs read so far |
| C67 | `Debug` (`Model/Debug.lean`), `Proof/Debug.lean` | the text is a prefix code: structural induction; escapes by cases, UTF-8 code points by arithmetic; `{:#?}`: the padding of `core::fmt` is injective, nodes print without it |
| C68 | `node!` (`Model/Macro.lean`) | literals are a data type of their own; induction over lists of literals, over nodes for C68_every_node |
| C54 | struct visitor over a mapping | induction over the entries |
| C48 | two hash configurations (`Proof/Blind.lean`) | lock-step runs for documents with one notation per number; false in general because of the Eq/Hash mismatch (counterexample) |
| C49 | fuel | monotonicity of every fuelled function |
| C50 | every text cut by `Parser::text` (`Proof/Charset*.lean`) | `lossy s = s` on valid UTF-8; invariant through grammar and loader: cursor and mark are character boundaries, all texts are over the characters of the document plus ASCII |

## 3. Trusted base

* Lean 4.33.0's kernel.  No axioms are added; the theorems depend at most on
  `propext`, `Classical.choice` and `Quot.sound`.
* The reading of the Rust source into the definitions of `Verif/Model`.  Every
  definition cites the file and lines it models.
* Behaviour of `std` as written in `Verif/Model/Text.lean` and `Number.lean`
  (UTF-8 decoding, `trim*`, `lines`, `from_str_radix`, `f64::from_str`, `Display`
  of integers).
* Behaviour of the crate `ritelinked` (`LinkedHashMap`): insertion order,
  re-insertion moves the entry to the back and keeps the key object, equality
  compares in iteration order.
* Behaviour of `Rc`/`Arc` as written in `Verif/Model/Share.lean` (count, free at
  zero with the children, `==` of one cell is true without a look at the data).
* Behaviour of `serde`'s derive and of its `Deserialize` impls for std types as
  written in `Verif/Model/Serde.lean`.

## 4. Disagreements between code and properties (found while modelling)

See the theorems named in `MANIFEST.json` with "counterexample" in the note.

* **Hangs**: an unterminated quoted string; a double-quoted string ending in an
  escaped backslash (`"a\\"`); some tag/`?` combinations; `dump` of single-line
  strings ending in a newline, starting with one of `[ ] { }`, or containing a
  carriage return.
* **Panics**: a tag with an unknown handle (`!foo!bar x`); two integer keys of
  one map outside of the `i64` range; `dump` of an empty map.
* **Wrong results**: numbers at the very end of the input are strings; `0xa` is
  a string while `0xg` is an integer whose `as_int` fails; a key without value
  swallows its siblings; unclosed flow collections give `null`; `a: {}` does
  not survive `dump`; strings like `true` or `42` do not survive `dump`;
  equal integers in different notation hash differently; narrowing integer
  deserialization truncates.
