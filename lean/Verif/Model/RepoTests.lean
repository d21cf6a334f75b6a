import Verif.Model.Dumper
import Verif.Model.Serde
import Verif.Model.Share
/-!
# The model passes the test-suite of the crate

The unit tests of src/tests/mod.rs and the doc examples of the parser, evaluated in the
model by the kernel.  They are tests of the model, not claims: they show that the definitions
behave as the authors' own tests say the code does.  The documents are those of src/tests.
-/

namespace YamlPeg.RepoTests
open YamlPeg

/-- `node!("…")`, `node!(12)`, `node!([…])`, `node!({…})` (lib.rs:77-113). -/
def s (x : Bytes) : Node := .ofYaml (.str x)
def i (x : Bytes) : Node := .ofYaml (.int x)
def f (x : Bytes) : Node := .ofYaml (.float x)
def null : Node := .ofYaml .null
def l (x : List Node) : Node := .ofYaml (.seq x)
/-- The entries are collected one after the other. -/
def m (x : List (Node × Node)) : Node :=
  match entriesCollect .exact [] x with
  | .ok x => .ofYaml (.map x)
  | _ => null

/-- `assert_eq!(a, b)` of two nodes: `Node::eq`. -/
def same (a c : Node) : Bool :=
  match Node.eq? a c with
  | .ok x => x
  | _ => false

/-- `parse(doc).unwrap()`, compared with `assert_eq!`. -/
def parses (doc : Bytes) (ns : List Node) : Bool :=
  match parse .exact 200 doc with
  | .ok r => r.length == ns.length && (r.zip ns).all fun x => same x.1 x.2
  | _ => false

/-- The `k`-th root of a document. -/
def root (doc : Bytes) (k : Nat) : Node :=
  match parse .exact 200 doc with
  | .ok r => r[k]?.getD null
  | _ => null

/-- `node[key].tag()`. -/
def tagAt (n : Node) (k : Bytes) : Bytes :=
  match n.indexKey .exact (s k) with
  | .ok v => v.tagOf
  | _ => []

/-- src/tests -/
def completeDoc : Bytes := b!"%YAML 1.2\n%TAG !! tag:test.prefix:\n%TAG !x! tag:test.x.prefix:\n--- !x!root\na0 bb: !x!foo .val.\n::a1:  # Test comment after wrapped! (1)\n  b1  : 4.\n  b2:\n    - 123   abc\n    - 50%\n    - 0o10\n    - 0x10\n    - 2e-4\n    - .nan\n    - -.inf\n    - -.infs\n    - 2001-11-23 15:01:42 -5\n    - https://www.google.com/\n-a2: !!t1 4.03  # Test comment after normal scalars.\n?  # Test comment after wrapped! (2)\n  - q\n  - r  # Test comment after plain string...\n  - s\n: !!t2 { 1: 2, 3:4 }  # Test comment after wrapped! (3)\n?a3: !<tag:my.tag.prefix:tt>\n  - [d1🀄🃏, 中文]\n  - &x ~\n  - *x\n  -\n? &y\n  a4:\n: -30\n? *y: b3, b4\n# Test wrapping\n? test\n  multiline:\n  - folded: >\n      aaa{}[]\n      bbb\n        ccc\n\n        ddd\n\n      # eee\n    literal: |\n      aaa{}[]\n      bbb\n        ccc\n\n        ddd\n\n      # eee\n  - plain: aaa{}[] \"bbb\" 'ccc',\n      ddd\\n\n\n      eee\n        fff\n\n      # ggg\n    single quoted: 'aaa{}[] \"bbb\" ''ccc'',\n      ddd\\n\n\n      eee\n        fff\n\n      # ggg'\n    double quoted: \"aaa{}[] \\\"bbb\\\" 'ccc',\n      dd\\\n      d\\\\n\\n\n      eee\n        fff\n\n      # ggg\"\n  - |+\n    literal\n\n  - >-\n    literal\n\n---\n# Reveal.yaml test (compact mode)\ntitle: Images\nfit:\n- a\n- b\nsub:\n- title: Lay with Images\n  lay-img:\n  - src: https://placekitten.com/450/450\n    frag: fade-right\n  - src: https://placekitten.com/600/300\n    frag: fade-left\n...\n"

/-- src/tests -/
def anchorDoc : Bytes := b!"- a: &a b\n- a: *a\n- &map\n  a: b\n- *map\n- &seq\n  - a: &sub b\n  - a: *sub\n- *seq\n"

/-- src/tests -/
def indentDoc : Bytes := b!"version: 2\nmodels:\n    - name: orders\n      columns:\n          - name: c_custkey\n            tests:\n                - not_null\nmap:\n- a\n- b\n- c\n--- !normal-sequence\n# Normal sequence\n- a1\n- true of\n- a2\n"

/-- src/tests -/
def jsonDoc : Bytes := b!"\n{\n    \"a\": \"b\",\n    \"c\": [123, 321, 1234567],\n    \"d\": {},\n    \"e:f\": \"g\"\n}\n"

/-- src/tests -/
def seqDoc : Bytes := b!"- a\n- b"

/-- src/tests -/
def mapDoc : Bytes := b!"a: b"

/-- src/tests -/
def scalarDoc : Bytes := b!"foo"

/-- src/tests -/
def dumpDoc : Bytes := b!"a: b\nc:\n  - d: e\n  - f:\n      g: h\n  - i:\n    - j\n---\n- a\n- b\n"

/-- `test_yaml_nofinalnewline` (tests/mod.rs:7-29). -/
example : parses seqDoc [l [s b!"a", s b!"b"]] = true := by decide +kernel
example : parses mapDoc [m [(s b!"a", s b!"b")]] = true := by decide +kernel
example : parses scalarDoc [s b!"foo"] = true := by decide +kernel

/-- `test_json` (tests/mod.rs:31-47). -/
example : parses jsonDoc [m [(s b!"a", s b!"b"), (s b!"c", l [i b!"123", i b!"321", i b!"1234567"]), (s b!"d", m []),
    (s b!"e:f", s b!"g")]] = true := by decide +kernel

/-- `test_indent` (tests/mod.rs:141-163). -/
example : parses indentDoc [
    m [(s b!"version", i b!"2"),
      (s b!"models", l [m [(s b!"name", s b!"orders"),
        (s b!"columns", l [m [(s b!"name", s b!"c_custkey"), (s b!"tests", l [s b!"not_null"])]])]]),
      (s b!"map", l [s b!"a", s b!"b", s b!"c"])],
    l [s b!"a1", s b!"true of", s b!"a2"]] = true := by decide +kernel
example : (root indentDoc 1).tagOf = b!"normal-sequence" := by decide +kernel

/-- `test_anchor` (tests/mod.rs:165-186). -/
example : parses anchorDoc [
    let ab := m [(s b!"a", s b!"b")]
    l [ab, ab, ab, ab, l [ab, ab], l [ab, ab]]] = true := by decide +kernel

/-- `test_yaml` (tests/mod.rs:49-117): the complete document. -/
def completeNode : Node := m [
  (s b!"a0 bb", s b!".val."),
  (s b!"::a1", m [(s b!"b1", f b!"4"),
    (s b!"b2", l [s b!"123   abc", s b!"50%", i b!"8", i b!"16", f b!"0.0002", f b!"NaN", f b!"-inf", s b!"-.infs",
      s b!"2001-11-23 15:01:42 -5", s b!"https://www.google.com/"])]),
  (s b!"-a2", f b!"4.03"),
  (l [s b!"q", s b!"r", s b!"s"], m [(i b!"1", i b!"2"), (i b!"3", i b!"4")]),
  (s b!"?a3", l [l [s b!"d1🀄🃏", s b!"中文"], null, null, null]),
  (m [(s b!"a4", null)], i b!"-30"),
  (m [(s b!"a4", null)], s b!"b3, b4"),
  (s b!"test multiline", l [
    m [(s b!"folded", s b!"aaa{}[] bbb ccc\nddd\n# eee\n"),
      (s b!"literal", s b!"aaa{}[]\nbbb\n  ccc\n\n  ddd\n\n# eee\n")],
    m [(s b!"plain", s b!"aaa{}[] \"bbb\" 'ccc', ddd\\n\neee fff"),
      (s b!"single quoted", s b!"aaa{}[] \"bbb\" 'ccc', ddd\\n\neee fff\n# ggg"),
      (s b!"double quoted", s b!"aaa{}[] \"bbb\" 'ccc', ddd\\n\neee fff\n# ggg")],
    s b!"literal\n\n", s b!"literal"])]

def compactNode : Node := m [
  (s b!"title", s b!"Images"),
  (s b!"fit", l [s b!"a", s b!"b"]),
  (s b!"sub", l [m [(s b!"title", s b!"Lay with Images"),
    (s b!"lay-img", l [
      m [(s b!"src", s b!"https://placekitten.com/450/450"), (s b!"frag", s b!"fade-right")],
      m [(s b!"src", s b!"https://placekitten.com/600/300"), (s b!"frag", s b!"fade-left")]])]])]

example : (match parse .exact 200 completeDoc with
    | .ok [a, c] => same a completeNode && same c compactNode && a.tagOf == b!"tag:test.x.prefix:root" &&
      tagAt a b!"a0 bb" == b!"tag:test.x.prefix:foo" && tagAt a b!"-a2" == b!"tag:test.prefix:t1" &&
      tagAt a b!"?a3" == b!"tag:my.tag.prefix:tt"
    | _ => false) = true := by decide +kernel

/-- `test_dump` (tests/mod.rs:119-139), with `NL = "\n"`. -/
example : (match dump ⟨false, id⟩ 200 [
      m [(s b!"a", s b!"b"), (s b!"c", l [m [(s b!"d", s b!"e")], m [(s b!"f", m [(s b!"g", s b!"h")])],
        m [(s b!"i", l [s b!"j"])]])],
      l [s b!"a", s b!"b"]] [] with
    | .ok t => t == dumpDoc
    | _ => false) = true := by decide +kernel

/-- `Loader::new` (parser/mod.rs:82-87). -/
example : parses b!"true" [.ofYaml (.bool true)] = true := by decide +kernel

/-- `parse` (parser/mod.rs:501-524). -/
example : parses b!"\n---\nname: Bob\nmarried: true\nage: 46\n"
    [m [(s b!"name", s b!"Bob"), (s b!"married", .ofYaml (.bool true)), (s b!"age", i b!"46")]] = true := by decide +kernel

/-- `parse_cyclic` (parser/mod.rs:532-542). -/
example : (match parseCyclic .exact 200 b!"\n--- &root\nmap: *root\n" with
    | .ok ([n], [[(a, x)]]) => same n (m [(s b!"map", .ofYaml (.alias b!"root"))]) && a == b!"root" && same x n
    | _ => false) = true := by decide +kernel

/-- `struct Member { name: String, married: bool, age: u8 }` of the serde examples. -/
def member : Ty := .struct [(b!"name", .str), (b!"married", .bool), (b!"age", .int .u8)]
def fmt : FloatFmt := ⟨fun _ => [], fun _ => []⟩
def isBob : Val → Bool
  | .struct [(_, .str n), (_, .bool true), (_, .int .u8 a)] => n == b!"Bob" && a == 46
  | _ => false
def bob : Val := .struct [(b!"name", .str b!"Bob"), (b!"married", .bool true), (b!"age", .int .u8 46)]
def bobNode : Node := m [(s b!"name", s b!"Bob"), (s b!"married", .ofYaml (.bool true)), (s b!"age", i b!"46")]

/-- serde/mod.rs:5-25. -/
example : (match de .exact fmt member bobNode with
    | .ok v => isBob v
    | _ => false) = true := by decide +kernel

/-- `from_str` (de.rs:49-71). -/
example : (match fromStr .exact fmt 200 member b!"\n---\nname: Bob\nmarried: true\nage: 46\n" with
    | some (.ok [v]) => isBob v
    | _ => false) = true := by decide +kernel

/-- The position of an error (serde/mod.rs:59-77): type error at 20. -/
example : (match fromStr .exact fmt 200 member b!"\nname: Bob\nmarried: 84\nage: 46\n" with
    | some (.err .invalidType p) => p == 20
    | _ => false) = true := by decide +kernel

/-- `to_node` (ser.rs:82-100). -/
example : (match ser .exact fmt bob with
    | .ok n => same n bobNode
    | _ => false) = true := by decide +kernel

/-- `to_string` (ser.rs:137-155), with `NL = "\n"`. -/
example : (match serToString .exact fmt ⟨false, id⟩ 200 bob with
    | some (.ok t) => t == b!"name: Bob\nmarried: true\nage: 46\n"
    | _ => false) = true := by decide +kernel

/-- `Stringify` (stringify.rs:13-26). -/
example : (match Stringify.de .exact fmt (i b!"20"), Stringify.de .exact fmt (s b!"20%") with
    | .ok v, .ok p => v.toString (fun _ => []) == b!"20" && p.toString (fun _ => []) == b!"20%"
    | _, _ => false) = true := by decide +kernel

/-- `indicated_msg`, `indicated_msg_file` (indicator.rs:6-11, 44-49). -/
example : YamlPeg.indicatedMsg b!"{\"a\": \n[\"b\", \"c\", \"d\"]}" 13 = some b!"2:7\n[\"b\", \"c\", \"d\"]}\n      ^" := by decide +kernel
example : YamlPeg.indicatedMsgFile b!"my/file.yaml" b!"{\"a\": \n[\"b\", \"c\", \"d\"]}" 13 =
    some b!"my/file.yaml:2:7\n[\"b\", \"c\", \"d\"]}\n      ^" := by decide +kernel

/-- `as_*` (node.rs:209-318). -/
example : (i b!"60").asInt = .ok 60 := rfl
example : (s b!"abc").asStr = .ok b!"abc" ∧ null.asStr = .ok [] := ⟨rfl, rfl⟩
example : (.ofYaml (.bool true) : Node).asBool = .ok true := rfl

/-- Indexing (node.rs:63-75): `n[Ind(1)]`, and a panic. -/
example : (match (l [s b!"a", s b!"b", s b!"c"]).indexInd 1 with
    | .ok n => same n (s b!"b")
    | _ => false) = true := by decide +kernel
example : (match null.indexKey .exact (s b!"a") with
    | .panic _ => true
    | _ => false) = true := by decide +kernel

/-- `get` (node.rs:353-360). -/
example : (match (m [(s b!"a", m [(s b!"b", f b!"30")])]).get .exact (s b!"a") with
    | .ok (.ok n) => (match n.get .exact (s b!"b") with
      | .ok (.ok n) => same n (f b!"30")
      | _ => false)
    | _ => false) = true := by decide +kernel

/-- `test_deserialize_f32_from_various_types` (de.rs:600-613), `test_deserialize_f64_from_various_types`
(de.rs:616-629). -/
def isF32 (n : Node) (x : F64) : Bool := match de .exact fmt .f32 n with
  | .ok (.f32 y) => y == x
  | _ => false
def isF64 (n : Node) (x : F64) : Bool := match de .exact fmt .f64 n with
  | .ok (.f64 y) => y == x
  | _ => false
example : isF32 (f b!"3.14") (roundF32 false 314 100) && isF32 (i b!"42") (roundF32 false 42 1) && isF32 (i b!"0") (.fin false 0 0) &&
    isF32 (i b!"-5") (roundF32 true 5 1) = true := by decide +kernel
example : isF64 (f b!"3.14") (roundF64 false 314 100) && isF64 (i b!"42") (roundF64 false 42 1) && isF64 (i b!"0") (.fin false 0 0) &&
    isF64 (i b!"-5") (roundF64 true 5 1) = true := by decide +kernel

/-- `test_deserialize_float_invalid_cases` (de.rs:632-660). -/
example : ([s b!"hello", .ofYaml (.bool true), .ofYaml (.bool false), null].all fun n => match de .exact fmt .f32 n, de .exact fmt .f64 n with
    | .err _ _, .err _ _ => true
    | _, _ => false) = true := by decide +kernel

end YamlPeg.RepoTests
