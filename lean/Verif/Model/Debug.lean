import Verif.Model.Dumper
/-!
# What `{:?}` prints (src/yaml.rs, src/node.rs, src/parser/error.rs, src/serde/error.rs)

The compact form `{:?}` and the indented form `{:#?}`.  `debug_tuple`, `debug_list`,
`debug_map` and `debug_struct` are those of `core::fmt`: in the compact form fields are
separated by `, `; in the indented form every field stands on lines of its own, each
indented by four blanks and the last one ending in a comma.  `Rc<T>` and `Arc<T>` print
as `T`.
-/

namespace YamlPeg

/-- `debug_tuple(name).field(x).finish()` with one field. -/
def debugTuple (name field : Bytes) : Bytes := name ++ b!"(" ++ field ++ b!")"

mutual
/-- `impl Debug for Node` (node.rs:447-451): position and tag are not shown. -/
def Node.debug (cfg : DumpCfg) : Node → Bytes
  | .mk _ _ y => b!"Node" ++ y.debug cfg

/-- `impl Debug for Yaml` (yaml.rs:102-115). -/
def Yaml.debug (cfg : DumpCfg) : Yaml → Bytes
  | .null => b!"Null"
  | .bool v => debugTuple b!"Bool" (if v then b!"true" else b!"false")
  | .int s => debugTuple b!"Int" (debugStr cfg s)
  | .float s => debugTuple b!"Float" (debugStr cfg s)
  | .str s => debugTuple b!"Str" (debugStr cfg s)
  | .seq l => debugTuple b!"Seq" (b!"[" ++ debugItems cfg false l ++ b!"]")
  | .map m => debugTuple b!"Map" (b!"{" ++ debugEntries cfg false m ++ b!"}")
  | .alias a => debugTuple b!"Alias" (debugStr cfg a)

/-- `debug_list().entries(..)`: `has` says whether an entry was written before. -/
def debugItems (cfg : DumpCfg) (has : Bool) : List Node → Bytes
  | [] => []
  | x :: xs => (if has then b!", " else []) ++ x.debug cfg ++ debugItems cfg true xs

/-- `debug_map().entries(..)` (crate `ritelinked`, in iteration order). -/
def debugEntries (cfg : DumpCfg) (has : Bool) : List (Node × Node) → Bytes
  | [] => []
  | e :: es => (if has then b!", " else []) ++ debugEntry cfg e ++ debugEntries cfg true es

/-- One entry of a `debug_map`. -/
def debugEntry (cfg : DumpCfg) : Node × Node → Bytes
  | (k, v) => k.debug cfg ++ b!": " ++ v.debug cfg
end

/-- `derive(Debug)` of `PError` (parser/error.rs:10-21). -/
def PErr.debug (cfg : DumpCfg) : PErr → Bytes
  | .mismatch => b!"Mismatch"
  | .terminate name msg =>
    b!"Terminate { name: " ++ debugStr cfg name.toUTF8.toList ++ b!", msg: " ++ debugStr cfg msg ++ b!" }"

/-- `derive(Debug)` and `Display` of `SerdeError` (serde/error.rs:9-18, 33-37), given its
two fields. -/
def serdeErrorText (cfg : DumpCfg) (msg : Bytes) (pos : Nat) : Bytes :=
  b!"SerdeError { msg: " ++ debugStr cfg msg ++ b!", pos: " ++ natDec pos ++ b!" }"

/-! ## `{:#?}` -/

/-- `PadAdapter` of `core::fmt`: four blanks in front of every line; `nl` says whether the
next byte begins a line. -/
def padLines (nl : Bool) : Bytes → Bytes
  | [] => []
  | c :: r => (if nl then b!"    " else []) ++ c :: padLines (c == 0x0A) r

/-- One field, item or entry in the indented form, with its comma. -/
def altField (x : Bytes) : Bytes := padLines true (x ++ b!",\n")

/-- `debug_tuple(name).field(x).finish()` in the indented form. -/
def debugTupleAlt (name field : Bytes) : Bytes := name ++ b!"(\n" ++ altField field ++ b!")"

/-- `debug_list().entries(..)` and `debug_map().entries(..)` in the indented form, given the
texts of the items: `[` and `]` or `{` and `}` alone if there are none. -/
def debugSetAlt (o c : Bytes) (items : List Bytes) : Bytes :=
  o ++ (if items.isEmpty then [] else b!"\n") ++ (items.map altField).flatten ++ c

/-- `{:#?}` of a `Node` (node.rs:447-451): `write!(f, "Node{:?}", ..)` formats the content
with the flags of its own format string, so nothing is indented here. -/
def Node.debugAlt (cfg : DumpCfg) (n : Node) : Bytes := b!"Node" ++ n.yaml.debug cfg

/-- `{:#?}` of a `Yaml` (yaml.rs:102-115). -/
def Yaml.debugAlt (cfg : DumpCfg) : Yaml → Bytes
  | .null => b!"Null"
  | .bool v => debugTupleAlt b!"Bool" (if v then b!"true" else b!"false")
  | .int s => debugTupleAlt b!"Int" (debugStr cfg s)
  | .float s => debugTupleAlt b!"Float" (debugStr cfg s)
  | .str s => debugTupleAlt b!"Str" (debugStr cfg s)
  | .seq l => debugTupleAlt b!"Seq" (debugSetAlt b!"[" b!"]" (l.map fun n => n.debugAlt cfg))
  | .map m => debugTupleAlt b!"Map"
      (debugSetAlt b!"{" b!"}" (m.map fun e => e.1.debugAlt cfg ++ b!": " ++ e.2.debugAlt cfg))
  | .alias a => debugTupleAlt b!"Alias" (debugStr cfg a)

/-- `derive(Debug)` of `PError` in the indented form (parser/error.rs:10-21). -/
def PErr.debugAlt (cfg : DumpCfg) : PErr → Bytes
  | .mismatch => b!"Mismatch"
  | .terminate name msg =>
    b!"Terminate {\n" ++ altField (b!"name: " ++ debugStr cfg name.toUTF8.toList) ++
      altField (b!"msg: " ++ debugStr cfg msg) ++ b!"}"

/-- `{:#?}` and `{:#}` of `SerdeError` (serde/error.rs:9-18, 33-37: `Display` hands its
formatter, and so its flags, to `Debug`). -/
def serdeErrorTextAlt (cfg : DumpCfg) (msg : Bytes) (pos : Nat) : Bytes :=
  b!"SerdeError {\n" ++ altField (b!"msg: " ++ debugStr cfg msg) ++ altField (b!"pos: " ++ natDec pos) ++ b!"}"

end YamlPeg
