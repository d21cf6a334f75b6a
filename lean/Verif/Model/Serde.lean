import Verif.Model.Dumper
import Verif.Model.Loader
import Verif.Model.Float32
/-!
# The serde back end (src/serde/*.rs)

`serde` connects a data type's `Serialize`/`Deserialize` code (usually derived)
with a data format.  The format half is this crate's code and is modelled here
method by method.  The data half is represented by a universe of types `Ty` and
values `Val`: for each type, `ser` and `de` make the calls that the impls of
crate `serde` (and its derive macro) make for it.

Not modelled: message texts of errors (only their kind), `Display` of
`f64` (a parameter `FloatFmt`), and borrowing.  `InlineList`, `Optional` and
`Stringify` are `#[serde(untagged)]`: the derive first buffers the node with
`deserialize_any`, then tries one variant after the other on the buffer; the
item type's reader on that buffer (crate `serde`, not this crate) is a parameter.
-/

namespace YamlPeg

/-- What went wrong (`SerdeError.msg`, error.rs:10-21), without the text. -/
inductive SErr where
  /-- `invalid_type` from `unexpected` (de.rs:516-529) or from `VariantAccess` -/
  | invalidType
  /-- too few elements for a tuple or a struct read from a sequence -/
  | invalidLength
  | missingField
  | unknownVariant
  /-- an alias: `anchor {a}` (de.rs:287, ser_node.rs:27) -/
  | anchor
  /-- the document does not parse (de.rs:76) -/
  | parse
  deriving DecidableEq, Repr

/-- `Result<α, SerdeError>` (error.rs:10-21), or a panic. -/
inductive SRes (α : Type) where
  | ok (a : α)
  | err (e : SErr) (pos : Nat)
  | panic (p : Panic)
  deriving DecidableEq, Repr

namespace SRes
/-- The `?` operator. -/
@[inline] def bind {α β : Type} (x : SRes α) (f : α → SRes β) : SRes β :=
  match x with
  | ok a => f a
  | err e p => err e p
  | panic p => panic p
instance : Monad SRes where
  pure := ok
  bind := bind
/-- Results of code that cannot fail with a parser error. -/
def ofOut {α : Type} : Out α → SRes α
  | .ok a => .ok a
  | .err _ => .err .parse 0
  | .panic p => .panic p
  | .diverge => .err .parse 0
@[simp] theorem bind_ok {α β : Type} (a : α) (f : α → SRes β) : (SRes.ok a >>= f) = f a := rfl
@[simp] theorem bind_err {α β : Type} (e : SErr) (p : Nat) (f : α → SRes β) :
    ((SRes.err e p : SRes α) >>= f) = .err e p := rfl
@[simp] theorem bind_panic {α β : Type} (p : Panic) (f : α → SRes β) :
    ((SRes.panic p : SRes α) >>= f) = .panic p := rfl
@[simp] theorem pure_eq {α : Type} (a : α) : (pure a : SRes α) = .ok a := rfl
end SRes

/-- How `f64` and `f32` are printed (`Display`, used by `From<f64>` and `From<f32>` at
yaml.rs:209): only the contract matters here, that the text reads back as the same number.
An `f32` is written as the `f64` of the same value (Model/Float32.lean). -/
structure FloatFmt where
  fmt : F64 → Bytes
  fmt32 : F64 → Bytes

/-- Rust's integer types. -/
inductive IntTy where
  | i8 | i16 | i32 | i64 | i128 | u8 | u16 | u32 | u64 | u128
  deriving DecidableEq, Repr

namespace IntTy
def signed : IntTy → Bool
  | i8 | i16 | i32 | i64 | i128 => true
  | _ => false
def bits : IntTy → Nat
  | i8 | u8 => 8
  | i16 | u16 => 16
  | i32 | u32 => 32
  | i64 | u64 => 64
  | i128 | u128 => 128
/-- The integers of the type. -/
def holds (w : IntTy) (i : Int) : Prop :=
  if w.signed then -(2 ^ (w.bits - 1) : Int) ≤ i ∧ i < 2 ^ (w.bits - 1) else 0 ≤ i ∧ i < 2 ^ w.bits
instance (w : IntTy) (i : Int) : Decidable (w.holds i) := by unfold holds; infer_instance
/-- The `as` cast from `i64`: reduce modulo `2^bits`. -/
def cast (w : IntTy) (i : Int) : Int :=
  if w.signed then Int.bmod i (2 ^ w.bits) else Int.emod i (2 ^ w.bits)
end IntTy

mutual
/-- The types of the serde data model. -/
inductive Ty where
  | bool
  | int (w : IntTy)
  | f64
  | f32
  | char
  /-- `String` -/
  | str
  /-- `ByteBuf` -/
  | bytes
  /-- `()` and unit structs -/
  | unit
  | option (t : Ty)
  /-- `Vec<T>` -/
  | seq (t : Ty)
  /-- tuples, and tuple structs of two or more fields -/
  | tuple (ts : List Ty)
  /-- a map type; a value is the list of entries in iteration order -/
  | map (k v : Ty)
  /-- `struct N(T)` -/
  | newtype (t : Ty)
  | struct (fields : List (Bytes × Ty))
  | enum (variants : List (Bytes × VTy))
  /-- `Node` -/
  | node
/-- The payload of an enum variant. -/
inductive VTy where
  | unit
  | newtype (t : Ty)
  | tuple (ts : List Ty)
  | struct (fields : List (Bytes × Ty))
end

mutual
/-- Values of the serde data model. -/
inductive Val where
  | bool (v : Bool)
  | int (w : IntTy) (i : Int)
  | f64 (x : F64)
  | f32 (x : F64)
  | char (c : Char)
  | str (s : Bytes)
  | bytes (s : Bytes)
  | unit
  | none
  | some (v : Val)
  | seq (vs : List Val)
  | tuple (vs : List Val)
  | map (es : List (Val × Val))
  | newtype (v : Val)
  | struct (fs : List (Bytes × Val))
  | variant (name : Bytes) (p : VVal)
  | node (n : Node)
/-- The payload of an enum value. -/
inductive VVal where
  | unit
  | newtype (v : Val)
  | tuple (vs : List Val)
  | struct (fs : List (Bytes × Val))
end

/-! ## Serializing (ser.rs, ser_node.rs) -/

/-- `Node::from(v)` for a string (yaml.rs:207). -/
def strNode (s : Bytes) : Node := .ofYaml (.str s)

section
variable (h : HashCfg) (f : FloatFmt)

/-- `map.insert(k, v)`. -/
def serInsert (m : List (Node × Node)) (k v : Node) : SRes (List (Node × Node)) :=
  .ofOut (entriesInsert h m k v)

mutual
/-- `Serialize for Node` (ser_node.rs:8-30) into `NodeSerializer`. -/
def serNode : Node → SRes Node
  | .mk _ _ y => serYaml y

def serYaml : Yaml → SRes Node
  | .null => .ok (.ofYaml .null)
  | .bool v => .ok (.ofYaml (.bool v))
  | .int s => match toI64 s with
    | some i => .ok (.ofYaml (.int (intDec i)))
    | none => .panic .intUnwrap
  | .float s => match toF64 s with
    | some x => .ok (.ofYaml (.float (f.fmt x)))
    | none => .panic .floatUnwrap
  | .str s => .ok (strNode s)
  | .seq l => do return .ofYaml (.seq (← serNodes l))
  | .map l => do return .ofYaml (.map (← serNodeEntries [] l))
  | .alias _ => .err .anchor 0

def serNodes : List Node → SRes (List Node)
  | [] => .ok []
  | n :: r => do
    let x ← serNode n
    return x :: (← serNodes r)

/-- `serialize_entry` for each entry (ser_node.rs:21-24, ser.rs:348-357). -/
def serNodeEntries (acc : List (Node × Node)) : List (Node × Node) → SRes (List (Node × Node))
  | [] => .ok acc
  | e :: r => do
    let (k, v) ← serNodeEntry e
    serNodeEntries (← serInsert h acc k v) r

def serNodeEntry : Node × Node → SRes (Node × Node)
  | (k, v) => do
    let a ← serNode k
    return (a, ← serNode v)
end

mutual
/-- `to_node`/`to_arc_node` (ser.rs:104-106, 131-133): `Serialize for T` driving
`NodeSerializer` (ser.rs:160-303). -/
def ser : Val → SRes Node
  | .bool v => .ok (.ofYaml (.bool v))
  | .int _ i => .ok (.ofYaml (.int (intDec i)))
  | .f64 x => .ok (.ofYaml (.float (f.fmt x)))
  | .f32 x => .ok (.ofYaml (.float (f.fmt32 x)))
  | .char c => .ok (strNode (String.utf8EncodeChar c))
  | .str s => .ok (strNode s)
  -- ser.rs:202-207
  | .bytes s => .ok (.ofYaml (.seq (s.map fun c => .ofYaml (.int (natDec c.toNat)))))
  | .unit => .ok (.ofYaml .null)
  | .none => .ok (.ofYaml .null)
  | .some v => ser v
  | .seq vs => do return .ofYaml (.seq (← serList vs))
  | .tuple vs => do return .ofYaml (.seq (← serList vs))
  | .map es => do return .ofYaml (.map (← serEntries [] es))
  | .newtype v => ser v
  | .struct fs => do return .ofYaml (.map (← serFields [] fs))
  -- ser.rs:213-220, 233-244, 27-29
  | .variant name .unit => .ok (strNode name)
  | .variant name p => do return .ofYaml (.map [(strNode name, ← serPayload p)])
  | .node n => serNode h f n

/-- The payload of a variant that has one (ser.rs:233-302). -/
def serPayload : VVal → SRes Node
  | .unit => .ok (.ofYaml .null)
  | .newtype v => ser v
  | .tuple vs => do return .ofYaml (.seq (← serList vs))
  | .struct fs => do return .ofYaml (.map (← serFields [] fs))

/-- `SeqSerializer`, `TupleVariant` (ser.rs:32-51, 305-316). -/
def serList : List Val → SRes (List Node)
  | [] => .ok []
  | v :: r => do
    let x ← ser v
    return x :: (← serList r)

/-- `MapSerializer` (ser.rs:323-362). -/
def serEntries (acc : List (Node × Node)) : List (Val × Val) → SRes (List (Node × Node))
  | [] => .ok acc
  | e :: r => do
    let (k, v) ← serEntry e
    serEntries (← serInsert h acc k v) r

def serEntry : Val × Val → SRes (Node × Node)
  | (k, v) => do
    let a ← ser k
    return (a, ← ser v)

/-- `StructSerializer`, `StructVariant` (ser.rs:53-75, 318-321). -/
def serFields (acc : List (Node × Node)) : List (Bytes × Val) → SRes (List (Node × Node))
  | [] => .ok acc
  | e :: r => do
    let v ← serField e
    serFields (← serInsert h acc (strNode e.1) v) r

def serField : Bytes × Val → SRes Node
  | (_, v) => ser v
end

/-! ## Deserializing (de.rs) -/

/-- `unexpected(node, exp)` (de.rs:516-529): the error itself reads the number. -/
def unexpected {α : Type} (n : Node) : SRes α :=
  match n.yaml with
  | .int s => if (toI64 s).isSome then .err .invalidType n.pos else .panic .intUnwrap
  | .float s => if (toF64 s).isSome then .err .invalidType n.pos else .panic .floatUnwrap
  | _ => .err .invalidType n.pos

mutual
/-- `Node::deserialize` (de.rs:263-270): `deserialize_any` (de.rs:275-289) with
`NodeVisitor` (de.rs:80-127). -/
def deNode : Node → SRes Node
  | .mk p _ y => deYaml p y

def deYaml (p : Nat) : Yaml → SRes Node
  | .null => .ok (.ofYaml .null)
  | .bool v => .ok (.ofYaml (.bool v))
  | .int s => match toI64 s with
    | some i => .ok (.ofYaml (.int (intDec i)))
    | none => .panic .intUnwrap
  | .float s => match toF64 s with
    | some x => .ok (.ofYaml (.float (f.fmt x)))
    | none => .panic .floatUnwrap
  | .str s => .ok (strNode s)
  | .seq l => do return .ofYaml (.seq (← deNodes l))
  -- inserted one by one, then collected into a map again (de.rs:117-126)
  | .map l => do
    let m ← deNodeEntries [] l
    return .ofYaml (.map (← .ofOut (entriesCollect h [] m)))
  | .alias _ => .err .anchor p

def deNodes : List Node → SRes (List Node)
  | [] => .ok []
  | n :: r => do
    let x ← deNode n
    return x :: (← deNodes r)

def deNodeEntries (acc : List (Node × Node)) : List (Node × Node) → SRes (List (Node × Node))
  | [] => .ok acc
  | e :: r => do
    let (k, v) ← deNodeEntry e
    deNodeEntries (← serInsert h acc k v) r

def deNodeEntry : Node × Node → SRes (Node × Node)
  | (k, v) => do
    let a ← deNode k
    return (a, ← deNode v)
end

/-- `deserialize_i8` … `deserialize_u128` (de.rs:291-311): read an `i64`, then
cast with `as`. -/
def deInt (w : IntTy) (n : Node) : SRes Val :=
  match n.yaml with
  | .int s => match toI64 s with
    | some i => .ok (.int w (w.cast i))
    | none => .panic .intUnwrap
  | _ => unexpected n

/-- `SeqVisitor` (de.rs:129-149) read to its end, as `Vec<T>` does. -/
def deSeq (g : Node → SRes Val) : List Node → SRes (List Val)
  | [] => .ok []
  | n :: r => do
    let x ← g n
    return x :: (← deSeq g r)

/-- `MapVisitor` (de.rs:151-184) read to its end: the entries handed to the
target map. -/
def deMap (gk gv : Node → SRes Val) : List (Node × Node) → SRes (List (Val × Val))
  | [] => .ok []
  | (k, v) :: r => do
    let a ← gk k
    let b ← gv v
    return (a, b) :: (← deMap gk gv r)

/-- `SeqVisitor` read by a derived tuple or struct visitor: exactly one element
per component; what is left over is not looked at. -/
def deTuple : List (Node → SRes Val) → List Node → SRes (List Val)
  | [], _ => .ok []
  | _ :: _, [] => .err .invalidLength 0
  | g :: gs, n :: r => do
    let x ← g n
    return x :: (← deTuple gs r)

/-- `deserialize_identifier` (de.rs:303). -/
def deIdent (n : Node) : SRes Bytes :=
  match n.yaml with
  | .str s => .ok s
  | _ => unexpected n

/-- A field's name, whether it may be missing (its type is `Option`), and how to
read it. -/
structure DeField where
  name : Bytes
  optional : Bool
  read : Node → SRes Val

/-- Derived `visit_map` of a struct: read the known fields as they come, skip
unknown ones (`deserialize_ignored_any`, de.rs:508-513). The keys of a map are
distinct, so the derived check for duplicate fields never fires. -/
def deFieldLoop (fs : List DeField) : List (Node × Node) → SRes (List (Bytes × Val))
  | [] => .ok []
  | (k, v) :: r => do
    let name ← deIdent k
    match fs.find? (fun x => x.name == name) with
    | some x => do
      let a ← x.read v
      return (name, a) :: (← deFieldLoop fs r)
    | none => deFieldLoop fs r

/-- Put the read fields in declaration order; missing `Option`s are `None`. -/
def deFieldFill (got : List (Bytes × Val)) : List DeField → SRes (List (Bytes × Val))
  | [] => .ok []
  | x :: r =>
    match mapGet x.name got with
    | some a => do return (x.name, a) :: (← deFieldFill got r)
    | none =>
      if x.optional then do return (x.name, .none) :: (← deFieldFill got r)
      else .err .missingField 0

/-- A struct from a map. -/
def deStructMap (fs : List DeField) (m : List (Node × Node)) : SRes Val := do
  let got ← deFieldLoop fs m
  return .struct (← deFieldFill got fs)

/-- A struct from a sequence (derived `visit_seq`). -/
def deStructSeq (fs : List DeField) (l : List Node) : SRes Val := do
  let vs ← deTuple (fs.map (·.read)) l
  return .struct ((fs.map (·.name)).zip vs)

/-- Only `Option` types have a value for a missing field. -/
def Ty.isOption : Ty → Bool
  | .option _ => true
  | _ => false

/-- A variant's name and how to read its payload. -/
structure DeVariant where
  name : Bytes
  read : Option Node → SRes VVal

/-- `visit_enum` of a derived enum on `EnumVisitor` (de.rs:186-199, 482-506):
the variant's name and its payload. -/
def deEnum (vs : List DeVariant) (k : Node) (p : Option Node) : SRes Val := do
  let name ← deIdent k
  match vs.find? (fun x => x.name == name) with
  | some x => do return .variant name (← x.read p)
  | none => .err .unknownVariant 0

mutual
/-- `T::deserialize(node)`: `Deserialize for T` driving `Deserializer for Node`
(de.rs:272-514). -/
def de : Ty → Node → SRes Val
  | .bool, n => match n.yaml with
    | .bool v => .ok (.bool v)
    | _ => unexpected n
  | .int w, n => deInt w n
  | .f64, n => match n.yaml with
    | .float s => match toF64 s with
      | some x => .ok (.f64 x)
      | none => .panic .floatUnwrap
    | .int s => match toI64 s with
      | some i => .ok (.f64 (Node.f64OfInt i))
      | none => .panic .intUnwrap
    | _ => unexpected n
  -- de.rs:341-350
  | .f32, n => match n.yaml with
    | .float s => match toF64 s with
      | some x => .ok (.f32 x.toF32)
      | none => .panic .floatUnwrap
    | .int s => match toI64 s with
      | some i => .ok (.f32 (f32OfInt i))
      | none => .panic .intUnwrap
    | _ => unexpected n
  | .char, n => match n.yaml with
    | .str [c] => .ok (.char (Char.ofNat c.toNat))
    | .int [c] => .ok (.char (Char.ofNat c.toNat))
    | _ => unexpected n
  | .str, n => match n.yaml with
    | .str s => .ok (.str s)
    | .int s => .ok (.str s)
    | .float s => .ok (.str s)
    | .bool v => .ok (.str (if v then b!"true" else b!"false"))
    | .null => .ok (.str b!"null")
    | _ => unexpected n
  | .bytes, n => match n.yaml with
    | .str s => .ok (.bytes s)
    | .seq l => do
      let vs ← deSeq (deInt .u8) l
      return .bytes (vs.map fun
        | .int _ i => i.toNat.toUInt8
        | _ => 0)
    | _ => unexpected n
  | .unit, n => match n.yaml with
    | .null => .ok .unit
    | _ => unexpected n
  | .option t, n => match n.yaml with
    | .null => .ok .none
    | _ => do return .some (← de t n)
  | .seq t, n => match n.yaml with
    | .seq l => do return .seq (← deSeq (de t) l)
    | _ => unexpected n
  | .tuple ts, n => match n.yaml with
    | .seq l => do return .tuple (← deTuple (deAll ts) l)
    | _ => unexpected n
  | .map tk tv, n => match n.yaml with
    | .map m => do return .map (← deMap (de tk) (de tv) m)
    | _ => unexpected n
  | .newtype t, n => do return .newtype (← de t n)
  | .struct fs, n => match n.yaml with
    | .seq l => deStructSeq (deFields fs) l
    | .map m => deStructMap (deFields fs) m
    | _ => unexpected n
  | .enum vs, n => match n.yaml with
    | .map [(k, v)] => deEnum (deVariants vs) k (some v)
    | .str _ => deEnum (deVariants vs) n none
    | _ => unexpected n
  | .node, n => do return .node (← deNode h f n)

/-- The readers of a tuple's components. -/
def deAll : List Ty → List (Node → SRes Val)
  | [] => []
  | t :: r => de t :: deAll r

/-- The readers of a struct's fields. -/
def deFields : List (Bytes × Ty) → List DeField
  | [] => []
  | e :: r => deField e :: deFields r

def deField : Bytes × Ty → DeField
  | (name, t) => ⟨name, t.isOption, de t⟩

/-- The readers of an enum's variants. -/
def deVariants : List (Bytes × VTy) → List DeVariant
  | [] => []
  | e :: r => deVariant e :: deVariants r

def deVariant : Bytes × VTy → DeVariant
  | (name, p) => ⟨name, dePayload p⟩

/-- `VariantVisitor` (de.rs:201-261). -/
def dePayload : VTy → Option Node → SRes VVal
  | .unit, none => .ok .unit
  | .unit, some n => match n.yaml with
    | .null => .ok .unit
    | _ => unexpected n
  | .newtype _, none => .err .invalidType 0
  | .newtype t, some n => do return .newtype (← de t n)
  | .tuple _, none => .err .invalidType 0
  | .tuple ts, some n => match n.yaml with
    | .seq l => do return .tuple (← deTuple (deAll ts) l)
    | _ => unexpected n
  | .struct _, none => .err .invalidType 0
  | .struct fs, some n => match n.yaml with
    | .map m => do
      match ← deStructMap (deFields fs) m with
      | .struct x => return .struct x
      | _ => .panic .unreachable
    | _ => unexpected n
end

/-- `root.into_iter().map(D::deserialize).collect()` (de.rs:77). -/
def deDocs (t : Ty) : List Node → SRes (List Val)
  | [] => .ok []
  | n :: r => do
    let x ← de h f t n
    return x :: (← deDocs t r)

end

/-- `from_str` (de.rs:72-78). `none`: `parse` does not return. -/
def fromStr (h : HashCfg) (f : FloatFmt) (fuel : Nat) (t : Ty) (doc : Bytes) : Option (SRes (List Val)) :=
  match parse h fuel doc with
  | .ok ns => some (deDocs h f t ns)
  | .err _ => some (.err .parse 0)
  | .panic p => some (.panic p)
  | .diverge => none

/-- `to_string` (ser.rs:156-158). `none`: `dump` does not return. `dump` has no
errors of its own (the third case cannot occur). -/
def serToString (h : HashCfg) (f : FloatFmt) (cfg : DumpCfg) (fuel : Nat) (v : Val) : Option (SRes Bytes) :=
  match ser h f v with
  | .ok n => match dump cfg fuel [n] [] with
    | .ok text => some (.ok text)
    | .panic p => some (.panic p)
    | .err _ => some (.err .parse 0)
    | .diverge => none
  | .err e p => some (.err e p)
  | .panic p => some (.panic p)

/-! ## `InlineList` (inline_list.rs) -/

/-- `InlineList<T>` (inline_list.rs:38-43). -/
inductive InlineList (T : Type) where
  | list (v : List T)
  | inline (e : T)

namespace InlineList
variable {T : Type}
/-- `iter` (inline_list.rs:47-52): the items it yields. -/
def iter : InlineList T → List T
  | list v => v
  | inline e => [e]
/-- `len` (inline_list.rs:55-60). -/
def len : InlineList T → Nat
  | list v => v.length
  | inline _ => 1
/-- `is_empty` (inline_list.rs:63-68). -/
def isEmpty : InlineList T → Bool
  | list v => v.isEmpty
  | inline _ => false
/-- `is_single` (inline_list.rs:71-76). -/
def isSingle : InlineList T → Bool
  | list v => v.length == 1
  | inline _ => true
/-- `into_iter` (inline_list.rs:83-88). -/
def intoIter : InlineList T → List T
  | list v => v
  | inline e => [e]
/-- `default` (inline_list.rs:92-94). -/
def default : InlineList T := list []
end InlineList

/-- The buffering step of an untagged enum: `deserialize_any` over the whole node
(de.rs:275-289), which only fails on aliases (and panics on unreadable numbers). -/
def bufferNode (h : HashCfg) (f : FloatFmt) (n : Node) : SRes Unit := do
  let _ ← deNode h f n
  return ()

/-- `Vec<T>::deserialize` on a buffered sequence. -/
def allOk {T : Type} (g : Node → Option T) : List Node → Option (List T)
  | [] => some []
  | n :: r => match g n with
    | none => none
    | some x => (allOk g r).map (x :: ·)

/-- `Deserialize for InlineList<T>` (derive, inline_list.rs:36-37). `g` reads a `T`
from the buffer. -/
def InlineList.de {T : Type} (h : HashCfg) (f : FloatFmt) (g : Node → Option T) (n : Node) :
    SRes (InlineList T) := do
  bufferNode h f n
  match n.yaml with
  | .seq l => match allOk g l with
    | some v => .ok (.list v)
    | none => match g n with
      | some e => .ok (.inline e)
      | none => .err .invalidType 0
  | _ => match g n with
    | some e => .ok (.inline e)
    | none => .err .invalidType 0

/-! ## `Optional` (optional.rs) -/

/-- `Optional<T>` (optional.rs:42-47). -/
inductive Optional (T : Type) where
  | bool (v : Bool)
  | some (t : T)

namespace Optional
variable {T R : Type} {σ : Type}
/-- `ok` (optional.rs:59-68); `d` is `T::default()`. The callback is a state
transformer (`FnMut`). -/
def ok (d : T) (x : Optional T) (f : T → σ → σ) (s : σ) : σ :=
  match x with
  | bool false => s
  | bool true => f d s
  | some t => f t s
/-- `ok_instead` (optional.rs:71-77). -/
def okInstead (x : Optional T) (f : T → σ → σ) (d : T) (s : σ) : σ :=
  match x with
  | bool false => s
  | bool true => f d s
  | some t => f t s
/-- `ok_or` (optional.rs:83-94). Both callbacks may change the state and return a value. -/
def okOr (d : T) (x : Optional T) (f : T → σ → R × σ) (g : σ → R × σ) (s : σ) : R × σ :=
  match x with
  | bool false => g s
  | bool true => f d s
  | some t => f t s
/-- `ok_or_instead` (optional.rs:97-107). -/
def okOrInstead (x : Optional T) (f : T → σ → R × σ) (d : T) (g : σ → R × σ) (s : σ) : R × σ :=
  match x with
  | bool false => g s
  | bool true => f d s
  | some t => f t s
/-- `default` (optional.rs:49-53). -/
def default : Optional T := bool true
end Optional

/-- `Deserialize for Optional<T>` (derive, optional.rs:40-41). -/
def Optional.de {T : Type} (h : HashCfg) (f : FloatFmt) (g : Node → Option T) (n : Node) :
    SRes (Optional T) := do
  bufferNode h f n
  match n.yaml with
  | .bool v => .ok (.bool v)
  | _ => match g n with
    | .some e => .ok (.some e)
    | .none => .err .invalidType 0

/-! ## `Stringify` (stringify.rs) -/

/-- `Stringify` (stringify.rs:30-39). The `f32` is written as the `f64` of the same value. -/
inductive Stringify where
  | bool (v : Bool)
  | int (i : Int)
  | float (x : F64)
  | str (s : Bytes)

/-- `Deserialize for Stringify` (derive, stringify.rs:28-29): an integer outside
`i32` is no `i32`, but is accepted as an `f32`. -/
def Stringify.de (h : HashCfg) (f : FloatFmt) (n : Node) : SRes Stringify := do
  bufferNode h f n
  match n.yaml with
  | .bool v => .ok (.bool v)
  | .int s => match toI64 s with
    | some i => if IntTy.i32.holds i then .ok (.int i) else .ok (.float (f32OfInt i))
    | none => .panic .intUnwrap
  | .float s => match toF64 s with
    | some x => .ok (.float x.toF32)
    | none => .panic .floatUnwrap
  | .str s => .ok (.str s)
  | _ => .err .invalidType 0

/-- `Display for Stringify` (stringify.rs:41-51); `g` is `Display for f32`. -/
def Stringify.toString (g : F64 → Bytes) : Stringify → Bytes
  | .bool true => b!"true"
  | .bool false => b!"false"
  | .int i => intDec i
  | .float x => g x
  | .str s => s

/-- `Serialize for Stringify` (derive, untagged, stringify.rs:28-29): the payload. -/
def Stringify.ser (h : HashCfg) (f : FloatFmt) : Stringify → SRes Node
  | .bool v => YamlPeg.ser h f (.bool v)
  | .int i => YamlPeg.ser h f (.int .i32 i)
  | .float x => YamlPeg.ser h f (.f32 x)
  | .str s => YamlPeg.ser h f (.str s)

/-- `Default for Stringify` (stringify.rs:53-57). -/
def Stringify.default : Stringify := .str []

end YamlPeg
