import Verif.Model.Number
import Verif.Model.Parser
/-!
# `Yaml`, `Node`, `Map` (src/yaml.rs, src/node.rs)

`Node<R>` is generic over the reference counter (`Rc`/`Arc`); cloning a node
shares its data.  Nodes are immutable, so the model uses plain values and is
the same for both representations.  One observable difference is dropped: in
Rust `Rc::eq` first compares pointers, so comparing a node with a *clone of
itself* never looks at the data.  Where the data comparison does not panic,
both give the same answer (see `Node.eq?_refl`).
-/

namespace YamlPeg

mutual
/-- `Node` (node.rs:116-121): position, tag text, data. -/
inductive Node where
  | mk (pos : Nat) (tag : Bytes) (yaml : Yaml)

/-- `Yaml` (yaml.rs:83-100).  A map is the list of its entries in iteration
order. -/
inductive Yaml where
  | null
  | bool (v : Bool)
  | int (s : Bytes)
  | float (s : Bytes)
  | str (s : Bytes)
  | seq (items : List Node)
  | map (entries : List (Node × Node))
  | alias (a : Bytes)
end

instance : Inhabited Yaml := ⟨.null⟩
instance : Inhabited Node := ⟨.mk 0 [] .null⟩

namespace Node

/-- `Node::pos` (node.rs:149-151). -/
def pos : Node → Nat
  | mk p _ _ => p
/-- The private field `tag` (node.rs:118). -/
def rawTag : Node → Bytes
  | mk _ t _ => t
/-- `Node::yaml` (node.rs:175-177). -/
def yaml : Node → Yaml
  | mk _ _ y => y

/-- `Node::new`/`Node::new_repr` (node.rs:125-137). -/
def new (y : Yaml) (pos : Nat) (tag : Bytes) : Node := mk pos tag y

/-- `Node::from` (node.rs:509-517). -/
def ofYaml (y : Yaml) : Node := mk 0 [] y

end Node

/-! ## Conversions (yaml.rs:192-227, node.rs:509-522)

The conversions from `f32`/`f64` are not modelled (`Display` of floats). -/

/-- `From<()>` (yaml.rs:194-198). -/
def Yaml.ofUnit : Yaml := .null
/-- `From<bool>` (yaml.rs:200-204). -/
def Yaml.ofBool (v : Bool) : Yaml := .bool v
/-- `From<&str>`, `From<String>`, `From<char>` (yaml.rs:12-20, 207). -/
def Yaml.ofStr (s : Bytes) : Yaml := .str s
/-- `From` of every integer type: `to_string()` (yaml.rs:12-20, 208). -/
def Yaml.ofInt (i : Int) : Yaml := .int (intDec i)
/-- `From<Seq>` and `FromIterator<Node>` (yaml.rs:22-31, 212-216, 225). -/
def Yaml.ofSeq (l : List Node) : Yaml := .seq l

/-! ## Equality (yaml.rs:168-192, node.rs:469-473)

`none` models the panic of `to_i64(..).unwrap()`; comparison of numbers looks
at the numeric value, not at the text. -/

/-- Comparison of two `Int` texts (yaml.rs:173). -/
def intEq? (s1 s2 : Bytes) : Out Bool :=
  match toI64 s1 with
  | none => .panic .intUnwrap
  | some a => match toI64 s2 with
    | none => .panic .intUnwrap
    | some c => .ok (a == c)

/-- Comparison of two `Float` texts (yaml.rs:174-182). -/
def floatEq? (s1 s2 : Bytes) : Out Bool :=
  match toF64 s1 with
  | none => .panic .floatUnwrap
  | some a => match toF64 s2 with
    | none => .panic .floatUnwrap
    | some c => .ok (if a.isNan && c.isNan then true else a.ieeeEq c)

/-- Lazy conjunction of two comparisons: the right one is only evaluated when
the left one answered `true`. -/
def Out.andThen (x : Out Bool) (y : Out Bool) : Out Bool :=
  match x with
  | .ok true => y
  | r => r

mutual
/-- `Node::eq` (node.rs:469-473): position and tag are ignored. -/
def Node.eq? : Node → Node → Out Bool
  | .mk _ _ y1, .mk _ _ y2 => Yaml.eq? y1 y2
termination_by structural x => x

/-- `Yaml::eq` (yaml.rs:168-190). -/
def Yaml.eq? : Yaml → Yaml → Out Bool
  | .null, .null => .ok true
  | .bool b1, .bool b2 => .ok (b1 == b2)
  | .int s1, .int s2 => intEq? s1 s2
  | .float s1, .float s2 => floatEq? s1 s2
  | .str s1, .str s2 => .ok (s1 == s2)
  | .seq s1, .seq s2 => if s1.length = s2.length then nodesEq? s1 s2 else .ok false
  | .map m1, .map m2 => if m1.length = m2.length then entriesEq? m1 m2 else .ok false
  | .alias a1, .alias a2 => .ok (a1 == a2)
  | _, _ => .ok false
termination_by structural x => x

/-- Element-wise comparison of `Vec<Node>`. -/
def nodesEq? : List Node → List Node → Out Bool
  | [], [] => .ok true
  | x :: xs, y :: ys => (Node.eq? x y).andThen (nodesEq? xs ys)
  | _, _ => .ok false
termination_by structural x => x

/-- Entry-wise comparison of `LinkedHashMap`s: `self.iter().eq(other)`, that
is, in iteration order (crate `ritelinked`). -/
def entriesEq? : List (Node × Node) → List (Node × Node) → Out Bool
  | [], [] => .ok true
  | x :: xs, y :: ys => (entryEq? x y).andThen (entriesEq? xs ys)
  | _, _ => .ok false
termination_by structural x => x

/-- Comparison of two `(&Node, &Node)` tuples. -/
def entryEq? : Node × Node → Node × Node → Out Bool
  | (k1, v1), (k2, v2) => (Node.eq? k1 k2).andThen (Node.eq? v1 v2)
termination_by structural x => x
end

/-! ## Hashing (yaml.rs:132-166, node.rs:463-467) -/

/-- What is written to the `Hasher`. -/
inductive HTok where
  | u8 (n : UInt8)
  | len (n : Nat)
  | str (s : Bytes)
  deriving DecidableEq, Repr

mutual
/-- `Node::hash` (node.rs:463-467). -/
def Node.hashStream : Node → List HTok
  | .mk _ _ y => Yaml.hashStream y

/-- `Yaml::hash` (yaml.rs:132-166). -/
def Yaml.hashStream : Yaml → List HTok
  | .null => [.u8 1]
  | .bool v => [.u8 2, .u8 (if v then 1 else 0)]
  | .int s => [.u8 3, .str s]
  | .float s => [.u8 4, .str s]
  | .str s => [.u8 5, .str s]
  | .seq v => .u8 6 :: .len v.length :: nodesStream v
  | .map m => .u8 7 :: entriesStream m
  | .alias a => [.u8 8, .str a]

/-- `Vec<Node>::hash` without the length prefix. -/
def nodesStream : List Node → List HTok
  | [] => []
  | n :: r => Node.hashStream n ++ nodesStream r

/-- `LinkedHashMap::hash`: every entry in order (crate `ritelinked`). -/
def entriesStream : List (Node × Node) → List HTok
  | [] => []
  | e :: r => entryStream e ++ entriesStream r

/-- Hash of a `(&Node, &Node)` tuple. -/
def entryStream : Node × Node → List HTok
  | (k, v) => Node.hashStream k ++ Node.hashStream v
end

/-- The hash table's randomness.  `probe a c` says whether a lookup with hash
stream `a` gets to compare keys with an entry whose hash stream is `c`.  Equal
streams always do; different streams may or may not, depending on the random
seed of the hasher and on collisions. -/
structure HashCfg where
  probe : List HTok → List HTok → Bool
  probe_refl : ∀ s, probe s s = true

/-- The collision-free hasher: only equal streams meet. -/
def HashCfg.exact : HashCfg where
  probe a c := decide (a = c)
  probe_refl := by simp

/-- Find the value of a key in a `LinkedHashMap` (`get`), crate `ritelinked`. -/
def entriesGet (h : HashCfg) (k : Node) : List (Node × Node) → Out (Option Node)
  | [] => .ok none
  | e :: r =>
    if h.probe k.hashStream e.1.hashStream then
      match Node.eq? k e.1 with
      | .ok true => .ok (some e.2)
      | .ok false => entriesGet h k r
      | .err x => .err x
      | .panic p => .panic p
      | .diverge => .diverge
    else entriesGet h k r

/-- Remove the entry of a key: the removed entry's key, and the other entries. -/
def entriesTake (h : HashCfg) (k : Node) :
    List (Node × Node) → Out (Option Node × List (Node × Node))
  | [] => .ok (none, [])
  | e :: r =>
    let next := (entriesTake h k r).map fun (x, r') => (x, e :: r')
    if h.probe k.hashStream e.1.hashStream then
      match Node.eq? k e.1 with
      | .ok true => .ok (some e.1, r)
      | .ok false => next
      | .err x => .err x
      | .panic p => .panic p
      | .diverge => .diverge
    else next

/-- `LinkedHashMap::insert` (crate `ritelinked`): a new key goes to the back; an
existing key keeps its key object, gets the new value, and moves to the back. -/
def entriesInsert (h : HashCfg) (m : List (Node × Node)) (k v : Node) :
    Out (List (Node × Node)) :=
  (entriesTake h k m).map fun
    | (some k', r) => r ++ [(k', v)]
    | (none, r) => r ++ [(k, v)]

/-- `iter.collect::<Map>()`: insert one entry after the other
(yaml.rs:22-31, 224-227). -/
def entriesCollect (h : HashCfg) : List (Node × Node) → List (Node × Node) →
    Out (List (Node × Node))
  | acc, [] => .ok acc
  | acc, (k, v) :: r =>
    match entriesInsert h acc k v with
    | .ok acc' => entriesCollect h acc' r
    | .err x => .err x
    | .panic p => .panic p
    | .diverge => .diverge

namespace Node

/-! ## Accessors (node.rs:149-416) -/

/-- `Node::tag` (node.rs:157-173). -/
def tagOf (n : Node) : Bytes :=
  match n.rawTag with
  | [] => match n.yaml with
    | .null => tagPrefix ++ b!"null"
    | .bool _ => tagPrefix ++ b!"bool"
    | .int _ => tagPrefix ++ b!"int"
    | .float _ => tagPrefix ++ b!"float"
    | .str _ => tagPrefix ++ b!"str"
    | .seq _ => tagPrefix ++ b!"seq"
    | .map _ => tagPrefix ++ b!"map"
    | .alias _ => []
  | t => t

/-- `Node::is_null` (node.rs:206-208). -/
def isNull (n : Node) : Out Bool := Yaml.eq? n.yaml .null

/-- `Node::as_int` (node.rs:217-222); errors carry the position. -/
def asInt (n : Node) : Except Nat Int :=
  match n.yaml with
  | .int s => match toI64 s with
    | some v => .ok v
    | none => .error n.pos
  | _ => .error n.pos

/-- `Node::as_float` (node.rs:231-236). -/
def asFloat (n : Node) : Except Nat F64 :=
  match n.yaml with
  | .float s => match toF64 s with
    | some v => .ok v
    | none => .error n.pos
  | _ => .error n.pos

/-- `n as f64` for an `i64`: round to nearest. -/
def f64OfInt (v : Int) : F64 := roundF64 (decide (v < 0)) v.natAbs 1

/-- `Node::as_number` (node.rs:246-252). -/
def asNumber (n : Node) : Except Nat F64 :=
  match n.yaml with
  | .int s => match toI64 s with
    | some v => .ok (f64OfInt v)
    | none => .error n.pos
  | .float s => match toF64 s with
    | some v => .ok v
    | none => .error n.pos
  | _ => .error n.pos

/-- `Node::as_bool` (node.rs:11-24, 255-262). -/
def asBool (n : Node) : Except Nat Bool :=
  match n.yaml with
  | .bool v => .ok v
  | _ => .error n.pos

/-- `Node::as_str` (node.rs:11-24, 264-275): null reads as the empty string. -/
def asStr (n : Node) : Except Nat Bytes :=
  match n.yaml with
  | .str s => .ok s
  | .null => .ok []
  | _ => .error n.pos

/-- `Node::as_seq` (node.rs:11-24, 277-288). -/
def asSeq (n : Node) : Except Nat (List Node) :=
  match n.yaml with
  | .seq v => .ok v
  | _ => .error n.pos

/-- `Node::as_map` (node.rs:11-24, 290-302). -/
def asMap (n : Node) : Except Nat (List (Node × Node)) :=
  match n.yaml with
  | .map m => .ok m
  | _ => .error n.pos

/-- `Node::as_value` (node.rs:319-327). -/
def asValue (n : Node) : Except Nat Bytes :=
  match n.yaml with
  | .str s => .ok s
  | .int s => .ok s
  | .float s => .ok s
  | .bool true => .ok b!"true"
  | .bool false => .ok b!"false"
  | .null => .ok []
  | _ => .error n.pos

/-- `Node::as_anchor` (node.rs:341-347). -/
def asAnchor (n : Node) (anchors : List (Bytes × Node)) : Except Nat Node :=
  match n.yaml with
  | .alias a => match mapGet a anchors with
    | some m => .ok m
    | none => .error n.pos
  | _ => .ok n

/-- `Node::get` (node.rs:361-367). -/
def get (h : HashCfg) (n key : Node) : Out (Except Nat Node) :=
  match n.yaml with
  | .map m => (entriesGet h key m).map fun
    | some v => .ok v
    | none => .error n.pos
  | _ => .ok (.error n.pos)

/-- `Node::get_default` (node.rs:407-427). -/
def getDefault {α : Type} (h : HashCfg) (n key : Node) (default : α)
    (factory : Node → Except Nat α) : Out (Except Nat α) :=
  match n.yaml with
  | .map m => (entriesGet h key m).map fun
    | some v => factory v
    | none => .ok default
  | _ => .ok (.error n.pos)

/-- `Node::get_ind` (node.rs:438-444). -/
def getInd (n : Node) (i : Nat) : Except Nat Node :=
  match n.yaml with
  | .seq v => match v[i]? with
    | some x => .ok x
    | none => .error n.pos
  | _ => .error n.pos

/-- `Index<Ind>` (node.rs:480-490). -/
def indexInd (n : Node) (i : Nat) : Out Node :=
  match n.yaml with
  | .seq v => match v[i]? with
    | some x => .ok x
    | none => .panic .index
  | _ => .panic .outOfBound

/-- `Index<I: Into<Node>>` (node.rs:492-507). -/
def indexKey (h : HashCfg) (n key : Node) : Out Node :=
  match n.yaml with
  | .map m => match entriesGet h key m with
    | .ok (some v) => .ok v
    | .ok none => .panic .outOfBound
    | .err e => .err e
    | .panic p => .panic p
    | .diverge => .diverge
  | _ => .panic .outOfBound

end Node
end YamlPeg
