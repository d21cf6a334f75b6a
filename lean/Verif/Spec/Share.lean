import Verif.Model.Share
/-!
# What programs on nodes mean without sharing

The same operations as in Model/Share.lean, on plain values: nothing is counted, nothing is
freed, and every node has its own data.  `State.value` reads the values of a heap.
-/

namespace YamlPeg.Share

/-! ## Without sharing -/

/-- A value a program owns, where nothing is shared. -/
inductive AVal where
  | node (n : Node)
  | rc (y : Yaml)
  | data (y : Yaml)

def atakeNodes : Nat → List AVal → Option (List Node × List AVal)
  | 0, vs => some ([], vs)
  | n + 1, .node r :: vs => (atakeNodes n vs).map fun x => (r :: x.1, x.2)
  | _, _ => none

/-- The child nodes of a value. -/
def kids : Yaml → List Node
  | .seq l => l
  | .map l => l.flatMap fun e => [e.1, e.2]
  | _ => []

/-- Data without child nodes, as a value. -/
def Data.pure : Data → Option Yaml
  | .null => some .null
  | .bool v => some (.bool v)
  | .int s => some (.int s)
  | .float s => some (.float s)
  | .str s => some (.str s)
  | .alias a => some (.alias a)
  | .seq [] => some (.seq [])
  | .map [] => some (.map [])
  | _ => none

/-- Key, value, key, value, ... -/
def asEntries : List Node → List (Node × Node)
  | k :: v :: l => (k, v) :: asEntries l
  | _ => []

/-- The operations on values. -/
def astep (vs : List AVal) : Op → Option (List AVal)
  | .scalar d => d.pure.map fun y => .data y :: vs
  | .seqOf n => (atakeNodes n vs).map fun x => .data (.seq x.1) :: x.2
  | .mapOf n => (atakeNodes (2 * n) vs).map fun x => .data (.map (asEntries x.1)) :: x.2
  | .unpack =>
    match vs with
    | .data y :: vs => some ((kids y).map .node ++ vs)
    | _ => none
  | .new pos tag =>
    match vs with
    | .data y :: vs => some (.node (.mk pos tag y) :: vs)
    | _ => none
  | .newRepr pos tag =>
    match vs with
    | .rc y :: vs => some (.node (.mk pos tag y) :: vs)
    | _ => none
  | .setYaml k =>
    match vs with
    | .data y :: vs =>
      match vs[k]? with
      | some (.node n) => some (vs.set k (.node (.mk n.pos n.rawTag y)))
      | _ => none
    | _ => none
  | .setRepr k =>
    match vs with
    | .rc y :: vs =>
      match vs[k]? with
      | some (.node n) => some (vs.set k (.node (.mk n.pos n.rawTag y)))
      | _ => none
    | _ => none
  | .clone k =>
    match vs[k]? with
    | some v => some (v :: vs)
    | none => none
  | .cloneYaml k =>
    match vs[k]? with
    | some (.node n) => some (.rc n.yaml :: vs)
    | _ => none
  | .yaml k =>
    match vs[k]? with
    | some (.node n) => some (.data n.yaml :: vs)
    | _ => none
  | .drop k =>
    match vs[k]? with
    | some _ => some (vs.eraseIdx k)
    | none => none
  | .pick k =>
    match vs[k]? with
    | some v => some (v :: vs.eraseIdx k)
    | none => none

def arun (vs : List AVal) : List Op → Option (List AVal)
  | [] => some vs
  | op :: ops => (astep vs op).bind fun vs => arun vs ops

/-! ## What a cell stands for -/

/-- The data as a value, given the values of the cells. -/
def Data.value (f : Nat → Yaml) : Data → Yaml
  | .null => .null
  | .bool v => .bool v
  | .int s => .int s
  | .float s => .float s
  | .str s => .str s
  | .alias a => .alias a
  | .seq l => .seq (l.map fun r => .mk r.pos r.tag (f r.addr))
  | .map l => .map (l.map fun e => (.mk e.1.pos e.1.tag (f e.1.addr), .mk e.2.pos e.2.tag (f e.2.addr)))

/-- The value of a cell. -/
def look (h : Heap) (a : Nat) : Yaml :=
  match h[a]? with
  | some (some (_, d)) => d.value fun b => if b < a then look h b else .null
  | _ => .null
termination_by a

def Ref.value (h : Heap) (r : Ref) : Node := .mk r.pos r.tag (look h r.addr)

/-- The values of what a program owns. -/
def Val.value (h : Heap) : Val → AVal
  | .node r => .node (r.value h)
  | .rc a => .rc (look h a)
  | .data d => .data (d.value (look h))

def State.value (s : State) : List AVal := s.vals.map (Val.value s.heap)

end YamlPeg.Share
