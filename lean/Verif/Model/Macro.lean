import Verif.Model.Node
/-!
# The macro `node!` (src/lib.rs:90-121)

The prefixes `rc` and `arc` choose the reference counter and are not modelled (nodes are
values, Model/Node.lean; what the counters do is Model/Share.lean).
-/

namespace YamlPeg

/-- What can be written in `node!(..)` (lib.rs:91-111).  Items, keys and values are Rust
expressions: a node (which may be another `node!`), or something that turns into data. -/
inductive Lit where
  /-- a node: `Node::from` of a node is the node (lib.rs:109-111) -/
  | node (n : Node)
  /-- data, or a value that becomes data by `Into<Yaml>` (lib.rs:109-111, yaml.rs:192-227) -/
  | data (y : Yaml)
  /-- `*"a"` (lib.rs:106-108) -/
  | alias (a : Bytes)
  /-- `[v; n]` (lib.rs:91-95) -/
  | rep (v : Lit) (n : Nat)
  /-- `[v, ..]` (lib.rs:96-100) -/
  | seq (l : List Lit)
  /-- `{k => v, ..}` (lib.rs:101-105) -/
  | map (l : List (Lit × Lit))

mutual
/-- `node!(..)` (lib.rs:90-121): every node that the macro makes has position 0 and no
tag (node.rs:509-517). -/
def Lit.eval (h : HashCfg) : Lit → Out Node
  | .node n => .ok n
  | .data y => .ok (.ofYaml y)
  | .alias a => .ok (.ofYaml (.alias a))
  | .rep v n => (v.eval h).map fun x => .ofYaml (.seq (List.replicate n x))
  | .seq l => (Lit.evals h l).map fun xs => .ofYaml (.seq xs)
  | .map l =>
    match Lit.evalPairs h l with
    | .ok es => (entriesCollect h [] es).map fun m => .ofYaml (.map m)
    | .err e => .err e
    | .panic p => .panic p
    | .diverge => .diverge
/-- `vec![node!(..), ..]` (lib.rs:98): from the left. -/
def Lit.evals (h : HashCfg) : List Lit → Out (List Node)
  | [] => .ok []
  | v :: l =>
    match v.eval h with
    | .ok x => (Lit.evals h l).map fun xs => x :: xs
    | .err e => .err e
    | .panic p => .panic p
    | .diverge => .diverge
/-- `vec![(node!(..), node!(..)), ..]` (lib.rs:103). -/
def Lit.evalPairs (h : HashCfg) : List (Lit × Lit) → Out (List (Node × Node))
  | [] => .ok []
  | e :: l =>
    match Lit.evalPair h e with
    | .ok x => (Lit.evalPairs h l).map fun xs => x :: xs
    | .err e => .err e
    | .panic p => .panic p
    | .diverge => .diverge
/-- `(node!(..), node!(..))` (lib.rs:103). -/
def Lit.evalPair (h : HashCfg) : Lit × Lit → Out (Node × Node)
  | (k, v) =>
    match k.eval h with
    | .ok x => (v.eval h).map fun y => (x, y)
    | .err e => .err e
    | .panic p => .panic p
    | .diverge => .diverge
end

end YamlPeg
