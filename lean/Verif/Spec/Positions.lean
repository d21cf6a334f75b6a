import Verif.Model.Loader
/-!
# Nodes at other positions

`Node.mapPos f n` is the node `n` with every position `p` in it, at any depth, replaced by `f p`.
-/

namespace YamlPeg

mutual
def Node.mapPos (f : Nat → Nat) : Node → Node
  | .mk p t y => .mk (f p) t (y.mapPos f)
def Yaml.mapPos (f : Nat → Nat) : Yaml → Yaml
  | .null => .null
  | .bool b => .bool b
  | .int s => .int s
  | .float s => .float s
  | .str s => .str s
  | .seq v => .seq (mapPosNodes f v)
  | .map m => .map (mapPosEntries f m)
  | .alias a => .alias a
def mapPosNodes (f : Nat → Nat) : List Node → List Node
  | [] => []
  | x :: r => x.mapPos f :: mapPosNodes f r
def mapPosEntries (f : Nat → Nat) : List (Node × Node) → List (Node × Node)
  | [] => []
  | x :: r => mapPosEntry f x :: mapPosEntries f r
def mapPosEntry (f : Nat → Nat) : Node × Node → Node × Node
  | (k, v) => (k.mapPos f, v.mapPos f)
end

/-- The same for an anchor table. -/
def mapPosAnchors (f : Nat → Nat) (a : Anchors) : Anchors := a.map fun kv => (kv.1, kv.2.mapPos f)

end YamlPeg
