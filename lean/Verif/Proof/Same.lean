import Verif.Model.Node
/-! # Decidable identity of nodes (positions and tags included) -/

namespace YamlPeg

mutual
def Node.decEq : (a c : Node) → Decidable (a = c)
  | .mk p t y, .mk p' t' y' =>
    if hp : p = p' then
      if ht : t = t' then
        match Yaml.decEq y y' with
        | isTrue h => isTrue (by rw [hp, ht, h])
        | isFalse h => isFalse (by intro e; cases e; exact h rfl)
      else isFalse (by intro e; cases e; exact ht rfl)
    else isFalse (by intro e; cases e; exact hp rfl)
def Yaml.decEq : (a c : Yaml) → Decidable (a = c)
  | .null, c => match c with
    | .null => isTrue rfl
    | .bool _ | .int _ | .float _ | .str _ | .seq _ | .map _ | .alias _ => isFalse (by simp)
  | .bool v, c => match c with
    | .bool w => if h : v = w then isTrue (by rw [h]) else isFalse (by simp [h])
    | .null | .int _ | .float _ | .str _ | .seq _ | .map _ | .alias _ => isFalse (by simp)
  | .int v, c => match c with
    | .int w => if h : v = w then isTrue (by rw [h]) else isFalse (by simp [h])
    | .null | .bool _ | .float _ | .str _ | .seq _ | .map _ | .alias _ => isFalse (by simp)
  | .float v, c => match c with
    | .float w => if h : v = w then isTrue (by rw [h]) else isFalse (by simp [h])
    | .null | .bool _ | .int _ | .str _ | .seq _ | .map _ | .alias _ => isFalse (by simp)
  | .str v, c => match c with
    | .str w => if h : v = w then isTrue (by rw [h]) else isFalse (by simp [h])
    | .null | .bool _ | .int _ | .float _ | .seq _ | .map _ | .alias _ => isFalse (by simp)
  | .alias v, c => match c with
    | .alias w => if h : v = w then isTrue (by rw [h]) else isFalse (by simp [h])
    | .null | .bool _ | .int _ | .float _ | .seq _ | .map _ | .str _ => isFalse (by simp)
  | .seq v, c => match c with
    | .seq w => match nodesDecEq v w with
      | isTrue h => isTrue (by rw [h])
      | isFalse h => isFalse (by simp [h])
    | .null | .bool _ | .int _ | .float _ | .str _ | .map _ | .alias _ => isFalse (by simp)
  | .map v, c => match c with
    | .map w => match entriesDecEq v w with
      | isTrue h => isTrue (by rw [h])
      | isFalse h => isFalse (by simp [h])
    | .null | .bool _ | .int _ | .float _ | .str _ | .seq _ | .alias _ => isFalse (by simp)
def nodesDecEq : (a c : List Node) → Decidable (a = c)
  | [], [] => isTrue rfl
  | [], _ :: _ => isFalse (by simp)
  | _ :: _, [] => isFalse (by simp)
  | x :: xs, y :: ys =>
    match Node.decEq x y with
    | isTrue h => match nodesDecEq xs ys with
      | isTrue h' => isTrue (by rw [h, h'])
      | isFalse h' => isFalse (by simp [h'])
    | isFalse h => isFalse (by simp [h])
def entriesDecEq : (a c : List (Node × Node)) → Decidable (a = c)
  | [], [] => isTrue rfl
  | [], _ :: _ => isFalse (by simp)
  | _ :: _, [] => isFalse (by simp)
  | x :: xs, y :: ys =>
    match entryDecEq x y with
    | isTrue h => match entriesDecEq xs ys with
      | isTrue h' => isTrue (by rw [h, h'])
      | isFalse h' => isFalse (by simp [h'])
    | isFalse h => isFalse (by simp [h])
def entryDecEq : (a c : Node × Node) → Decidable (a = c)
  | (k, v), (k', v') =>
    match Node.decEq k k' with
    | isTrue h => match Node.decEq v v' with
      | isTrue h' => isTrue (by rw [h, h'])
      | isFalse h' => isFalse (by simp [h'])
    | isFalse h => isFalse (by simp [h])
end

instance : DecidableEq Node := Node.decEq
instance : DecidableEq Yaml := Yaml.decEq

end YamlPeg
