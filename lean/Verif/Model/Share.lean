import Verif.Model.Node
/-!
# Shared nodes (src/repr.rs, src/node.rs)

`Node<R>` holds its data behind a reference counter (`R::Rc`: `Rc<Yaml>` or `Arc<Yaml>`);
the other model files use plain values.  This file models the counter itself: a heap of
cells, each with its strong count and its data, whose child nodes are again references.
A program is a list of the operations of the API on the values it owns; the counters are
those of `alloc::rc::Rc` (`Arc` does the same, atomically): `new` starts with one, `clone`
adds one, `drop` takes one away and frees the cell, with its children, at zero.  There are
no weak references.

Simplifications: the values a program owns are a list, and the operations name them by
their place; a map is the list of its entries in iteration order, and an entry list is
taken as it is given (what `LinkedHashMap` makes of equal keys is `entriesCollect`,
Model/Node.lean).
-/

namespace YamlPeg.Share

/-- `Node<R>` (node.rs:116-121): position, tag, and the cell of the data. -/
structure Ref where
  pos : Nat
  tag : Bytes
  addr : Nat

/-- `Yaml<R>` (yaml.rs:83-100): its child nodes are references. -/
inductive Data where
  | null
  | bool (v : Bool)
  | int (s : Bytes)
  | float (s : Bytes)
  | str (s : Bytes)
  | seq (items : List Ref)
  | map (entries : List (Ref × Ref))
  | alias (a : Bytes)

/-- The child nodes, in the order in which they are dropped. -/
def Data.refs : Data → List Ref
  | .seq l => l
  | .map l => l.flatMap fun e => [e.1, e.2]
  | _ => []

/-- The cells of the child nodes. -/
def Data.addrs (d : Data) : List Nat := d.refs.map Ref.addr

/-- `Rc<Yaml>`: the strong count and the data; `none` when it was freed. -/
abbrev Heap := List (Option (Nat × Data))

/-- A value a program owns: a node, a counter (`Node::clone_yaml`), or bare data. -/
inductive Val where
  | node (r : Ref)
  | rc (a : Nat)
  | data (d : Data)

/-- The counters a value holds. -/
def Val.addrs : Val → List Nat
  | .node r => [r.addr]
  | .rc a => [a]
  | .data d => d.addrs

structure State where
  heap : Heap
  vals : List Val

/-- Why a program does not go on: it is no program (the operation does not fit the values it
owns), or it follows a reference to a cell that was freed. -/
inductive Bad where
  | illTyped
  | dangling

/-- `Rc::clone`: one more. -/
def incr (a : Nat) (h : Heap) : Option Heap :=
  match h[a]? with
  | some (some (c, d)) => some (h.set a (some (c + 1, d)))
  | _ => none

/-- `clone` of all these counters. -/
def incrAll : List Nat → Heap → Option Heap
  | [], h => some h
  | a :: w, h => (incr a h).bind (incrAll w)

/-- All counts of a heap. -/
def total : Heap → Nat
  | [] => 0
  | none :: h => total h
  | some (c, _) :: h => c + total h

theorem total_set {h : Heap} {a c : Nat} {d : Data} (hc : h[a]? = some (some (c + 1, d))) (x : Option (Nat × Data))
    (hx : x = none ∨ x = some (c, d)) : total (h.set a x) < total h := by
  induction h generalizing a with
  | nil => simp at hc
  | cons y h ih =>
    cases a with
    | zero =>
      simp only [List.getElem?_cons_zero, Option.some.injEq] at hc
      subst hc
      simp only [List.set_cons_zero, total]
      rcases hx with rfl | rfl <;> simp only [total] <;> omega
    | succ a =>
      simp only [List.getElem?_cons_succ] at hc
      have := ih hc
      simp only [List.set_cons_succ]
      cases y <;> simp only [total] <;> omega

/-- `Rc::drop` of these counters: one less; at zero the cell is freed, and its children are
dropped. -/
def dropAll (w : List Nat) (h : Heap) : Option Heap :=
  match w with
  | [] => some h
  | a :: w =>
    match hc : h[a]? with
    | some (some (c + 1, d)) =>
      if c = 0 then dropAll (d.addrs ++ w) (h.set a none)
      else dropAll w (h.set a (some (c, d)))
    | _ => none
termination_by total h
decreasing_by
  · exact total_set hc _ (.inl rfl)
  · exact total_set hc _ (.inr rfl)

/-- What a program can do. -/
inductive Op where
  /-- data without child nodes (yaml.rs:192-210) -/
  | scalar (d : Data)
  /-- `Vec` of the first `n` nodes, `Yaml::Seq` (yaml.rs:212-216, 225) -/
  | seqOf (n : Nat)
  /-- entries of the first `2 n` nodes, `Yaml::Map` (yaml.rs:218-222, 226) -/
  | mapOf (n : Nat)
  /-- `into_iter` of a `Seq` or a `Map`: the nodes themselves -/
  | unpack
  /-- `Node::new` (node.rs:125-127) -/
  | new (pos : Nat) (tag : Bytes)
  /-- `Node::new_repr` (node.rs:130-137) -/
  | newRepr (pos : Nat) (tag : Bytes)
  /-- `Node::set_yaml` (node.rs:140-142) of the `k`-th value -/
  | setYaml (k : Nat)
  /-- `Node::set_repr` (node.rs:145-147) of the `k`-th value -/
  | setRepr (k : Nat)
  /-- `clone` of the `k`-th value (node.rs:453-461, yaml.rs:117-130) -/
  | clone (k : Nat)
  /-- `Node::clone_yaml` (node.rs:180-182) -/
  | cloneYaml (k : Nat)
  /-- a copy of the data of the `k`-th value: `yaml().clone()` (node.rs:175-177), `as_seq`, `as_map` (node.rs:288, 302) -/
  | yaml (k : Nat)
  /-- the end of the scope of the `k`-th value -/
  | drop (k : Nat)
  /-- names the `k`-th value first -/
  | pick (k : Nat)

/-- The first `n` values, if they are nodes, and the others. -/
def takeNodes : Nat → List Val → Option (List Ref × List Val)
  | 0, vs => some ([], vs)
  | n + 1, .node r :: vs => (takeNodes n vs).map fun x => (r :: x.1, x.2)
  | _, _ => none

/-- Neighbours as entries. -/
def pairUp {α : Type} : List α → List (α × α)
  | a :: b :: l => (a, b) :: pairUp l
  | _ => []

/-- The data of a cell. -/
def load (h : Heap) (a : Nat) : Option Data :=
  match h[a]? with
  | some (some (_, d)) => some d
  | _ => none

/-- An access that must not fail. -/
def must {α : Type} : Option α → Except Bad α
  | some x => .ok x
  | none => .error .dangling

/-- One operation. -/
def step (s : State) : Op → Except Bad State
  | .scalar d => if d.refs.isEmpty then .ok { s with vals := .data d :: s.vals } else .error .illTyped
  | .seqOf n =>
    match takeNodes n s.vals with
    | some (l, vs) => .ok { s with vals := .data (.seq l) :: vs }
    | none => .error .illTyped
  | .mapOf n =>
    match takeNodes (2 * n) s.vals with
    | some (l, vs) => .ok { s with vals := .data (.map (pairUp l)) :: vs }
    | none => .error .illTyped
  | .unpack =>
    match s.vals with
    | .data d :: vs => .ok { s with vals := d.refs.map .node ++ vs }
    | _ => .error .illTyped
  | .new pos tag =>
    match s.vals with
    | .data d :: vs => .ok { heap := s.heap ++ [some (1, d)], vals := .node ⟨pos, tag, s.heap.length⟩ :: vs }
    | _ => .error .illTyped
  | .newRepr pos tag =>
    match s.vals with
    | .rc a :: vs => .ok { s with vals := .node ⟨pos, tag, a⟩ :: vs }
    | _ => .error .illTyped
  | .setYaml k =>
    match s.vals with
    | .data d :: vs =>
      match vs[k]? with
      | some (.node r) => do
        let h ← must (dropAll [r.addr] (s.heap ++ [some (1, d)]))
        .ok { heap := h, vals := vs.set k (.node { r with addr := s.heap.length }) }
      | _ => .error .illTyped
    | _ => .error .illTyped
  | .setRepr k =>
    match s.vals with
    | .rc a :: vs =>
      match vs[k]? with
      | some (.node r) => do
        let h ← must (dropAll [r.addr] s.heap)
        .ok { heap := h, vals := vs.set k (.node { r with addr := a }) }
      | _ => .error .illTyped
    | _ => .error .illTyped
  | .clone k =>
    match s.vals[k]? with
    | some v => do
      let h ← must (incrAll v.addrs s.heap)
      .ok { heap := h, vals := v :: s.vals }
    | none => .error .illTyped
  | .cloneYaml k =>
    match s.vals[k]? with
    | some (.node r) => do
      let h ← must (incr r.addr s.heap)
      .ok { heap := h, vals := .rc r.addr :: s.vals }
    | _ => .error .illTyped
  | .yaml k =>
    match s.vals[k]? with
    | some (.node r) => do
      let d ← must (load s.heap r.addr)
      let h ← must (incrAll d.addrs s.heap)
      .ok { heap := h, vals := .data d :: s.vals }
    | _ => .error .illTyped
  | .drop k =>
    match s.vals[k]? with
    | some v => do
      let h ← must (dropAll v.addrs s.heap)
      .ok { heap := h, vals := s.vals.eraseIdx k }
    | none => .error .illTyped
  | .pick k =>
    match s.vals[k]? with
    | some v => .ok { s with vals := v :: s.vals.eraseIdx k }
    | none => .error .illTyped

/-- A history. -/
def run (s : State) : List Op → Except Bad State
  | [] => .ok s
  | op :: ops => do
    let s ← step s op
    run s ops

/-- Nothing is owned, nothing allocated. -/
def State.init : State := ⟨[], []⟩

/-- `Rc::strong_count(node.rc_ref())` (node.rs:184-203). -/
def strongCount (h : Heap) (a : Nat) : Nat :=
  match h[a]? with
  | some (some (c, _)) => c
  | _ => 0

/-! ## Equality of shared nodes

`Node::eq` (node.rs:469-473) is the `eq` of the counters: `Rc<T>` with `T: Eq` answers `true`
for two counters of one cell without looking at the data, and compares the data otherwise
(`Arc` the same).  `Yaml: Eq` holds (yaml.rs:192), so the shortcut is taken. -/

/-- `Vec<Node>::eq`, behind the comparison of the lengths; `f` compares two counters. -/
def refsEq? (f : Nat → Nat → Out Bool) : List Ref → List Ref → Out Bool
  | [], [] => .ok true
  | x :: xs, y :: ys => (f x.addr y.addr).andThen (refsEq? f xs ys)
  | _, _ => .ok false

/-- `LinkedHashMap::eq`, behind the comparison of the lengths. -/
def pairsEq? (f : Nat → Nat → Out Bool) : List (Ref × Ref) → List (Ref × Ref) → Out Bool
  | [], [] => .ok true
  | x :: xs, y :: ys => ((f x.1.addr y.1.addr).andThen (f x.2.addr y.2.addr)).andThen (pairsEq? f xs ys)
  | _, _ => .ok false

/-- `Yaml::eq` (yaml.rs:168-190). -/
def Data.eq? (f : Nat → Nat → Out Bool) : Data → Data → Out Bool
  | .null, .null => .ok true
  | .bool b1, .bool b2 => .ok (b1 == b2)
  | .int s1, .int s2 => intEq? s1 s2
  | .float s1, .float s2 => floatEq? s1 s2
  | .str s1, .str s2 => .ok (s1 == s2)
  | .seq s1, .seq s2 => if s1.length = s2.length then refsEq? f s1 s2 else .ok false
  | .map m1, .map m2 => if m1.length = m2.length then pairsEq? f m1 m2 else .ok false
  | .alias a1, .alias a2 => .ok (a1 == a2)
  | _, _ => .ok false

/-- `Rc::eq`.  The children of a cell are older than the cell (they are there when it is
made, and data behind a counter never changes), so the guard is always met. -/
def addrEq? (h : Heap) (a c : Nat) : Out Bool :=
  if a = c then .ok true
  else match h[a]?, h[c]? with
    | some (some (_, d)), some (some (_, e)) => d.eq? (fun x y => if x < a then addrEq? h x y else .ok false) e
    | _, _ => .ok false
termination_by a

end YamlPeg.Share
