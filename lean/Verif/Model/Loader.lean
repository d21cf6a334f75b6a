import Verif.Model.Grammar
import Verif.Model.Node
/-!
# The loader (src/parser/mod.rs)

All recursion of the Rust code goes through `Loader::scalar`.  The functions
below take that recursive call as a parameter `sc`; `scalar` ties the knot with
fuel.  `n` is the fuel of the loops.
-/

namespace YamlPeg
open M

/-- `Anchors` (parser/mod.rs:71). -/
abbrev Anchors := List (Bytes × Node)

/-- `Loader` (parser/mod.rs:102-108), together with the hash table randomness
of the maps it builds. -/
structure Loader where
  parser : Parser
  cyclicMode : Bool
  anchors : List Anchors
  docInd : Nat
  hash : HashCfg

/-- A method on `&mut Loader`. -/
abbrev LM := M Loader

/-- `Loader::new` (parser/mod.rs:112-119). -/
def Loader.new (h : HashCfg) (doc : Bytes) : Loader where
  parser := Parser.new doc
  cyclicMode := false
  anchors := []
  docInd := 0
  hash := h

/-- `Loader` derefs to `Parser` (parser/mod.rs:483-495). -/
def lift {α : Type} (x : PM α) : LM α := fun l =>
  let (r, p) := x l.parser
  (r, { l with parser := p })

/-- `self.err(name)` -/
def lerr {α : Type} (name : String) : LM α := lift (errAt name)

/-- `x.or_else(|e| e.or(|| self.err(name)))` -/
def orErr {α : Type} (x : LM α) (name : String) : LM α := orElseMismatch x (lerr name)

/-- Build a map node's data: `R::new_rc(m.into_iter().collect())`
(parser/mod.rs:371, 479). -/
def collectMap (m : List (Node × Node)) : LM Yaml := fun l =>
  match entriesCollect l.hash [] m with
  | .ok es => (.ok (.map es), l)
  | .err e => (.err e, l)
  | .panic p => (.panic p, l)
  | .diverge => (.diverge, l)

/-- `self.anchors[self.doc_ind]` (parser/mod.rs:257, 278). -/
def curAnchors : LM Anchors := fun l =>
  match l.anchors[l.docInd]? with
  | some a => (.ok a, l)
  | none => (.panic .index, l)

/-- `self.anchors[self.doc_ind].insert(anchor, node)`; the answer is
`.is_some()` (parser/mod.rs:257-259). -/
def anchorInsert (a : Bytes) (n : Node) : LM Bool := do
  let cur ← curAnchors
  modify fun l => { l with anchors := l.anchors.set l.docInd (mapInsert a n cur) }
  pure (mapGet a cur).isSome

/-- `Loader::doc_end` (parser/mod.rs:194-206). -/
def docEnd : LM Bool := lift do
  if (← food).isEmpty then pure true
  else context do
    let x ← (do if ← isOk (symSeq b!"---") then pure true else isOk (symSeq b!"..."))
    runIf x backward
    pure x

/-- The node properties of `Loader::scalar_node`: anchor and tag
(parser/mod.rs:232-251). -/
def nodeProps : LM (Bytes × Bytes) := do
  let a ← lift (orDefault [] anchor)
  runIf (!a.isEmpty) (lift bound)
  lift forward
  let t ← lift (orDefault [] tag)
  runIf (!t.isEmpty) (lift bound)
  lift forward
  let a2 ← lift (orDefault [] anchor)
  let a ← (do
    if !a2.isEmpty then
      if a.isEmpty then do
        lift bound
        pure a2
      else lerr "duplicated anchor definition"
    else pure a)
  lift forward
  pure (a, t)

/-- `Loader::scalar_node` (parser/mod.rs:228-265). -/
def scalarNode (f : LM Yaml) : LM Node := do
  let (a, t) ← nodeProps
  let l ← get
  let pos := l.parser.indicator
  let yaml ← f
  lift forward
  let node := Node.new yaml pos t
  if !a.isEmpty then
    if ← anchorInsert a node then lerr "duplicated anchor definition" else pure node
  else pure node

/-- The resolution of a plain scalar (parser/mod.rs:288-296). -/
def resolvePlain (s : Bytes) : Yaml :=
  if s == b!"~" || s == b!"null" || s == b!"Null" || s == b!"NULL" then .null
  else if s == b!"true" || s == b!"True" || s == b!"TRUE" then .bool true
  else if s == b!"false" || s == b!"False" || s == b!"FALSE" then .bool false
  else if s == b!".nan" || s == b!".NaN" || s == b!".NAN" then .float b!"NaN"
  else if s == b!".inf" || s == b!".Inf" || s == b!".INF" then .float b!"inf"
  else if s == b!"-.inf" || s == b!"-.Inf" || s == b!"-.INF" then .float b!"-inf"
  else .str s

/-- An alias (parser/mod.rs:276-282). -/
def useAlias (s : Bytes) : LM Yaml := do
  let l ← get
  if l.cyclicMode then pure (.alias s)
  else do
    let cur ← curAnchors
    match mapGet s cur with
    | some node => pure node.yaml
    | none => lerr "anchor referenced before definition"

/-- The recursive call `self.scalar(level, map, flow)`. -/
abbrev ScalarCall := Nat → Bool → Bool → LM Node

/-- The loop of `Loader::seq_flow` (parser/mod.rs:309-326). -/
def seqFlowLoop (sc : ScalarCall) (level : Nat) : Nat → List Node → LM (List Node)
  | 0, _ => diverge
  | n + 1, v => do
    lift (inv (.more 0))
    lift forward
    if ← isOk (lift (sym 0x5D)) then pure v
    else do
      lift forward
      let x ← orErr (sc (level + 1) false true) "flow sequence item"
      let v := v ++ [x]
      lift (inv (.more 0))
      if ← isOk (lift (sym 0x2C)) then seqFlowLoop sc level n v
      else do
        lift (inv (.more 0))
        lift (sym 0x5D)
        pure v

/-- `Loader::seq_flow` (parser/mod.rs:306-329). -/
def seqFlow (sc : ScalarCall) (n level : Nat) : LM Yaml := do
  lift (sym 0x5B)
  let v ← seqFlowLoop sc level n []
  lift forward
  pure (.seq v)

/-- `if self.gap(true).is_ok() { self.ind(level)?; }` -/
def gapThenInd (level : Nat) : LM Unit := do
  if ← isOk (lift (gap true)) then lift (ind level) else pure ()

/-- A key behind `?` (parser/mod.rs:343-350, 429-436, 454-461). -/
def complexKey (sc : ScalarCall) (level : Nat) (map flow : Bool) (name : String) : LM Node := do
  lift forward
  let k ← orErr (sc (level + 1) map flow) name
  gapThenInd level
  pure k

/-- The loop of `Loader::map_flow` (parser/mod.rs:335-369); `sf` is the call
`self.scalar_flow(level + 1, true)`. -/
def mapFlowLoop (sc : ScalarCall) (sf : LM Node) (level : Nat) :
    Nat → List (Node × Node) → LM (List (Node × Node))
  | 0, _ => diverge
  | n + 1, m => do
    lift (inv (.more 0))
    lift forward
    if ← isOk (lift (sym 0x7D)) then pure m
    else do
      lift forward
      let k ← (do
        if ← isOk (lift complexMapping) then complexKey sc level false true "flow map key"
        else orErr sf "flow map key")
      if ← isOk (lift (sym 0x3A)) then do
        lift (context (orDefault () bound))
        lift forward
        let v ← orErr (sc (level + 1) false true) "flow map value"
        let m := m ++ [(k, v)]
        if ← isOk (lift (sym 0x2C)) then mapFlowLoop sc sf level n m
        else do
          lift (inv (.more 0))
          lift (sym 0x7D)
          pure m
      else lerr "flow map splitter"

/-- The scalar alternatives of `Loader::scalar_term` that come before the flow
collections (parser/mod.rs:269-296); `none` when none of them matched. -/
def scalarAtom (n level : Nat) (flow : Bool) : LM (Option Yaml) := do
  match ← try? (lift float) with
  | some s => pure (some (.float s))
  | none =>
  match ← try? (lift sciFloat) with
  | some s => pure (some (.float s))
  | none =>
  match ← try? (lift int) with
  | some s => pure (some (.int s))
  | none =>
  match ← try? (lift anchorUse) with
  | some s => do
    let y ← useAlias s
    pure (some y)
  | none =>
  match ← try? (lift (stringQuoted n 0x27 b!"''")) with
  | some s => pure (some (.str s))
  | none =>
  match ← try? (lift (stringQuoted n 0x22 b!"\\\"")) with
  | some s => pure (some (.str (escape s)))
  | none =>
  match ← try? (lift (stringPlain n level flow)) with
  | some s => pure (some (resolvePlain s))
  | none => pure none

/-- One level of the recursion `scalar_term → map_flow → scalar_flow →
scalar_term`: `scalar_term` with the inner `scalar_flow(level + 1, true)` of
`map_flow` as parameter (parser/mod.rs:268-303, 332-372). -/
def scalarTermWith (sc : ScalarCall) (sf : LM Node) (n level : Nat) (flow : Bool) : LM Yaml := do
  match ← scalarAtom n level flow with
  | some y => pure y
  | none =>
    orElseMismatch
      (orElseMismatch (seqFlow sc n level)
        (do
          lift (sym 0x7B)
          let m ← mapFlowLoop sc sf level n []
          lift forward
          collectMap m))
      (pure .null)

/-- `Loader::scalar_term` (parser/mod.rs:268-303).  The first argument is the
fuel of the recursion through `map_flow`'s simple keys. -/
def scalarTerm (sc : ScalarCall) (n : Nat) : Nat → Nat → Bool → LM Yaml
  | 0, _, _ => diverge
  | d + 1, level, flow =>
    scalarTermWith sc (scalarNode (scalarTerm sc n d (level + 1) true)) n level flow

/-- `Loader::scalar_flow` (parser/mod.rs:224-226). -/
def scalarFlow (sc : ScalarCall) (n level : Nat) (flow : Bool) : LM Node :=
  scalarNode (scalarTerm sc n n level flow)

/-- Entering the first item of a block collection (parser/mod.rs:381-387,
420-426). -/
def firstItem (level : Nat) (map : Bool) : LM Unit := do
  if map then do
    let _ ← lift (gap true)
    lift (indDefine level)
  else gapThenInd level

/-- Is the collection finished before the next item? (parser/mod.rs:391-396,
446-451); `true` is `break`. -/
def nextItem (level : Nat) (name : String) : LM Bool := do
  let g ← isOk (lift (gap true))
  let bad ← (if g then pure false else do pure (!(← docEnd)))
  if bad then lerr name
  else if ← docEnd then pure true
  else do pure (!(← isOk (lift (ind level))))

/-- The loop of `Loader::seq` (parser/mod.rs:377-407). -/
def seqLoop (sc : ScalarCall) (level : Nat) (map : Bool) : Nat → List Node → LM (List Node)
  | 0, _ => diverge
  | n + 1, v => do
    lift forward
    let stop ← (do
      if v.isEmpty then do
        firstItem level map
        lift (sym 0x2D)
        lift bound
        pure false
      else do
        if ← nextItem level "sequence terminator" then pure true
        else if ← isOk (lift (sym 0x2D)) then
          if ← isOk (lift bound) then do
            lift forward
            pure false
          else pure true
        else pure true)
    if stop then pure v
    else do
      lift forward
      let x ← orErr (sc (level + 1) false false) "sequence item"
      seqLoop sc level map n (v ++ [x])

/-- `Loader::seq` (parser/mod.rs:375-411). -/
def seq (sc : ScalarCall) (n level : Nat) (map : Bool) : LM Yaml := do
  let v ← seqLoop sc level map n []
  lift backward
  pure (.seq v)

/-- `self.sym(b':').is_err() || self.bound().is_err()`, negated
(parser/mod.rs:440, 466). -/
def colonBound : LM Bool := do
  if ← isOk (lift (sym 0x3A)) then isOk (lift bound) else pure false

/-- How one round of the loop of `Loader::map` begins. -/
inductive MapStep where
  /-- the first key was not followed by `:`; it is the result (line 442) -/
  | alone (y : Yaml)
  /-- `break` (line 450) -/
  | stop
  /-- a key, the cursor behind its `:` -/
  | key (k : Node)

/-- The beginning of one round of the loop of `Loader::map`
(parser/mod.rs:417-470); `sf` is `self.scalar_flow(level + 1, flow)`. -/
def mapStep (sc : ScalarCall) (sf : LM Node) (level : Nat) (map flow : Bool)
    (first : Bool) : LM MapStep := do
  lift forward
  if first then do
    firstItem level map
    lift forward
    let k ← (do
      if ← isOk (lift complexMapping) then complexKey sc level true flow "map key"
      else sf)
    if ← colonBound then pure (.key k) else pure (.alone k.yaml)
  else do
    if ← nextItem level "map terminator" then pure .stop
    else do
      lift forward
      let k ← (do
        if ← isOk (lift complexMapping) then complexKey sc level true flow "map key"
        else orErr sf "map key")
      if ← colonBound then pure (.key k) else lerr "map splitter"

/-- The loop of `Loader::map` (parser/mod.rs:416-479). -/
def mapLoop (sc : ScalarCall) (sf : LM Node) (level : Nat) (map flow : Bool) :
    Nat → List (Node × Node) → LM Yaml
  | 0, _ => diverge
  | n + 1, m => do
    match ← mapStep sc sf level map flow m.isEmpty with
    | .alone y => pure y
    | .stop => do
      lift backward
      collectMap m
    | .key k => do
      lift forward
      let v ← orErr (sc (level + 1) true false) "map value"
      mapLoop sc sf level map flow n (m ++ [(k, v)])

/-- `Loader::map` (parser/mod.rs:414-480). -/
def map (sc : ScalarCall) (n level : Nat) (map flow : Bool) : LM Yaml :=
  mapLoop sc (scalarFlow sc n (level + 1) flow) level map flow n []

/-- The body of `Loader::scalar` (parser/mod.rs:210-220). -/
def scalarBody (sc : ScalarCall) (n level : Nat) (map flow : Bool) : LM Yaml := do
  match ← try? (lift (stringLiteral level)) with
  | some s => pure (.str s)
  | none =>
  match ← try? (lift (stringFolded level)) with
  | some s => pure (.str s)
  | none =>
    orElseMismatch
      (orElseMismatch (seq sc n level map) (YamlPeg.map sc n level map flow))
      (scalarTerm sc n n level flow)

/-- `Loader::scalar` (parser/mod.rs:209-221), with fuel. -/
def scalar : Nat → ScalarCall
  | 0, _, _, _ => diverge
  | n + 1, level, map, flow => scalarNode (scalarBody (scalar n) n level map flow)

/-- `Loader::doc` (parser/mod.rs:181-191). -/
def doc (n : Nat) : LM Node := do
  lift (context (orDefault () bound))
  lift forward
  modify fun l => { l with anchors := l.anchors ++ [[]] }
  let ret ← scalar n 0 false false
  let _ ← lift (orDefault 0 (gap true))
  lift (orDefault () (symSeq b!"..."))
  lift forward
  modify fun l => { l with docInd := l.docInd + 1 }
  pure ret

/-- The directive loop of `Loader::parse` (parser/mod.rs:157-163). -/
def directives : Nat → LM Unit
  | 0 => diverge
  | n + 1 => fun l =>
    match lift (context directive) l with
    | (.ok (), l') => directives n l'
    | (.err .mismatch, l') => (.ok (), l')
    | (.err e, l') => (.err e, l')
    | (.panic p, l') => (.panic p, l')
    | (.diverge, l') => (.diverge, l')

/-- The document loop of `Loader::parse` (parser/mod.rs:167-177). -/
def docsLoop (n : Nat) : Nat → List Node → LM (List Node)
  | 0, _ => diverge
  | m + 1, v => do
    let _ ← lift (orDefault 0 (gap true))
    if (← lift food).isEmpty then pure v
    else if ← isOk (lift (symSeq b!"---")) then do
      let d ← doc n
      docsLoop n m (v ++ [d])
    else lerr "document splitter"

/-- `Loader::parse` (parser/mod.rs:156-178). -/
def loaderParse (n : Nat) : LM (List Node) := do
  directives n
  let _ ← lift (orDefault 0 (gap true))
  lift (orDefault () (symSeq b!"---"))
  let d ← doc n
  docsLoop n n [d]

/-- `parse` (parser/mod.rs:525-527), with fuel `n`. -/
def parse (h : HashCfg) (n : Nat) (doc : Bytes) : Out (List Node) :=
  (loaderParse n (Loader.new h doc)).1

/-- `parse_cyclic` (parser/mod.rs:543-546), with fuel `n`. -/
def parseCyclic (h : HashCfg) (n : Nat) (doc : Bytes) : Out (List Node × List Anchors) :=
  match loaderParse n { Loader.new h doc with cyclicMode := true } with
  | (r, l) => r.map fun root => (root, l.anchors)

end YamlPeg
