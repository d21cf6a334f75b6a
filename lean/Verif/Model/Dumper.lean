import Verif.Model.Loader
/-!
# The dumper (src/dumper.rs)
-/

namespace YamlPeg
open M

/-- Platform and `std` parameters of the dumper. -/
structure DumpCfg where
  /-- `cfg!(windows)` (dumper.rs:16) -/
  windows : Bool
  /-- `char::escape_debug` of one non-ASCII character (its UTF-8 bytes); which
  of them Rust escapes depends on Unicode tables that are not modelled. -/
  escNonAscii : Bytes → Bytes

/-- `NL` (dumper.rs:16). -/
def DumpCfg.nl (c : DumpCfg) : Bytes := if c.windows then b!"\r\n" else b!"\n"

/-- `Root` (dumper.rs:18-23). -/
inductive Root where
  | scalar | map | array
  deriving DecidableEq, Repr

/-- Lower-case hexadecimal digits. -/
def natHex (n : Nat) : Bytes := (Nat.toDigits 16 n).map (fun c => c.toNat.toUInt8)

/-- `char::escape_debug` of one character inside a `str` (`std`). -/
def escDebugChar (cfg : DumpCfg) (ch : Bytes) : Bytes :=
  match ch with
  | [c] =>
    if c == 0 then b!"\\0"
    else if c == 0x09 then b!"\\t"
    else if c == 0x0D then b!"\\r"
    else if c == 0x0A then b!"\\n"
    else if c == 0x22 then b!"\\\""
    else if c == 0x5C then b!"\\\\"
    else if c < 0x20 || c == 0x7F then b!"\\u{" ++ natHex c.toNat ++ b!"}"
    else [c]
  | _ => cfg.escNonAscii ch

/-- `{s:?}` for a string. -/
def debugStr (cfg : DumpCfg) (s : Bytes) : Bytes :=
  b!"\"" ++ ((chars s).map (escDebugChar cfg)).flatten ++ b!"\""

/-- `"  ".repeat(level)` (dumper.rs:63). -/
def indent2 (level : Nat) : Bytes := spaces (2 * level)

/-- The first anchor whose node equals this node (dumper.rs:46-50). -/
def findAnchor (n : Node) : Anchors → Out (Option Bytes)
  | [] => .ok none
  | (k, v) :: r =>
    match Node.eq? v n with
    | .ok true => .ok (some k)
    | .ok false => findAnchor n r
    | .err e => .err e
    | .panic p => .panic p
    | .diverge => .diverge

/-- The anchor text in front of a node (dumper.rs:46-52). -/
def anchorText (n : Node) (anchors : Anchors) : Out Bytes :=
  (findAnchor n anchors).map fun
    | some a => b!"&" ++ a ++ b!" "
    | none => []

/-- The tag text in front of a node (dumper.rs:53-62).  The inner
`starts_with(tag_prefix!())` branch is dead code. -/
def tagText (n : Node) : Bytes :=
  let t := n.tagOf
  if !t.isEmpty && !startsWith t tagPrefix then
    if (identifier (Parser.new t)).1.isOk then b!"!" ++ t ++ b!" "
    else b!"!<" ++ t ++ b!"> "
  else []

/-- A string scalar (dumper.rs:68-93), `n` is the fuel of `string_plain`. -/
def dumpStr (cfg : DumpCfg) (n level : Nat) (s : Bytes) : Out Bytes :=
  if (lines s).length ≥ 2 then
    let body := joinBytes cfg.nl ((lines s).map fun l =>
      if l.isEmpty then [] else indent2 level ++ trimEnd l)
    .ok (b!"|" ++ cfg.nl ++ indent2 level ++ trim body)
  else
    match (stringPlain n 0 false (Parser.new s)).1 with
    | .ok _ => .ok s
    | .err _ => .ok (debugStr cfg s)
    | .panic p => .panic p
    | .diverge => .diverge

/-- `buf.truncate(buf.len() - NL.len())` (dumper.rs:103, 133). -/
def truncNl (cfg : DumpCfg) (buf : Bytes) : Out Bytes :=
  if cfg.nl.length ≤ buf.length then .ok (buf.take (buf.length - cfg.nl.length))
  else .panic .underflow

/-- Sequencing of outcomes. -/
def Out.bind {α β : Type} (x : Out α) (f : α → Out β) : Out β :=
  match x with
  | .ok a => f a
  | .err e => .err e
  | .panic p => .panic p
  | .diverge => .diverge

instance : Monad Out where
  pure := .ok
  bind := Out.bind

/-- Is it a collection? (dumper.rs:116) -/
def Yaml.isColl : Yaml → Bool
  | .seq _ => true
  | .map _ => true
  | _ => false

/-- The level a map value is dumped at (dumper.rs:123-130). -/
def valueLevel (root : Root) (level : Nat) (first : Bool) : Yaml → Nat
  | .seq _ => if root = .array && first then level else level + 1
  | _ => level + 1

mutual
/-- `Dumper::dump` (dumper.rs:44-139). -/
def dumpNode (cfg : DumpCfg) (n : Nat) (anchors : Anchors) (root : Root) (level : Nat) :
    Node → Out Bytes
  | .mk pos t y => do
    let a ← anchorText (.mk pos t y) anchors
    let body ← dumpYaml cfg n anchors root level y
    pure (a ++ tagText (.mk pos t y) ++ body)

/-- The `match` of `Dumper::dump` (dumper.rs:64-137). -/
def dumpYaml (cfg : DumpCfg) (n : Nat) (anchors : Anchors) (root : Root) (level : Nat) :
    Yaml → Out Bytes
  | .null => .ok b!"null"
  | .bool v => .ok (if v then b!"true" else b!"false")
  | .int s => .ok s
  | .float s => .ok s
  | .str s => dumpStr cfg n level s
  | .seq v => do
    let buf ← dumpItems cfg n anchors level true v
    truncNl cfg (cfg.nl ++ buf)
  | .map m => do
    let buf ← dumpEntries cfg n anchors root level true m
    truncNl cfg ((if root = .map then cfg.nl else []) ++ buf)
  | .alias a => .ok (b!"*" ++ a)

/-- The loop over sequence items (dumper.rs:96-102); `first` is `i == 0`. -/
def dumpItems (cfg : DumpCfg) (n : Nat) (anchors : Anchors) (level : Nat) (first : Bool) :
    List Node → Out Bytes
  | [] => .ok []
  | x :: xs => do
    let s ← dumpNode cfg n anchors .array (level + 1) x
    let r ← dumpItems cfg n anchors level false xs
    pure ((if !first || level != 0 then indent2 level else []) ++ b!"- " ++ s ++ cfg.nl ++ r)

/-- The loop over map entries (dumper.rs:111-132). -/
def dumpEntries (cfg : DumpCfg) (n : Nat) (anchors : Anchors) (root : Root) (level : Nat)
    (first : Bool) : List (Node × Node) → Out Bytes
  | [] => .ok []
  | e :: es => do
    let s ← dumpEntry cfg n anchors root level first e
    let r ← dumpEntries cfg n anchors root level false es
    pure (s ++ r)

/-- One map entry (dumper.rs:112-131). -/
def dumpEntry (cfg : DumpCfg) (n : Nat) (anchors : Anchors) (root : Root) (level : Nat)
    (first : Bool) : Node × Node → Out Bytes
  | (k, v) => do
    let s ← dumpNode cfg n anchors .map (level + 1) k
    let key := if k.yaml.isColl then
        b!"?" ++ indent2 (level + 1) ++ cfg.nl ++ s ++ cfg.nl ++ indent2 level
      else s
    let t ← dumpNode cfg n anchors .map (valueLevel root level first v.yaml) v
    let val := if v.yaml.isColl then t else b!" " ++ t
    pure ((if !first || root = .map then indent2 level else []) ++ key ++ b!":" ++ val ++ cfg.nl)
end

/-- `Dumper::new(node, anchors).dump()` (dumper.rs:35-44), the public form of one `Dumper`. -/
def dumperDump (cfg : DumpCfg) (n : Nat) (x : Node) (anchors : Anchors) : Out Bytes :=
  dumpNode cfg n anchors .scalar 0 x

/-- The loop over the documents (dumper.rs:169-184). -/
def dumpDocs (cfg : DumpCfg) (n : Nat) (anchors : List Anchors) : Nat → List Node → Out Bytes
  | _, [] => .ok []
  | i, x :: xs => do
    let d ← dumperDump cfg n x (anchors.getD i [])
    let d := d ++ cfg.nl
    let d := if i = 0 then d else b!"---" ++ cfg.nl ++ trimStart d
    let r ← dumpDocs cfg n anchors (i + 1) xs
    pure (d ++ r)

/-- `dump` (dumper.rs:167-185). -/
def dump (cfg : DumpCfg) (n : Nat) (nodes : List Node) (anchors : List Anchors) : Out Bytes :=
  dumpDocs cfg n anchors 0 nodes

end YamlPeg
