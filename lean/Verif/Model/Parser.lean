import Verif.Model.Indicator
/-!
# The base parser (src/parser/base/mod.rs)
-/

namespace YamlPeg

/-- `TakeOpt` (parser/base/mod.rs:8-17). -/
inductive TakeOpt where
  | one
  | range (lo hi : Nat)
  | more (lo : Nat)
  deriving DecidableEq, Repr

/-- Models `BTreeMap<String, V>`: a list of pairs.  `mapInsert` keeps it sorted
by key, so that iteration order is the Rust one. -/
def bytesLt : Bytes → Bytes → Bool
  | _, [] => false
  | [], _ :: _ => true
  | x :: xs, y :: ys => x < y || (x == y && bytesLt xs ys)

/-- `BTreeMap::insert`, the new map. -/
def mapInsert {V : Type} (k : Bytes) (v : V) : List (Bytes × V) → List (Bytes × V)
  | [] => [(k, v)]
  | (k', v') :: r =>
    if k == k' then (k, v) :: r
    else if bytesLt k k' then (k, v) :: (k', v') :: r
    else (k', v') :: mapInsert k v r

/-- `BTreeMap::get`. -/
def mapGet {V : Type} (k : Bytes) : List (Bytes × V) → Option V
  | [] => none
  | (k', v') :: r => if k == k' then some v' else mapGet k r

/-- `Parser` (parser/base/mod.rs:22-32).  `u64`/`usize` counters are `Nat`. -/
structure Parser where
  doc : Bytes
  indent : List Nat
  consumed : Nat
  versionChecked : Bool
  tag : List (Bytes × Bytes)
  pos : Nat
  eaten : Nat
  deriving DecidableEq, Repr

/-- `tag_prefix!()` / `DEFAULT_PREFIX` (parser/mod.rs:62-73). -/
def tagPrefix : Bytes := b!"tag:yaml.org,2002:"

/-- `Parser::new` = `Parser::default().with_doc(doc)`
(parser/base/mod.rs:34-61). -/
def Parser.new (doc : Bytes) : Parser where
  doc := doc
  indent := [0]
  consumed := 0
  versionChecked := false
  tag := mapInsert b!"!!" tagPrefix (mapInsert b!"!" [] [])
  pos := 0
  eaten := 0

/-- `Parser::with_doc` (parser/base/mod.rs:59-61). -/
def Parser.withDoc (p : Parser) (doc : Bytes) : Parser := { p with doc := doc }

/-- `Parser::pos` (parser/base/mod.rs:89-91). -/
def Parser.setPos (p : Parser) (pos : Nat) : Parser := { p with pos := pos, eaten := pos }

/-- The bytes after the cursor, without the range check. -/
def Parser.rest (p : Parser) : Bytes := p.doc.drop p.pos

/-- `Parser::indicator` (parser/base/mod.rs:94-96). -/
def Parser.indicator (p : Parser) : Nat := p.consumed + p.pos

/-- A method on `&mut Parser`. -/
abbrev PM := M Parser

open M

/-- `Parser::food` (parser/base/mod.rs:64-66): slicing panics past the end. -/
def food : PM Bytes := fun s =>
  if s.pos ≤ s.doc.length then (.ok s.rest, s) else (.panic .slice, s)

/-- `Parser::text` (parser/base/mod.rs:74-80). -/
def text : PM Bytes := fun s =>
  if s.eaten < s.pos then
    if s.pos ≤ s.doc.length then
      (.ok (lossy ((s.doc.take s.pos).drop s.eaten)), s)
    else (.panic .slice, s)
  else (.ok [], s)

/-- `Parser::err` (parser/base/mod.rs:99-104). -/
def errAt {α : Type} (name : String) : PM α := fun s =>
  match indicatedMsg s.doc s.indicator with
  | some m => (.err (.terminate name m), s)
  | none => (.panic .unreachable, s)

/-- `Parser::forward` (parser/base/mod.rs:115-117). -/
def forward : PM Unit := modify fun s => { s with eaten := s.pos }

/-- `Parser::backward` (parser/base/mod.rs:120-122). -/
def backward : PM Unit := modify fun s => { s with pos := s.eaten }

/-- `Parser::consume` (parser/base/mod.rs:107-112). -/
def consume : PM Unit := modify fun s =>
  let s := { s with eaten := s.pos }
  let s := { s with consumed := s.consumed + s.eaten }
  let s := { s with eaten := 0 }
  { s with pos := s.eaten }

/-- `Parser::back` (parser/base/mod.rs:125-127); `usize` subtraction. -/
def back (n : Nat) : PM Unit := fun s =>
  if n ≤ s.pos then (.ok (), { s with pos := s.pos - n }) else (.panic .underflow, s)

/-- The counting loop of `Parser::take_while` (parser/base/mod.rs:155-170):
how many bytes the loop accepts, starting from counter value `k`. -/
def takeCount (f : UInt8 → Bool) (opt : TakeOpt) : Bytes → Nat → Nat
  | [], k => k
  | c :: cs, k =>
    if f c then
      match opt with
      | .one => k + 1
      | .range _ hi => if k + 1 = hi then k + 1 else takeCount f opt cs (k + 1)
      | .more _ => takeCount f opt cs (k + 1)
    else k

/-- The minimal count of an option, if the option has one. -/
def TakeOpt.lo? : TakeOpt → Option Nat
  | .one => none
  | .range lo _ => some lo
  | .more lo => some lo

/-- `Parser::take_while` (parser/base/mod.rs:150-188). -/
def takeWhile (f : UInt8 → Bool) (opt : TakeOpt) : PM Unit := fun s =>
  if s.pos ≤ s.doc.length then
    let n := takeCount f opt s.rest 0
    if n = 0 then
      if opt.lo? = some 0 then (.ok (), s)
      else (.err .mismatch, { s with pos := s.eaten })
    else
      match opt.lo? with
      | some lo =>
        if n < lo then (.err .mismatch, { s with pos := s.eaten })
        else (.ok (), { s with pos := s.pos + n })
      | none => (.ok (), { s with pos := s.pos + n })
  else (.panic .slice, s)

/-- `Parser::not_in` (parser/base/mod.rs:218-227). -/
def notIn (set : Bytes) (c : UInt8) : Bool := !(set.contains c)

/-- `Parser::is_in` (parser/base/mod.rs:213-215). -/
def isIn (set : Bytes) (c : UInt8) : Bool := !(notIn set c)

/-- `Parser::sym_set` (parser/base/mod.rs:135-137). -/
def symSet (set : Bytes) : PM Unit := takeWhile (isIn set) .one

/-- `Parser::sym` (parser/base/mod.rs:130-132). -/
def sym (c : UInt8) : PM Unit := symSet [c]

/-- `Parser::sym_seq` (parser/base/mod.rs:140-145). -/
def symSeq : Bytes → PM Unit
  | [] => pure ()
  | c :: cs => do sym c; symSeq cs

/-- `Parser::count` (parser/base/mod.rs:191-198). -/
def count {α : Type} (f : PM α) : PM Nat := do
  let p0 ← get
  let _ ← f
  let p1 ← get
  if p0.pos ≤ p1.pos then pure (p1.pos - p0.pos) else M.panic .underflow

/-- `Parser::context` (parser/base/mod.rs:201-210).  The closure's `Result` is
handed through; `eaten` is restored in every case. -/
def context {α : Type} (f : PM α) : PM α := fun s =>
  let (r, s') := f { s with eaten := s.pos }
  (r, { s' with eaten := s.eaten })

/-- Match `n` spaces one by one (parser/base/mod.rs:239-241). -/
def symTimes (c : UInt8) : Nat → PM Unit
  | 0 => pure ()
  | n + 1 => do sym c; symTimes c n

/-- The indent table after the bookkeeping of `Parser::ind`
(parser/base/mod.rs:231-238): extended with `2`s up to `level`, or the entries
past `level` dropped. -/
def indentFor (level : Nat) (indent : List Nat) : List Nat :=
  if level ≥ indent.length then
    indent ++ List.replicate (level - indent.length + 1) 2
  else indent.take (level + 1)

/-- `Parser::ind` (parser/base/mod.rs:230-243). -/
def ind (level : Nat) : PM Unit := do
  modify fun s => { s with indent := indentFor level s.indent }
  let s ← get
  symTimes 0x20 ((s.indent.take (level + 1)).sum)

end YamlPeg
