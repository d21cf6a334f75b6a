/-!
# Basic notions of the model: bytes, outcomes, the state monad

The crate works on UTF-8 byte slices (`&[u8]`) and owned UTF-8 strings
(`String`).  Both are modelled as lists of bytes.

Every Rust method taking `&mut self` becomes a function `σ → Out α × σ`.
The new state is returned *also when the method fails*, because Rust does not
roll back `&mut self` on `Err`, and the parser relies on it.
-/

namespace YamlPeg

/-- A byte string; models `&[u8]`, `&str` and `String`. -/
abbrev Bytes := List UInt8

/-- `b!"..."` is the explicit list of the UTF-8 bytes of the literal; it stands
for Rust's `b"..."` and `"..."`.  It is expanded while elaborating. -/
syntax:max "b!" str : term

open Lean in
macro_rules
  | `(b! $s:str) => do
    let elems := s.getString.toUTF8.toList.map fun c => Syntax.mkNumLit (toString c.toNat)
    let elems := elems.toArray
    `(([$elems,*] : List UInt8))

/-- The Rust panics the modelled code can in principle raise. -/
inductive Panic where
  /-- `&self.doc[self.pos..]` with `pos > len`  (parser/base/mod.rs:64-66, 74-80) -/
  | slice
  /-- unsigned subtraction below zero (overflow checks on: debug profile) -/
  | underflow
  /-- `Vec`/`slice` index out of range -/
  | index
  /-- `BTreeMap` index with a missing tag handle (grammar.rs:298,311,313) -/
  | tagHandle
  /-- `to_i64(..).unwrap()` on `Err` (yaml.rs:173, serde) -/
  | intUnwrap
  /-- `to_f64(..).unwrap()` on `Err` (yaml.rs:175-176, serde) -/
  | floatUnwrap
  /-- `unreachable!()` (indicator.rs:39, serde/de.rs:181,499, serde/ser.rs:343) -/
  | unreachable
  /-- `panic!("out of bound!")` of the `Index` impls (node.rs:487,502,504) -/
  | outOfBound
  deriving DecidableEq, Repr

/-- `PError` (parser/error.rs:11-21). -/
inductive PErr where
  | mismatch
  | terminate (name : String) (msg : Bytes)
  deriving DecidableEq, Repr

/-- Outcome of running modelled code: a Rust `Result<α, PError>`, or a panic,
or "the fuel ran out" (`diverge`).  A computation whose outcome is `diverge`
for *every* fuel is one the Rust program never finishes. -/
inductive Out (α : Type) where
  | ok (a : α)
  | err (e : PErr)
  | panic (p : Panic)
  | diverge
  deriving DecidableEq, Repr

namespace Out

def map {α β : Type} (f : α → β) : Out α → Out β
  | ok a => ok (f a)
  | err e => err e
  | panic p => panic p
  | diverge => diverge

def isOk {α : Type} : Out α → Bool
  | ok _ => true
  | _ => false

end Out

/-- A Rust method on `&mut σ` returning `PResult<α>`. -/
@[reducible] def M (σ α : Type) := σ → Out α × σ

namespace M
variable {σ α β : Type}

@[inline] protected def pure (a : α) : M σ α := fun s => (.ok a, s)

/-- Sequencing with Rust's `?`. -/
@[inline] protected def bind (x : M σ α) (f : α → M σ β) : M σ β := fun s =>
  match x s with
  | (.ok a, s') => f a s'
  | (.err e, s') => (.err e, s')
  | (.panic p, s') => (.panic p, s')
  | (.diverge, s') => (.diverge, s')

instance : Monad (M σ) where
  pure := M.pure
  bind := M.bind

@[inline] def run (x : M σ α) (s : σ) : Out α × σ := x s

/-- `&self` read access. -/
@[inline] def get : M σ σ := fun s => (.ok s, s)

/-- A plain field assignment. -/
@[inline] def modify (f : σ → σ) : M σ Unit := fun s => (.ok (), f s)

/-- `Err(e)`. -/
@[inline] def throw (e : PErr) : M σ α := fun s => (.err e, s)

/-- `Err(PError::Mismatch)`. -/
@[inline] def mismatch : M σ α := throw .mismatch

/-- A Rust panic. -/
@[inline] def panic (p : Panic) : M σ α := fun s => (.panic p, s)

/-- `if c { x }`. -/
@[inline] def runIf (c : Bool) (x : M σ Unit) : M σ Unit := if c then x else pure ()

/-- Out of fuel. -/
@[inline] def diverge : M σ α := fun s => (.diverge, s)

/-- `.ok()` / `if let Ok(s) = ..` / `.is_ok()`: any `Err` becomes `none`.
The state changes made before the error stay. -/
@[inline] def try? (x : M σ α) : M σ (Option α) := fun s =>
  match x s with
  | (.ok a, s') => (.ok (some a), s')
  | (.err _, s') => (.ok none, s')
  | (.panic p, s') => (.panic p, s')
  | (.diverge, s') => (.diverge, s')

/-- `.is_ok()` -/
@[inline] def isOk (x : M σ α) : M σ Bool := fun s =>
  match x s with
  | (.ok _, s') => (.ok true, s')
  | (.err _, s') => (.ok false, s')
  | (.panic p, s') => (.panic p, s')
  | (.diverge, s') => (.diverge, s')

/-- `.unwrap_or_default()` with default `d`. -/
@[inline] def orDefault (d : α) (x : M σ α) : M σ α := fun s =>
  match x s with
  | (.ok a, s') => (.ok a, s')
  | (.err _, s') => (.ok d, s')
  | (.panic p, s') => (.panic p, s')
  | (.diverge, s') => (.diverge, s')

/-- `x.or_else(|e| e.or(|| y))` with `PError::or` (parser/error.rs:26-34):
`y` runs only when `x` mismatched; a `Terminate` error stays. -/
@[inline] def orElseMismatch (x : M σ α) (y : M σ α) : M σ α := fun s =>
  match x s with
  | (.ok a, s') => (.ok a, s')
  | (.err .mismatch, s') => y s'
  | (.err e, s') => (.err e, s')
  | (.panic p, s') => (.panic p, s')
  | (.diverge, s') => (.diverge, s')

end M
end YamlPeg
