import Verif.Model.Parser
/-!
# The low level grammar (src/parser/base/grammar.rs)

Loops that always make progress carry their own fuel (remaining bytes + 1); a
theorem shows it never runs out.  `stringQuoted` and `stringPlain` do *not*
always make progress, so they take the fuel as an argument.
-/

namespace YamlPeg
open M

/-- `Parser::ws` (grammar.rs:345-350). -/
def ws (opt : TakeOpt) : PM Unit :=
  takeWhile (fun c => isAsciiWs c && c != 0x0A && c != 0x0D) opt

/-- `Parser::inv` (grammar.rs:365-367). -/
def inv (opt : TakeOpt) : PM Unit := takeWhile isAsciiWs opt

/-- `Parser::nl` (grammar.rs:353-362). -/
def nl : PM Unit := context do
  if ← isOk (symSeq b!"\r\n") then pure ()
  else if ← isOk (symSeq b!"\n\r") then pure ()
  else if ← isOk (sym 0x0A) then pure ()
  else if ← isOk (sym 0x0D) then pure ()
  else mismatch

/-- `Parser::comment` (grammar.rs:410-414). -/
def comment : PM Unit := do
  ws (.more 0)
  sym 0x23
  takeWhile (notIn b!"\n\r") (.more 0)

/-- The loop of `Parser::gap` (grammar.rs:393-405). -/
def gapLoop (cmt : Bool) : Nat → Nat → PM Nat
  | 0, _ => diverge
  | n + 1, t => do
    forward
    ws (.more 0)
    runIf cmt (orDefault () comment)
    if ← isOk nl then gapLoop cmt n (t + 1)
    else do
      backward
      pure t

/-- `Parser::gap` (grammar.rs:386-407). -/
def gap (cmt : Bool) : PM Nat := context do
  runIf cmt (orDefault () comment)
  nl
  let s ← get
  gapLoop cmt (s.rest.length + 1) 1

/-- `Parser::bound` (grammar.rs:11-15). -/
def bound : PM Unit := do
  symSet b!":{}[] ,\n\r"
  back 1
  ws (.more 0)

/-- `Parser::complex_mapping` (grammar.rs:18-21). -/
def complexMapping : PM Unit := do
  sym 0x3F
  bound

/-- `Parser::num_prefix` (grammar.rs:23-26). -/
def numPrefix : PM Unit := do
  orDefault () (sym 0x2D)
  takeWhile isDigit (.more 1)

/-- `Parser::ascii_digit` (grammar.rs:50-52). Note the strict comparisons with
`a`/`A`: the letter `a` itself is *not* accepted, and `a+1 .. a+i-1` are. -/
def asciiDigit (i : UInt8) (c : UInt8) : Bool :=
  isDigit c || (c > 0x61 && c < 0x61 + i) || (c > 0x41 && c < 0x41 + i)

/-- `Parser::octal` (grammar.rs:40-43). -/
def octal : PM Unit := do
  sym 0x6F
  takeWhile (asciiDigit 8) (.more 1)

/-- `Parser::hexadecimal` (grammar.rs:45-48). -/
def hexadecimal : PM Unit := do
  sym 0x78
  takeWhile (asciiDigit 16) (.more 1)

/-- `p.octal().is_ok() || p.hexadecimal().is_ok()` (grammar.rs:32). -/
def octalOrHex : PM Bool := do
  if ← isOk octal then pure true else isOk hexadecimal

/-- `Parser::int` (grammar.rs:29-38). -/
def int : PM Bytes := do
  numPrefix
  let s ← text
  let s ← (do
    if s == b!"0" then
      if ← context octalOrHex then text else pure s
    else pure s)
  ws (.more 0)
  bound
  pure s

/-- The tail shared by `float` and `sci_float` (grammar.rs:60-63, 74-77). -/
def floatTail : PM Unit := do
  let n ← count (ws (.more 0))
  runIf (decide (n > 0)) (back 1)
  bound

/-- `Parser::float` (grammar.rs:55-65). -/
def float : PM Bytes := do
  numPrefix
  sym 0x2E
  takeWhile isDigit (.more 0)
  let s ← text
  floatTail
  pure (trimEndMatches s b!".0")

/-- `Parser::sci_float` (grammar.rs:68-79). -/
def sciFloat : PM Bytes := do
  numPrefix
  symSet b!"eE"
  takeWhile (isIn b!"+-") (.range 0 1)
  takeWhile isDigit (.more 1)
  let s ← text
  floatTail
  pure s

/-- The text update of a quoted string at a line break of `t` newlines
(grammar.rs:97-114). -/
def quotedBreak (v : Bytes) (t : Nat) : Bytes :=
  let t := if endsWith v b!"\\" then t - 1 else t
  if t < 1 then v
  else if t = 1 then
    let v := trimEnd v
    if endsWith v b!"\\n" then v else v ++ b!" "
  else v ++ List.replicate (t - 1) 0x0A

/-- The loop of `Parser::string_quoted` (grammar.rs:89-122). -/
def quotedLoop (q : UInt8) (ignore : Bytes) : Nat → Bytes → PM Bytes
  | 0, _ => diverge
  | n + 1, v => do
    forward
    takeWhile (notIn [0x0A, 0x0D, 0x5C, q]) (.more 0)
    let v := v ++ (← text)
    forward
    if ← isOk (symSeq ignore) then quotedLoop q ignore n (v ++ [q])
    else match ← try? (gap false) with
      | some t => do
        let v := quotedBreak v t
        ws (.more 0)
        quotedLoop q ignore n v
      | none =>
        if ← isOk (sym 0x5C) then quotedLoop q ignore n (v ++ [0x5C])
        else if ← isOk (sym q) then pure v
        else quotedLoop q ignore n v

/-- `Parser::string_quoted` (grammar.rs:82-125). -/
def stringQuoted (n : Nat) (q : UInt8) (ignore : Bytes) : PM Bytes := context do
  sym q
  forward
  ws (.more 0)
  let v ← text
  quotedLoop q ignore n v

/-- The end-of-plain-scalar test (grammar.rs:141-144). -/
def plainStop : PM Bool := do
  if (← food).isEmpty then pure true
  else if ← isOk (symSeq b!": ") then pure true
  else if ← (do if ← isOk (sym 0x3A) then isOk nl else pure false) then pure true
  else isOk (symSeq b!" #")

/-- The text update of a plain scalar at a line break (grammar.rs:161-166). -/
def plainBreak (v : Bytes) (t : Nat) : Bytes :=
  (if t = 1 then v ++ b!" " else v) ++ List.replicate (t - 1) 0x0A

/-- The loop of `Parser::string_plain` (grammar.rs:136-175). `patt` is the set
of stop bytes, `lead` is the Rust variable `is_leading`. -/
def plainLoop (level : Nat) (inner : Bool) (patt : Bytes) : Nat → Bytes → Bool → PM Bytes
  | 0, _, _ => diverge
  | n + 1, v, lead => do
    forward
    takeWhile (notIn patt) (.more 0)
    let v := v ++ (← text)
    forward
    if ← plainStop then do
      backward
      pure v
    else do
      forward
      if ← isOk (symSet b!": ") then do
        let t ← text
        let v := if lead && t == b!" " then trimEnd v else v
        plainLoop level inner patt n (v ++ t) lead
      else if ← (if !inner && !v.isEmpty then isOk (symSet b!"{}[]") else pure false) then do
        let t ← text
        plainLoop level inner patt n (v ++ t) false
      else if ← isOk (ind level) then
        plainLoop level inner patt n v lead
      else match ← try? (gap true) with
        | some t =>
          let v := plainBreak v t
          if ← isOk (ind level) then plainLoop level inner patt n v true
          else pure v
        | none => pure v

/-- Stop bytes of a plain scalar (grammar.rs:129-132). -/
def plainPatt (inner : Bool) : Bytes :=
  if inner then b!"[]{}: \n\r," else b!"[]{}: \n\r"

/-- `Parser::string_plain` (grammar.rs:128-183). -/
def stringPlain (n : Nat) (level : Nat) (inner : Bool) : PM Bytes := context do
  let v ← plainLoop level inner (plainPatt inner) n [] false
  let v := trimEnd v
  if v.isEmpty then mismatch else pure v

/-- Append one line to a block scalar (grammar.rs:238-249). -/
def wrappedPush (sep : UInt8) (leading : Bool) (v s : Bytes) : Bytes :=
  if leading then
    (if !v.isEmpty then v ++ [sep] else v) ++ s
  else
    (if !v.isEmpty && !endsWithWs v then v ++ [sep] else v) ++ trimStart s

/-- The loop of `Parser::string_wrapped` (grammar.rs:220-250). -/
def wrappedLoop (level : Nat) (sep : UInt8) (leading : Bool) : Nat → Bytes → PM Bytes
  | 0, _ => diverge
  | n + 1, v => do
    nl
    forward
    let line (v : Bytes) : PM Bytes := do
      forward
      takeWhile (notIn b!"\n\r") (.more 0)
      let s ← text
      wrappedLoop level sep leading n (wrappedPush sep leading v s)
    if ← isOk (ind level) then line v
    else match ← try? (gap false) with
      | some t =>
        let v := v ++ List.replicate t 0x0A
        if ← isOk (ind level) then line v else pure v
      | none => pure v

/-- `Parser::string_wrapped` (grammar.rs:217-255). -/
def stringWrapped (level : Nat) (sep : UInt8) (leading : Bool) : PM Bytes := context do
  let s ← get
  let v ← wrappedLoop level sep leading (s.rest.length + 1) []
  back 1
  pure (v ++ [0x0A])

/-- The chomping functions (grammar.rs:206-212). -/
inductive Chomp where
  | strip | keep | clip
  deriving DecidableEq, Repr

def Chomp.apply : Chomp → Bytes → Bytes
  | .strip, s => trimEnd s
  | .keep, s => s
  | .clip, s => trimEnd s ++ [0x0A]

/-- `Parser::chomp` (grammar.rs:204-214). -/
def chomp : PM Chomp := context do
  if ← isOk (sym 0x2D) then pure .strip
  else if ← isOk (sym 0x2B) then pure .keep
  else pure .clip

/-- `Parser::string_literal` (grammar.rs:186-192). -/
def stringLiteral (level : Nat) : PM Bytes := do
  sym 0x7C
  let c ← chomp
  ws (.more 0)
  let s ← stringWrapped level 0x0A true
  pure (c.apply s)

/-- `Parser::string_folded` (grammar.rs:195-201). -/
def stringFolded (level : Nat) : PM Bytes := do
  sym 0x3E
  let c ← chomp
  ws (.more 0)
  let s ← stringWrapped level 0x20 false
  pure (c.apply s)

/-- What an escaped character stands for (grammar.rs:266-274). -/
def unescapeByte (c : UInt8) : UInt8 :=
  if c == 0x6E then 0x0A        -- n
  else if c == 0x72 then 0x0D   -- r
  else if c == 0x74 then 0x09   -- t
  else if c == 0x62 then 0x08   -- b
  else if c == 0x66 then 0x0C   -- f
  else c                        -- `\\` and every other character

/-- The loop of `Parser::escape` (grammar.rs:258-278), `esc` is the Rust
variable `b`.  Rust iterates over characters; only ASCII characters are treated
specially, so going byte by byte is the same. -/
def escapeGo : Bool → Bytes → Bytes
  | _, [] => []
  | esc, c :: cs =>
    if c == 0x5C && !esc then escapeGo true cs
    else (if esc then unescapeByte c else c) :: escapeGo false cs

/-- `Parser::escape` (grammar.rs:258-278). -/
def escape (doc : Bytes) : Bytes := escapeGo false doc

/-- `Parser::identifier` (grammar.rs:281-287). -/
def identifier : PM Unit := do
  takeWhile isAlnum .one
  takeWhile (fun c => isAlnum c || c == 0x2D) (.more 0)

/-- `p.tag[key].clone()`: `BTreeMap` indexing panics on a missing key
(grammar.rs:298, 311, 313). -/
def tagLookup (key : Bytes) : PM Bytes := fun s =>
  match mapGet key s.tag with
  | some v => (.ok v, s)
  | none => (.panic .tagHandle, s)

/-- The prefix part of `Parser::tag` (grammar.rs:295-314). -/
def tagPrefixPart (handle : Bytes) : PM Bytes := do
  if !handle.isEmpty then
    if ← isOk (sym 0x21) then tagLookup handle else pure []
  else if ← isOk (sym 0x3C) then do
    let t ← context (do
      takeWhile (notIn b!" <>\n\r") (.more 1)
      text)
    sym 0x3E
    pure t
  else if ← isOk (sym 0x21) then tagLookup b!"!!"
  else tagLookup b!"!"

/-- `Parser::tag` (grammar.rs:290-324). -/
def tag : PM Bytes := do
  sym 0x21
  context do
    orDefault () identifier
    let handle ← text
    let pre ← tagPrefixPart handle
    let doc ← context (do
      if ← isOk identifier then text else pure [])
    pure (pre ++ doc)

/-- `Parser::anchor` (grammar.rs:327-333). -/
def anchor : PM Bytes := do
  sym 0x26
  context (do identifier; text)

/-- `Parser::anchor_use` (grammar.rs:336-342). -/
def anchorUse : PM Bytes := do
  sym 0x2A
  context (do identifier; text)

/-- `Parser::ind_define` (grammar.rs:370-381). -/
def indDefine (level : Nat) : PM Unit := do
  runIf (decide (level > 0)) (ind (level - 1))
  let n ← count (takeWhile isAsciiWs (.more 0))
  let s ← get
  if level = s.indent.length then
    modify fun s => { s with indent := s.indent ++ [n] }
  else if level < s.indent.length then
    modify fun s => { s with indent := s.indent.set level n }
  else M.panic .index

/-! ## Directives (src/parser/base/directive.rs) -/

/-- `Parser::directive_yaml` (directive.rs:21-31). -/
def directiveYaml : PM Unit := do
  ws (.more 1)
  let s ← get
  if s.versionChecked then errAt "checked version"
  else if ← context (do
      if ← isOk (symSeq b!"1.1") then pure true else isOk (symSeq b!"1.2")) then
    modify fun s => { s with versionChecked := true }
  else errAt "invalid version"

/-- The handle part of `Parser::directive_tag` (directive.rs:37-45). -/
def directiveHandle : PM Bytes := do
  if ← isOk identifier then do
    let t ← text
    sym 0x21
    pure t
  else if ← isOk (sym 0x21) then pure b!"!!"
  else pure b!"!"

/-- `Parser::directive_tag` (directive.rs:33-54). -/
def directiveTag : PM Unit := do
  ws (.more 1)
  sym 0x21
  context do
    let handle ← directiveHandle
    ws (.more 1)
    let doc ← context (do
      takeWhile (notIn b!" \n\r") (.more 1)
      text)
    modify fun s => { s with tag := mapInsert handle doc s.tag }

/-- `Parser::directive` (directive.rs:6-19). -/
def directive : PM Unit := do
  sym 0x25
  context (do
    if ← isOk (symSeq b!"YAML") then directiveYaml
    else if ← isOk (symSeq b!"TAG") then directiveTag
    else takeWhile (notIn b!"\n\r") (.more 0))
  let _ ← gap true
  pure ()

end YamlPeg
