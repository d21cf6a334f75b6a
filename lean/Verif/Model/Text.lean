import Verif.Model.Basic
/-!
# Byte-level models of the Rust `std` string functions the crate calls

Strings are valid UTF-8 in Rust, so the char-wise functions are written on the
UTF-8 encodings of the characters.
-/

namespace YamlPeg

/-! ## ASCII classes (`u8::is_ascii_*`) -/

/-- `u8::is_ascii_digit` -/
def isDigit (c : UInt8) : Bool := 0x30 ≤ c && c ≤ 0x39
/-- `u8::is_ascii_alphanumeric` -/
def isAlnum (c : UInt8) : Bool :=
  isDigit c || (0x41 ≤ c && c ≤ 0x5A) || (0x61 ≤ c && c ≤ 0x7A)
/-- `u8::is_ascii_whitespace`: space, `\t`, `\n`, form feed, `\r`. -/
def isAsciiWs (c : UInt8) : Bool :=
  c == 0x20 || c == 0x09 || c == 0x0A || c == 0x0C || c == 0x0D

/-! ## UTF-8 decoding -/

/-- Is `c` a continuation byte (`c & 192 == 128`)? -/
def isCont (c : UInt8) : Bool := 0x80 ≤ c && c ≤ 0xBF

/-- Second-byte test of a three byte sequence (`core::str::lossy`). -/
def ok3 (b0 b1 : UInt8) : Bool :=
  (b0 == 0xE0 && 0xA0 ≤ b1 && b1 ≤ 0xBF) ||
  (0xE1 ≤ b0 && b0 ≤ 0xEC && isCont b1) ||
  (b0 == 0xED && 0x80 ≤ b1 && b1 ≤ 0x9F) ||
  (0xEE ≤ b0 && b0 ≤ 0xEF && isCont b1)

/-- Second-byte test of a four byte sequence (`core::str::lossy`). -/
def ok4 (b0 b1 : UInt8) : Bool :=
  (b0 == 0xF0 && 0x90 ≤ b1 && b1 ≤ 0xBF) ||
  (0xF1 ≤ b0 && b0 ≤ 0xF3 && isCont b1) ||
  (b0 == 0xF4 && 0x80 ≤ b1 && b1 ≤ 0x8F)

/-- First step of `core::str::Utf8Chunks`: from a non-empty input `c :: rest`,
`(valid, n)` where `n` is how many bytes *of `rest`* belong to the first
character (or to the first maximal invalid subpart). -/
def utf8Step (c : UInt8) (rest : Bytes) : Bool × Nat :=
  if c < 0x80 then (true, 0)
  else if 0xC2 ≤ c && c ≤ 0xDF then
    match rest with
    | b1 :: _ => if isCont b1 then (true, 1) else (false, 0)
    | [] => (false, 0)
  else if 0xE0 ≤ c && c ≤ 0xEF then
    match rest with
    | b1 :: r1 =>
      if ok3 c b1 then
        match r1 with
        | b2 :: _ => if isCont b2 then (true, 2) else (false, 1)
        | [] => (false, 1)
      else (false, 0)
    | [] => (false, 0)
  else if 0xF0 ≤ c && c ≤ 0xF4 then
    match rest with
    | b1 :: r1 =>
      if ok4 c b1 then
        match r1 with
        | b2 :: r2 =>
          if isCont b2 then
            match r2 with
            | b3 :: _ => if isCont b3 then (true, 3) else (false, 2)
            | [] => (false, 2)
          else (false, 1)
        | [] => (false, 1)
      else (false, 0)
    | [] => (false, 0)
  else (false, 0)

/-- Worker of `lossy`; the first argument bounds the number of characters. -/
def lossyAux : Nat → Bytes → Bytes
  | 0, _ => []
  | _, [] => []
  | n + 1, c :: rest =>
    match utf8Step c rest with
    | (true, k) => (c :: rest.take k) ++ lossyAux n (rest.drop k)
    | (false, k) => [0xEF, 0xBF, 0xBD] ++ lossyAux n (rest.drop k)

/-- `String::from_utf8_lossy`. -/
def lossy (s : Bytes) : Bytes := lossyAux s.length s

/-- Worker of `validUtf8`. -/
def validAux : Nat → Bytes → Bool
  | 0, s => s.isEmpty
  | _, [] => true
  | n + 1, c :: rest =>
    match utf8Step c rest with
    | (true, k) => validAux n (rest.drop k)
    | (false, _) => false

/-- The byte string is valid UTF-8 (what `&str` guarantees). -/
def validUtf8 (s : Bytes) : Bool := validAux s.length s

/-- Worker of `chars`. -/
def charsAux : Nat → Bytes → List Bytes
  | 0, _ => []
  | _, [] => []
  | n + 1, c :: rest =>
    let k := (utf8Step c rest).2
    (c :: rest.take k) :: charsAux n (rest.drop k)

/-- `str::chars`, each character kept as its UTF-8 encoding. -/
def chars (s : Bytes) : List Bytes := charsAux s.length s

/-! ## `char::is_whitespace` and the `trim` family

`char::is_whitespace` is the Unicode property `White_Space`:
U+0009–U+000D, U+0020, U+0085, U+00A0, U+1680, U+2000–U+200A, U+2028, U+2029,
U+202F, U+205F, U+3000. -/

/-- One-byte white space characters. -/
def isWs1 (c : UInt8) : Bool := (0x09 ≤ c && c ≤ 0x0D) || c == 0x20
/-- Two-byte white space characters. -/
def isWs2 (a c : UInt8) : Bool := a == 0xC2 && (c == 0x85 || c == 0xA0)
/-- Three-byte white space characters. -/
def isWs3 (a d c : UInt8) : Bool :=
  (a == 0xE1 && d == 0x9A && c == 0x80) ||
  (a == 0xE2 && d == 0x80 &&
    ((0x80 ≤ c && c ≤ 0x8A) || c == 0xA8 || c == 0xA9 || c == 0xAF)) ||
  (a == 0xE2 && d == 0x81 && c == 0x9F) ||
  (a == 0xE3 && d == 0x80 && c == 0x80)

/-- Trim on the reversed byte list (so the last character comes first). -/
def trimRev : Bytes → Bytes
  | [] => []
  | c :: r1 =>
    if isWs1 c then trimRev r1
    else match r1 with
      | [] => [c]
      | d :: r2 =>
        if isWs2 d c then trimRev r2
        else match r2 with
          | [] => [c, d]
          | a :: r3 => if isWs3 a d c then trimRev r3 else c :: d :: a :: r3

/-- `str::trim_end`. -/
def trimEnd (s : Bytes) : Bytes := (trimRev s.reverse).reverse

/-- `str::trim_start`. -/
def trimStart : Bytes → Bytes
  | [] => []
  | c :: r1 =>
    if isWs1 c then trimStart r1
    else match r1 with
      | [] => [c]
      | d :: r2 =>
        if isWs2 c d then trimStart r2
        else match r2 with
          | [] => [c, d]
          | a :: r3 => if isWs3 c d a then trimStart r3 else c :: d :: a :: r3

/-- `str::trim`. -/
def trim (s : Bytes) : Bytes := trimEnd (trimStart s)

/-- `s.ends_with(char::is_whitespace)`. -/
def endsWithWs (s : Bytes) : Bool :=
  match s.reverse with
  | [] => false
  | c :: r1 =>
    isWs1 c || match r1 with
      | [] => false
      | d :: r2 => isWs2 d c || match r2 with
        | [] => false
        | a :: _ => isWs3 a d c

/-- `s.ends_with(suffix)`. -/
def endsWith (s suf : Bytes) : Bool := suf.isSuffixOf s

/-- `s.starts_with(prefix)`. -/
def startsWith (s pre : Bytes) : Bool := pre.isPrefixOf s

/-- Worker of `trimEndMatches`, on reversed lists. -/
def trimPrefixes : Nat → Bytes → Bytes → Bytes
  | 0, _, s => s
  | n + 1, pat, s => if pat.isPrefixOf s then trimPrefixes n pat (s.drop pat.length) else s

/-- `s.trim_end_matches(pat)` for a non-empty string pattern. -/
def trimEndMatches (s pat : Bytes) : Bytes :=
  (trimPrefixes s.length pat.reverse s.reverse).reverse

/-- Pieces of `split_inclusive('\n')`. -/
def splitInclNl : Bytes → List Bytes
  | [] => []
  | c :: r =>
    if c == 0x0A then [c] :: splitInclNl r
    else match splitInclNl r with
      | [] => [[c]]
      | l :: ls => (c :: l) :: ls

/-- Drop the line ending of one `split_inclusive` piece, as `str::lines` does:
a final `\n`, and then a `\r` that preceded it. -/
def stripLine (l : Bytes) : Bytes :=
  match l.reverse with
  | 0x0A :: 0x0D :: r => r.reverse
  | 0x0A :: r => r.reverse
  | _ => l

/-- `str::lines`. -/
def lines (s : Bytes) : List Bytes := (splitInclNl s).map stripLine

/-- Worker of `replaceAll`; the first argument bounds the steps. -/
def replaceAux : Nat → Bytes → Bytes → Bytes
  | 0, _, s => s
  | _, _, [] => []
  | n + 1, pat, c :: r =>
    if pat.isPrefixOf (c :: r) then replaceAux n pat ((c :: r).drop pat.length)
    else c :: replaceAux n pat r

/-- `s.replace(pat, "")` for non-empty `pat`. -/
def removeAll (s pat : Bytes) : Bytes := replaceAux s.length pat s

/-- `s.contains(pat)`. -/
def containsSub (s pat : Bytes) : Bool :=
  match s with
  | [] => pat.isEmpty
  | c :: r => pat.isPrefixOf (c :: r) || containsSub r pat

/-- `parts.join(sep)`. -/
def joinBytes (sep : Bytes) : List Bytes → Bytes
  | [] => []
  | [x] => x
  | x :: xs => x ++ sep ++ joinBytes sep xs

/-- Decimal digits of a natural number (`Display` of unsigned integers). -/
def natDec (n : Nat) : Bytes := (Nat.toDigits 10 n).map (fun c => c.toNat.toUInt8)

/-- `Display` of a signed integer. -/
def intDec : Int → Bytes
  | .ofNat n => natDec n
  | .negSucc n => 0x2D :: natDec (n + 1)

/-- `" ".repeat(n)`. -/
def spaces (n : Nat) : Bytes := List.replicate n 0x20

end YamlPeg
