import Verif.Model.Text
/-!
# `indicated_msg` (src/indicator.rs)
-/

namespace YamlPeg

/-- `doc.split(|c| *c == b'\n')`: always at least one piece. (indicator.rs:24) -/
def splitNl : Bytes → List Bytes
  | [] => [[]]
  | c :: r =>
    if c == 0x0A then [] :: splitNl r
    else match splitNl r with
      | [] => [[c]]
      | l :: ls => (c :: l) :: ls

/-- The message built for a line (indicator.rs:28-35). -/
def lineMsg (line column : Nat) (text : Bytes) : Bytes :=
  natDec (line + 1) ++ [0x3A] ++ natDec (column + 1) ++ [0x0A] ++
    lossy text ++ [0x0A] ++ spaces column ++ [0x5E]

/-- The loop of `indicated_msg` (indicator.rs:24-38). `none` models
`unreachable!()` (indicator.rs:39). -/
def indicatedLoop : List Bytes → Nat → Nat → Option Bytes
  | [], _, _ => none
  | l :: ls, line, pos =>
    if l.length + 1 > pos then some (lineMsg line pos l)
    else indicatedLoop ls (line + 1) (pos - (l.length + 1))

/-- `indicated_msg` (indicator.rs:23-40); `none` models the panic. -/
def indicatedMsg (doc : Bytes) (pos : Nat) : Option Bytes :=
  indicatedLoop (splitNl doc) 0 pos

/-- `indicated_msg_file` (indicator.rs:58-60). -/
def indicatedMsgFile (path doc : Bytes) (pos : Nat) : Option Bytes :=
  (indicatedMsg doc pos).map fun m => path ++ [0x3A] ++ m

end YamlPeg
