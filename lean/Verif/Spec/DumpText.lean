import Verif.Model.Node
import Verif.Proof.Utf8
/-!
# Nodes whose texts hold no stray line feed
-/

namespace YamlPeg

/-- One line and its line feed: the texts `dump` does not take for several lines. -/
def OneLineFeed (s : Bytes) : Prop := ∃ a, (0x0A : UInt8) ∉ a ∧ s = a ++ [0x0A]

/-- One of the things that end a plain scalar occurs in the text. -/
def HasSeparator (s : Bytes) : Prop := b!": " <:+: s ∨ b!":\n" <:+: s ∨ b!":\r" <:+: s ∨ b!" #" <:+: s

/-- The texts of the node itself that are written as they are hold no line feed: tag, number, alias; and if its
string (UTF-8, as Rust has it) is one line with a line feed behind it, it has no separator in it. -/
structure PlainTexts (m : Node) : Prop where
  tag : (0x0A : UInt8) ∉ m.tagOf
  word : ∀ s, m.yaml = .int s ∨ m.yaml = .float s ∨ m.yaml = .alias s → (0x0A : UInt8) ∉ s
  utf8 : ∀ s, m.yaml = .str s → Utf8 s
  string : ∀ s, m.yaml = .str s → OneLineFeed s → ¬ HasSeparator s

end YamlPeg
