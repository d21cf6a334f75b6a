import Verif.Model.Parser
/-!
# The rest of the cursor interface of `Parser` (parser/base/mod.rs)
-/

namespace YamlPeg

/-- `Parser::food_str` (parser/base/mod.rs:69-71): slicing panics past the end. -/
def foodStr : PM Bytes := fun s =>
  if s.pos ≤ s.doc.length then (.ok (lossy s.rest), s) else (.panic .slice, s)

end YamlPeg
