import Verif.Model.Basic
/-!
# What an error says (src/parser/error.rs)
-/

namespace YamlPeg

/-- `impl Display for PError` (parser/error.rs:36-45). -/
def PErr.display : PErr → Bytes
  | .mismatch => b!"not matched"
  | .terminate name msg => b!"invalid " ++ name.toUTF8.toList ++ b!": \n\n" ++ msg

end YamlPeg
