import Verif.Par.Parse

/-!
# Printing errors of `parse`

Model of `impl Display for ParseError` (/repo/parser/src/iter.rs:18-25) and `impl Error for ParseError` (iter.rs:27-34).
`txt` stands for `Display` of the error type of the callbacks.
-/

namespace Verif.Par

variable {E : Type}

/-- The text of `ParseError` (iter.rs:18-25). -/
def PErr.text (txt : E → String) : PErr E → String
  | .reducer e => txt e
  | .noRecovery => "recovery rule is not found"

/-- `ParseError::source` (iter.rs:27-34). -/
def PErr.source : PErr E → Option E
  | .noRecovery => none
  | .reducer e => some e

end Verif.Par
