import Verif.Par.Trees

/-!
# Error rules that only report: the specification
-/

namespace Verif.Par

variable {N T E : Type}

/-- The callbacks of rules with `error` fail if they are given an error slice. -/
def Reports (rules : List (Rule N T E)) : Prop :=
  ∀ r ∈ rules, Sym.tm .err ∈ r.rhs → ∀ args l, Arg.err l ∈ args → ∃ e, r.gen args = .error e

/-- The rules without `error`. -/
def strict (rules : List (Rule N T E)) : List (Rule N T E) := rules.filter fun r => !r.rhs.contains (.tm .err)

end Verif.Par
