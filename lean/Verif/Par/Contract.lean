import Verif.Par.Trees

/-!
# Specification: what a callback may expect of its arguments

`Q n v` is whatever a user wants to know about the values `v` made for the non-terminal `n`, for example that `v` is the enum variant `n`.
-/

namespace Verif.Par

variable {N T E : Type}

/-- An argument fits a symbol of a right-hand side. -/
def Arg.Fits (idx : T → Nat) (Q : Nat → N → Prop) : Sym → Arg N T → Prop
  | .nt n, .nt v => Q n v
  | .tm (.sym a), .tok t => idx t = a
  | .tm .err, .err l => l ≠ []
  | _, _ => False

/-- The arguments fit the symbols one by one. -/
def ArgsFit (idx : T → Nat) (Q : Nat → N → Prop) (us : List Sym) (args : List (Arg N T)) : Prop :=
  us.length = args.length ∧ ∀ (i : Nat) u a, us[i]? = some u → args[i]? = some a → a.Fits idx Q u

/-- The callbacks keep the promise `Q`, if they get arguments that fit. -/
def Keeps (idx : T → Nat) (Q : Nat → N → Prop) (rules : List (Rule N T E)) : Prop :=
  ∀ rule ∈ rules, ∀ args v, ArgsFit idx Q rule.rhs args → rule.gen args = .ok v → Q rule.lhs v

/-- The arguments fit the symbols, and are for the tokens `w`: here `Q n u v` may also speak of the tokens `u` that the value `v` of the
non-terminal `n` stands for. -/
inductive Spans (idx : T → Nat) (Q : Nat → List T → N → Prop) : List Sym → List (Arg N T) → List T → Prop
  | nil : Spans idx Q [] [] []
  | tok (t us args w) : Spans idx Q us args w → Spans idx Q (.tm (.sym (idx t)) :: us) (.tok t :: args) (t :: w)
  | nt (n v u us args w) : Q n u v → Spans idx Q us args w → Spans idx Q (.nt n :: us) (.nt v :: args) (u ++ w)

/-- The callbacks compute values with `Q` for a rule from values with `Q` for its right-hand side. -/
def Computes (idx : T → Nat) (Q : Nat → List T → N → Prop) (rules : List (Rule N T E)) : Prop :=
  ∀ rule ∈ rules, ∀ args w v, Spans idx Q rule.rhs args w → rule.gen args = .ok v → Q rule.lhs w v

end Verif.Par
