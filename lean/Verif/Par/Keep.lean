import Verif.Par.Rightmost
import Verif.Par.Trace

/-!
# What error recovery keeps (specification)
-/

namespace Verif.Par

variable {T : Type}

/-- `f` stands at the left edge of a tree. -/
inductive AtLeft (f : Tree T) : Tree T → Prop
  | self : AtLeft f f
  | node (r c cs) : AtLeft f c → AtLeft f (.node r (c :: cs))

/-- The first phrase of some `Z` can be an `X`, or the first phrase of the first phrase, and so on. -/
inductive Gram.Corner (g : Gram) (X : Nat) : Nat → Prop
  | self : g.Corner X X
  | up (r n β) : r ∈ g.rules → r.rhs = .nt n :: β → g.Corner X n → g.Corner X r.lhs

/-- An error rule that can begin its `error` at the beginning of the input can begin it as well behind an `X` at the beginning, or behind a phrase that
begins with this `X`, if more follows there; or behind the symbol that follows. -/
def Gram.Keeps (g : Gram) (X : Nat) : Prop :=
  ∀ Z Y r, g.Corner X Z → g.ViablePrefix [.nt Z, Y] → g.ErrorAt r [] → g.ErrorAt r [.nt Z] ∨ g.ErrorAt r [.nt Z, Y]

/-- What can follow a phrase at the beginning. -/
def Gram.Next (g : Gram) (X t : Nat) : Prop := g.ViablePrefix [.nt X, .tm (.sym t)]

/-- The error rules can begin behind `n` if `l` follows: `n` is a list of `K` (it has a rule `n → n K …`), or `l` is a separator and something that can
begin with `K`. -/
def Gram.keepsAt (g : Gram) (K n : Nat) (l : List Sym) : Bool :=
  (g.rules.any fun r => r.lhs == n && [.nt n, .nt K].isPrefixOf r.rhs) ||
  match l with
  | .nt m :: _ => g.leads K g.rules.length m
  | .tm _ :: .nt m :: _ => g.leads K g.rules.length m
  | _ => false

/-- A check for `Keeps`: all rules with `error` are `K → error …`; the non-terminals of the list `up` are those that can begin with `X`; if such a
non-terminal is the first symbol of a rule and not the only one, the error rules can begin behind it. -/
def Gram.keeps (g : Gram) (X K : Nat) (up : List Nat) : Bool :=
  g.errorsOf K && up.contains X &&
  g.rules.all fun r =>
    match r.rhs with
    | .nt n :: l => !up.contains n || (up.contains r.lhs && (l.isEmpty || g.keepsAt K n l))
    | _ => true

end Verif.Par
