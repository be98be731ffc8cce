import Verif.Par.Keep

/-!
# Callbacks that error recovery never undoes (specification)
-/

namespace Verif.Par

variable {N T E : Type}

/-- The calls of callbacks of rules for the non-terminals in `Q`.  (Every call has a rule; what is said about calls without one does not matter.) -/
def callsOf (rules : List (Rule N T E)) (Q : Nat → Bool) (lg : List (Call N T)) : List (Call N T) :=
  lg.filter fun cl => match rules[cl.1]? with
    | some rule => Q rule.lhs
    | none => true

/-- A phrase that contains a phrase of `Q` is in `Q`. -/
def Gram.UpClosed (g : Gram) (Q : Nat → Bool) : Prop :=
  ∀ r ∈ g.rules, ∀ n, .nt n ∈ r.rhs → Q n = true → Q r.lhs = true

/-- The phrases of `Q` are never given up: an error rule that can begin its `error` in front of a phrase `X` of `Q` or before it, while the parser goes
on reading (`Y`) behind `X` without having made it part of a larger phrase, can begin its `error` behind `X` or behind `Y` as well. -/
def Gram.Lasting (g : Gram) (Q : Nat → Bool) : Prop :=
  g.UpClosed Q ∧ ∀ γ δ X Y r, Q X = true → g.ViablePrefix (γ ++ δ ++ [.nt X, Y]) → g.ErrorAt r γ →
    g.ErrorAt r (γ ++ δ ++ [.nt X]) ∨ g.ErrorAt r (γ ++ δ ++ [.nt X, Y])

/-- Every `n` in `Q` that is not the last symbol of the right-hand side satisfies `keepsAt`. -/
def Gram.lastsIn (g : Gram) (Q : Nat → Bool) (K : Nat) : List Sym → Bool
  | [] => true
  | .tm _ :: l => g.lastsIn Q K l
  | .nt n :: l => (!Q n || l.isEmpty || g.keepsAt K n l) && g.lastsIn Q K l

/-- A check for `Lasting`. -/
def Gram.lasts (g : Gram) (Q : Nat → Bool) (K : Nat) : Bool :=
  g.errorsOf K && g.rules.all fun r =>
    (r.rhs.all fun
      | .nt n => !Q n || Q r.lhs
      | .tm _ => true) &&
    g.lastsIn Q K r.rhs

end Verif.Par
