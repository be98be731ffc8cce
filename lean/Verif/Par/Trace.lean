import Verif.Par.Rightmost
import Verif.Par.Trees

/-!
# When no token gets lost in error recovery (specification)
-/

namespace Verif.Par

variable {T : Type}

/-- Token number `i` of the input is a leaf of the forest, or in one of its error slices. -/
def Covered (fs : List (Tree T)) (i : Nat) : Prop :=
  (∃ t, (t, i) ∈ leaves fs) ∨ ∃ x ∈ errs fs, x.1 ≤ i ∧ i < x.1 + x.2.length

/-- Nothing at the left edge of an `X` is empty or an `error`. -/
def Gram.Firm (g : Gram) (X : Nat) : Prop :=
  ∀ r ∈ g.rules, ∀ ρ, Derives g.rules [.nt X] (.nt r.lhs :: ρ) → r.rhs ≠ [] ∧ ∀ β, r.rhs ≠ .tm .err :: β

/-- A phrase `X` in front of which an error rule can begin its `error`, and behind which the parser goes on reading (`Y`) without having made it part
of a larger phrase, begins with a token, or the same error rule can begin its `error` behind `X` or behind `Y` as well. -/
def Gram.Traced (g : Gram) : Prop :=
  ∀ γ X Y r, g.ViablePrefix (γ ++ [.nt X, Y]) → g.ErrorAt r γ → g.ErrorAt r (γ ++ [.nt X]) ∨ g.ErrorAt r (γ ++ [.nt X, Y]) ∨ g.Firm X

/-- All rules with `error` are `K → error …`, with one `error`. -/
def Gram.errorsOf (g : Gram) (K : Nat) : Bool :=
  g.rules.all fun r => !r.rhs.contains (.tm .err) || (r.lhs == K && r.rhs.head? == some (.tm .err) && !r.rhs.tail.contains (.tm .err))

/-- `K` is at the left edge of `n`, at most that many rules below it. -/
def Gram.leads (g : Gram) (K : Nat) : Nat → Nat → Bool
  | 0, n => n == K
  | k + 1, n => n == K || g.rules.any fun r => r.lhs == n &&
    match r.rhs with
    | .nt m :: _ => g.leads K k m
    | _ => false

/-- Every non-terminal of the right-hand side but the last symbol is in `firm`, or it is a list of `K` (it has a rule `n → n K …`), or it is followed by
a separator and something that can begin with `K`. -/
def Gram.tracesIn (g : Gram) (firm : List Nat) (K : Nat) : List Sym → Bool
  | [] => true
  | [_] => true
  | .tm _ :: X :: l => g.tracesIn firm K (X :: l)
  | .nt n :: X :: l =>
    (firm.contains n ||
      (g.errorsOf K && g.rules.any fun r => r.lhs == n && [.nt n, .nt K].isPrefixOf r.rhs) ||
      (g.errorsOf K &&
        match X, l with
        | .tm _, .nt m :: _ => g.leads K g.rules.length m
        | _, _ => false)) &&
    g.tracesIn firm K (X :: l)

/-- A check for `Traced`: the non-terminals of the list `firm` begin with a token, and `tracesIn` for every rule. -/
def Gram.traces (g : Gram) (firm : List Nat) (K : Nat) : Bool :=
  g.rules.all fun r =>
    (!firm.contains r.lhs ||
      match r.rhs with
      | .tm t :: _ => t != .err
      | .nt n :: _ => firm.contains n
      | [] => false) &&
    g.tracesIn firm K r.rhs

end Verif.Par
