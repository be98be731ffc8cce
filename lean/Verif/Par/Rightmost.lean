import Verif.Par.Grammar

/-!
# Rightmost derivations (specification)
-/

namespace Verif.Par

/-- Terminals as symbols. -/
abbrev tms (w : List Term) : List Sym := w.map Sym.tm

/-- Rightmost derivation in `n` steps: every step replaces the last non-terminal. -/
inductive Rm (R : List PRule) (u : List Sym) : Nat → List Sym → Prop
  | zero : Rm R u 0 u
  | step (n x r w) : Rm R u n (x ++ .nt r.lhs :: tms w) → r ∈ R → Rm R u (n + 1) (x ++ r.rhs ++ tms w)

/-- Every non-terminal that can be reached from the start symbol derives some string of terminals (tokens and `error`). -/
def Gram.Fruitful (g : Gram) : Prop :=
  ∀ x n y, Derives g.rules [.nt g.start] (x ++ .nt n :: y) → ∃ w : List Term, Derives g.rules [.nt n] (tms w)

/-- Right before the end `rhs` of `x ++ rhs` is reduced to the left-hand side of rule `r`, with the terminals `v` to follow,
in the rightmost derivation of something. -/
def Gram.Handle (g : Gram) (r : Nat) (x : List Sym) (v : List Term) : Prop :=
  ∃ rule n, g.rules[r]? = some rule ∧ Rm g.rules [.nt g.start] n (x ++ .nt rule.lhs :: tms v)

/-- A prefix of a right sentential form that does not reach beyond the handle. -/
def Gram.ViablePrefix (g : Gram) (γ : List Sym) : Prop :=
  γ <+: [.nt g.start] ∨ ∃ r rule x v, g.rules[r]? = some rule ∧ g.Handle r x v ∧ γ <+: x ++ rule.rhs

/-- Behind `γ` and in front of the terminal `a`, rule `r` is to be reduced in some rightmost derivation. -/
def Gram.HandleAt (g : Gram) (r : Nat) (γ : List Sym) (a : Term) : Prop :=
  ∃ rule x v, g.rules[r]? = some rule ∧ g.Handle r x v ∧ γ = x ++ rule.rhs ∧ a = v.head?.getD .eoi

/-- Behind `γ`, rule `r` continues with its `error` in some rightmost derivation. -/
def Gram.ErrorAt (g : Gram) (r : Nat) (γ : List Sym) : Prop :=
  ∃ rule x v α β, g.rules[r]? = some rule ∧ g.Handle r x v ∧ rule.rhs = α ++ .tm .err :: β ∧ γ = x ++ α

/-- Nothing that follows an `error` in a rule can begin with `error`. -/
def Gram.ErrorsApart (g : Gram) : Prop :=
  ∀ r ∈ g.rules, ∀ α β, r.rhs = α ++ .tm .err :: β → ∀ ρ, ¬ Derives g.rules β (.tm .err :: ρ)

end Verif.Par
