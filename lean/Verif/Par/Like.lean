import Verif.Par.Parse

/-!
# Specification: parsers with other tokens, values and errors that correspond to each other

`RT` says which tokens correspond, `RN A` which values of the non-terminal `A`, `RE` which errors.
-/

namespace Verif.Par

variable {N T E N' T' E' : Type}

/-- Two lists correspond item by item. -/
def Pointwise {α β : Type} (R : α → β → Prop) (l : List α) (l' : List β) : Prop :=
  l.length = l'.length ∧ ∀ (i : Nat) x x', l[i]? = some x → l'[i]? = some x' → R x x'

/-- Two arguments of callbacks, for a symbol of a right-hand side. -/
def Arg.Like (idx : T → Nat) (RT : T → T' → Prop) (RN : Nat → N → N' → Prop) : Sym → Arg N T → Arg N' T' → Prop
  | .nt A, .nt v, .nt v' => RN A v v'
  | .tm (.sym a), .tok t, .tok t' => idx t = a ∧ RT t t'
  | .tm .err, .err l, .err l' => l ≠ [] ∧ Pointwise RT l l'
  | _, _, _ => False

/-- The arguments of two calls, for the symbols of a right-hand side. -/
def ArgsLike (idx : T → Nat) (RT : T → T' → Prop) (RN : Nat → N → N' → Prop) (us : List Sym) (as : List (Arg N T)) (as' : List (Arg N' T')) : Prop :=
  us.length = as.length ∧ us.length = as'.length ∧
  ∀ (i : Nat) u a a', us[i]? = some u → as[i]? = some a → as'[i]? = some a' → a.Like idx RT RN u a'

/-- Two callbacks succeed with corresponding values or fail with corresponding errors. -/
def OutcomeLike (RE : E → E' → Prop) (R : N → N' → Prop) : Except E N → Except E' N' → Prop
  | .ok v, .ok v' => R v v'
  | .error e, .error e' => RE e e'
  | _, _ => False

/-- The rules are the same except for their callbacks, which do the corresponding on corresponding arguments. -/
structure RulesLike (idx : T → Nat) (RT : T → T' → Prop) (RN : Nat → N → N' → Prop) (RE : E → E' → Prop) (rules : List (Rule N T E))
    (rules' : List (Rule N' T' E')) : Prop where
  plain : rules'.map Rule.plain = rules.map Rule.plain
  gen : ∀ (r : Nat) rule rule', rules[r]? = some rule → rules'[r]? = some rule' → ∀ as as', ArgsLike idx RT RN rule.rhs as as' →
    OutcomeLike RE (RN rule.lhs) (rule.gen as) (rule'.gen as')

/-- The same callbacks have been called, with corresponding arguments, and as many tokens have been taken from the source. -/
structure SeenLike (idx : T → Nat) (RT : T → T' → Prop) (RN : Nat → N → N' → Prop) (rules : List (Rule N T E)) (c : Cfg N T) (c' : Cfg N' T') : Prop where
  calls : Pointwise (fun x x' => x'.1 = x.1 ∧ ∃ rule, rules[x.1]? = some rule ∧ ArgsLike idx RT RN rule.rhs x.2 x'.2) c.log c'.log
  pulls : c'.pulls = c.pulls

/-- Two results of `parse`. -/
inductive ResultLike (RE : E → E' → Prop) (R : N → N' → Prop) : Except (PErr E) N → Except (PErr E') N' → Prop
  | ok (v v') : R v v' → ResultLike RE R (.ok v) (.ok v')
  | noRecovery : ResultLike RE R (.error .noRecovery) (.error .noRecovery)
  | reducer (e e') : RE e e' → ResultLike RE R (.error (.reducer e)) (.error (.reducer e'))

/-- Two parses after the same number of rounds. -/
inductive Step.Like (S : Cfg N T → Cfg N' T' → Prop) (R : Except (PErr E) N → Except (PErr E') N' → Prop) : Step N T E → Step N' T' E' → Prop
  | more (c c') : S c c' → Step.Like S R (.more c) (.more c')
  | done (x x' c c') : R x x' → S c c' → Step.Like S R (.done x c) (.done x' c')
  | panic : Step.Like S R .panic .panic

end Verif.Par
