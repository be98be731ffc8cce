import Verif.Par.Parse

/-!
# Doing without a helper non-terminal (specification for C81)

A non-terminal `A` that does not occur in its own rules can be done without: in every other rule each `A` is replaced by each of
its right-hand sides, and the callback of the new rule calls the callbacks of the rules of `A` first.
-/

namespace Verif.Par

/-- A place in a right-hand side: a symbol that stays, or rule number `i` of the helper. -/
inductive Slot where
  | sym (X : Sym)
  | alt (i : Nat)
  deriving DecidableEq

/-- The rules of `A`. -/
def altsOf (R : List PRule) (A : Nat) : List Nat := (List.range R.length).filter fun i => R[i]?.map PRule.lhs == some A

/-- The ways to replace each `A`. -/
def fillings (A : Nat) (alts : List Nat) : List Sym → List (List Slot)
  | [] => [[]]
  | X :: l =>
    if X = .nt A then alts.flatMap fun i => (fillings A alts l).map (Slot.alt i :: ·) else (fillings A alts l).map (Slot.sym X :: ·)

/-- The symbols that come of a place. -/
def Slot.flat (R : List PRule) : Slot → List Sym
  | .sym X => [X]
  | .alt i => (R[i]?.map PRule.rhs).getD []

/-- The grammar without `A`. -/
def inlinePlain (R : List PRule) (A : Nat) : List PRule :=
  R.flatMap fun r => if r.lhs = A then [] else (fillings A (altsOf R A) r.rhs).map fun ω => ⟨r.lhs, ω.flatMap (Slot.flat R)⟩

variable {N T E : Type}

/-- The arguments of the callback of the old rule: the callbacks of the helper are called. -/
def gather (rules : List (Rule N T E)) : List Slot → List (Arg N T) → Except E (List (Arg N T))
  | [], _ => .ok []
  | .sym _ :: ω, args =>
    match gather rules ω (args.drop 1) with
    | .ok rest => .ok (args.take 1 ++ rest)
    | .error e => .error e
  | .alt i :: ω, args =>
    match rules[i]? with
    | none => .ok []
    | some r =>
      match r.gen (args.take r.rhs.length) with
      | .error e => .error e
      | .ok v =>
        match gather rules ω (args.drop r.rhs.length) with
        | .ok rest => .ok (.nt v :: rest)
        | .error e => .error e

/-- One new rule. -/
def Rule.inlined (rules : List (Rule N T E)) (r : Rule N T E) (ω : List Slot) : Rule N T E :=
  ⟨r.lhs, ω.flatMap (Slot.flat (rules.map Rule.plain)), fun args =>
    match gather rules ω args with
    | .ok args' => r.gen args'
    | .error e => .error e⟩

/-- The rules without `A`. -/
def inlineRules (rules : List (Rule N T E)) (A : Nat) : List (Rule N T E) :=
  rules.flatMap fun r => if r.lhs = A then [] else (fillings A (altsOf (rules.map Rule.plain) A) r.rhs).map (r.inlined rules)

/-- `A` can be done without: it does not occur in its own rules, and is not the start symbol. -/
def Helper (R : List PRule) (start A : Nat) : Prop := A ≠ start ∧ ∀ r ∈ R, r.lhs = A → Sym.nt A ∉ r.rhs

instance (R : List PRule) (start A : Nat) : Decidable (Helper R start A) := by unfold Helper; infer_instance

end Verif.Par
