import Verif.Par.LL1
import Verif.Par.LrSpec

/-!
# LR(0), SLR(1), LALR(1) and LR(1) grammars (specification)

The textbook conditions under which the other generators of bottom-up parsers (yacc and bison: LALR(1)) have no conflict, for
comparison with `LR1Parser::new` (parser.rs:309-390).  As there, a rule `S' → S` for a symbol that occurs nowhere stands behind
the rules.  The end of the input counts as a terminal that is read behind the start symbol.
-/

namespace Verif.Par

/-- Rule number `j` with the dot at `k` is an LR(0) item valid for `γ`. -/
inductive Dots (R : List PRule) (s : Nat) : List Sym → Nat → Nat → Prop
  | start : Dots R s [] s 0
  | advance (γ j k r X) : Dots R s γ j k → R[j]? = some r → r.rhs[k]? = some X → Dots R s (γ ++ [X]) j (k + 1)
  | expand (γ j k r B m r') : Dots R s γ j k → R[j]? = some r → r.rhs[k]? = some (.nt B) → R[m]? = some r' → r'.lhs = B →
      Dots R s γ m 0

/-- After `γ` rule number `r` can be at its end. -/
def Ends (R : List PRule) (s : Nat) (γ : List Sym) (r : Nat) : Prop := ∃ rule, R[r]? = some rule ∧ Dots R s γ r rule.rhs.length

/-- After `γ` the terminal `a`, or the end of the input, can be read. -/
def Shifts (R : List PRule) (s : Nat) (γ : List Sym) (a : Term) : Prop :=
  (∃ j k r, Dots R s γ j k ∧ R[j]? = some r ∧ r.rhs[k]? = some (.tm a)) ∨ (a = .eoi ∧ Ends R s γ s)

/-- There is something else to do than to reduce a rule, if a rule is to be reduced when its end is reached and `LA` holds of the
next terminal. -/
def Doubt (R : List PRule) (s : Nat) (LA : List Sym → Nat → Term → Prop) : Prop :=
  ∃ γ a r, r ≠ s ∧ Ends R s γ r ∧ LA γ r a ∧ (Shifts R s γ a ∨ ∃ r', r' ≠ s ∧ r' ≠ r ∧ Ends R s γ r' ∧ LA γ r' a)

/-- The same state of the LR(0) automaton. -/
def SameDots (R : List PRule) (s : Nat) (γ γ' : List Sym) : Prop := ∀ j k, Dots R s γ j k ↔ Dots R s γ' j k

/-- The rules with the start rule. -/
def Gram.full (g : Gram) : List PRule := g.aug (freshSym g.rules)

/-- `a` can follow the non-terminal `n`. -/
def Gram.Follow (g : Gram) (n : Nat) (a : Term) : Prop :=
  ∃ x y ρ, Derives g.rules [.nt g.start] (x ++ .nt n :: y) ∧ Derives g.rules (y ++ [.tm .eoi]) (.tm a :: ρ)

/-- LR(0): rules are reduced whatever comes next. -/
def Gram.LR0 (g : Gram) : Prop := ¬ Doubt g.full g.rules.length fun _ _ _ => True

/-- SLR(1): a rule is reduced if the next terminal can follow its left-hand side somewhere. -/
def Gram.SLR1 (g : Gram) : Prop := ¬ Doubt g.full g.rules.length fun _ r a => ∃ rule, g.rules[r]? = some rule ∧ g.Follow rule.lhs a

/-- LALR(1): a rule is reduced if its LR(1) item is valid for some prefix with the same LR(0) state. -/
def Gram.LALR1 (g : Gram) : Prop := ¬ Doubt g.full g.rules.length fun γ r a =>
  ∃ γ', SameDots g.full g.rules.length γ γ' ∧ Complete g.full g.rules.length γ' r a

/-- LR(1): a rule is reduced if its LR(1) item is valid. -/
def Gram.LR1 (g : Gram) : Prop := ¬ ∃ γ a r, r ≠ g.rules.length ∧ Complete g.full g.rules.length γ r a ∧
  (Expects g.full g.rules.length γ (.tm a) ∨ (a = .eoi ∧ Accepts g.full g.rules.length γ) ∨
    ∃ r', r' ≠ g.rules.length ∧ r' ≠ r ∧ Complete g.full g.rules.length γ r' a)

/-! ## Checks

An automaton is given as evidence: for each state its items, each with the terminals that can follow, in an order such that an
item with the dot at the beginning comes behind one that asks for it, and the edges. -/

/-- A rule with a dot, and what can follow. -/
structure DItem where
  rule : Nat
  pos : Nat
  las : List Term
  deriving DecidableEq

structure Automaton where
  states : List (List DItem)
  edges : List (Nat × Sym × Nat)
  sets : LLSets

namespace Automaton

/-- The right-hand side of a rule, or of the start rule. -/
def rhs (g : Gram) (j : Nat) : List Sym := if j = g.rules.length then [.nt g.start] else (g.rules[j]?.map PRule.rhs).getD []

/-- The items of a state. -/
def row (c : Automaton) (q : Nat) : List DItem := c.states.getD q []

/-- The next state. -/
def next (c : Automaton) (q : Nat) (X : Sym) : Option Nat := (c.edges.find? fun e => e.1 == q && e.2.1 == X).map fun e => e.2.2

/-- `l` has the rule with the dot, followed by all of `L`. -/
def has (l : List DItem) (j k : Nat) (L : List Term) : Bool := l.any fun i => i.rule == j && i.pos == k && L.all (· ∈ i.las)

/-- The item `i` of state `q` is taken account of. -/
def itemOk (g : Gram) (c : Automaton) (q : Nat) (i : DItem) : Bool :=
  match (rhs g i.rule)[i.pos]? with
  | none => true
  | some X =>
    (match c.next q X with
      | some q' => has (c.row q') i.rule (i.pos + 1) i.las
      | none => false) &&
    match X with
    | .tm _ => true
    | .nt B => g.rules.zipIdx.all fun p => (p.1.lhs != B) ||
        has (c.row q) p.2 0 (c.sets.firstOf ((rhs g i.rule).drop (i.pos + 1)) ++
          if c.sets.nullAll ((rhs g i.rule).drop (i.pos + 1)) then i.las else [])

/-- The automaton has all valid items. -/
def sound (g : Gram) (c : Automaton) : Bool :=
  g.rules.any (fun r => r.lhs == g.start) &&
  g.rules.all (fun r => (!c.sets.nullAll r.rhs || c.sets.null r.lhs) && (c.sets.firstOf r.rhs).all (· ∈ c.sets.first r.lhs)) &&
  has (c.row 0) g.rules.length 0 [.eoi] &&
  (List.range c.states.length).all fun q => (c.row q).all (c.itemOk g q)

/-- Items with the dot at the beginning come behind one that asks for them. -/
def ordered (g : Gram) (first : Bool) : List DItem → List DItem → Bool
  | _, [] => true
  | before, i :: l => ((i.pos != 0) || (first && i.rule == g.rules.length) || (before.any fun b =>
      (match g.rules[i.rule]? with
        | some r => (rhs g b.rule)[b.pos]? == some (.nt r.lhs)
        | none => false))) && ordered g first (before ++ [i]) l

/-- The automaton has no other items, and its states differ. -/
def exact (g : Gram) (c : Automaton) : Bool :=
  ((List.range c.states.length).all fun q => ordered g (q == 0) [] (c.row q)) &&
  ((c.row 0).all fun i => i.pos == 0) &&
  (c.edges.all fun e => (e.2.2 != 0) && (c.row e.2.2).all fun i => (i.pos == 0) ||
    ((rhs g i.rule)[i.pos - 1]? == some e.2.1 && (c.row e.1).any fun b => b.rule == i.rule && b.pos + 1 == i.pos)) &&
  ((List.range c.states.length).all fun q => (List.range c.states.length).all fun q' => (q == q') ||
    ((c.row q).any fun i => (c.row q').all fun i' => (i'.rule != i.rule) || (i'.pos != i.pos)) ||
    ((c.row q').any fun i => (c.row q).all fun i' => (i'.rule != i.rule) || (i'.pos != i.pos)))

/-- No state leaves a choice, if the terminals in `las` ask for a reduction. -/
def clear (g : Gram) (c : Automaton) (las : DItem → List Term) : Bool :=
  (List.range c.states.length).all fun q => (c.row q).all fun i =>
    (i.rule == g.rules.length) || (i.pos != (rhs g i.rule).length) || (c.row q).all fun i' => (las i).all fun a =>
      ((rhs g i'.rule)[i'.pos]? != some (.tm a)) &&
      ((i'.pos != (rhs g i'.rule).length) ||
        (if i'.rule = g.rules.length then a != .eoi else i'.rule == i.rule || !(a ∈ las i')))

/-- No state leaves a choice, whatever comes next. -/
def clear0 (g : Gram) (c : Automaton) : Bool :=
  (List.range c.states.length).all fun q => (c.row q).all fun i =>
    (i.rule == g.rules.length) || (i.pos != (rhs g i.rule).length) || (c.row q).all fun i' =>
      match (rhs g i'.rule)[i'.pos]? with
      | some (.tm _) => false
      | some (.nt _) => true
      | none => i'.rule == i.rule

def checkLR1 (g : Gram) (c : Automaton) : Bool := c.sound g && c.clear g DItem.las
def checkLALR1 (g : Gram) (c : Automaton) : Bool := c.sound g && c.exact g && c.clear g DItem.las
def checkSLR1 (g : Gram) (c : Automaton) : Bool :=
  c.sound g && (Term.eoi ∈ c.sets.follow g.start) && g.rules.all (fun r => c.sets.followOk r.lhs r.rhs) &&
    c.clear g fun i => (g.rules[i.rule]?.map fun r => c.sets.follow r.lhs).getD []
def checkLR0 (g : Gram) (c : Automaton) : Bool := c.sound g && c.clear0 g

end Automaton

end Verif.Par
