import Verif.Common.OSet

/-!
# Grammars and derivations (types and specification)

Types of `parser/src/syntax.rs` and `parser/src/parser.rs:11-15`, as far as the tables depend on them, and the textbook
notions the properties are stated with: derivations, sentences, valid LR(1) items.
-/

namespace Verif.Par

/-- `TerminalSymbol<usize, ()>`, syntax.rs:116-121. -/
inductive Term where
  | sym (t : Nat)
  | err
  | eoi
  deriving DecidableEq, Repr

/-- `SymbolInternal<usize, TerminalSymbol<usize, ()>>`, parser.rs:11-15. -/
inductive Sym where
  | nt (n : Nat)
  | tm (t : Term)
  deriving DecidableEq, Repr

/-- The part of `Rule` (syntax.rs:61-66) that `LR1Parser::new` looks at. -/
structure PRule where
  lhs : Nat
  rhs : List Sym
  deriving DecidableEq, Repr

/-- The part of `Syntax` (syntax.rs:13-17) that `LR1Parser::new` looks at. -/
structure Gram where
  rules : List PRule
  start : Nat
  deriving DecidableEq, Repr

/-- No public constructor of rules can put the end-of-input marker into a rule (syntax.rs:123-198). -/
def PRule.Ok (r : PRule) : Prop := Sym.tm .eoi ∉ r.rhs

def Gram.Ok (g : Gram) : Prop := ∀ r ∈ g.rules, r.Ok

instance (g : Gram) : Decidable g.Ok := by unfold Gram.Ok PRule.Ok; infer_instance

/-! ## Derivations -/

/-- Textbook derivation: replace one non-terminal by a right-hand side, any number of times. -/
inductive Derives (R : List PRule) : List Sym → List Sym → Prop
  | refl (u) : Derives R u u
  | step (u x y r) : Derives R u (x ++ .nt r.lhs :: y) → r ∈ R → Derives R u (x ++ r.rhs ++ y)

/-- `w` (token numbers) is a sentence. -/
def Gram.Sentence (g : Gram) (w : List Nat) : Prop := Derives g.rules [.nt g.start] (w.map fun t => .tm (.sym t))

/-- Every non-terminal that can be reached from the start symbol derives some token string. -/
def Gram.Productive (g : Gram) : Prop :=
  ∀ x n y, Derives g.rules [.nt g.start] (x ++ .nt n :: y) → ∃ w : List Nat, Derives g.rules [.nt n] (w.map fun t => .tm (.sym t))

/-- Every non-terminal in use has a rule. -/
def Gram.Closed (g : Gram) : Prop :=
  (∃ r ∈ g.rules, r.lhs = g.start) ∧ ∀ r ∈ g.rules, ∀ n, Sym.nt n ∈ r.rhs → ∃ r' ∈ g.rules, r'.lhs = n

/-- No rule mentions `error`. -/
def Gram.NoError (g : Gram) : Prop := ∀ r ∈ g.rules, Sym.tm .err ∉ r.rhs

/-- The start symbol derives itself in one or more steps. -/
def Gram.Cyclic (g : Gram) : Prop :=
  ∃ x r y, r ∈ g.rules ∧ Derives g.rules [.nt g.start] (x ++ .nt r.lhs :: y) ∧ x ++ r.rhs ++ y = [.nt g.start]

/-! ## LR(1) items -/

/-- `LR1ItemInterop`, parser.rs:17-22. -/
structure Item where
  rule : Nat
  pos : Nat
  la : Term
  deriving DecidableEq, Repr

/-- The least symbol number not used by the rules (parser.rs:322-333). -/
def Gram.Used (g : Gram) (n : Nat) : Prop := ∃ r ∈ g.rules, r.lhs = n ∨ Sym.nt n ∈ r.rhs

/-- The rules of the grammar and, as the last one, `S' → start` for a fresh `S'` (parser.rs:334-335). -/
def Gram.aug (g : Gram) (fresh : Nat) : List PRule := g.rules ++ [⟨fresh, [.nt g.start]⟩]

/-- Valid items (textbook): `Valid R s γ i` for the rules `R`, where `s` is the number of the start rule. -/
inductive Valid (R : List PRule) (s : Nat) : List Sym → Item → Prop
  | start : Valid R s [] ⟨s, 0, .eoi⟩
  | advance (γ i r X) : Valid R s γ i → R[i.rule]? = some r → r.rhs[i.pos]? = some X →
      Valid R s (γ ++ [X]) ⟨i.rule, i.pos + 1, i.la⟩
  | expand (γ i r B j r' b ρ) : Valid R s γ i → R[i.rule]? = some r → r.rhs[i.pos]? = some (.nt B) →
      R[j]? = some r' → r'.lhs = B → Derives R (r.rhs.drop (i.pos + 1) ++ [.tm i.la]) (.tm b :: ρ) →
      Valid R s γ ⟨j, 0, b⟩

end Verif.Par
