import Verif.Par.Parse

/-!
# Model of `parser/src/syntax.rs`: writing down rules

`N` and `T` are the user's enums, `idxN` and `idxT` their `EnumIndex::enum_index`.
-/

namespace Verif.Par

/-- `Symbol<N, T, ()>`, lib.rs:14-19. -/
inductive USym (N T : Type) where
  | nt (n : N)
  | tok (t : T)
  | error
  deriving DecidableEq, Repr

variable {N T E : Type}

/-- `Rule::new`, syntax.rs:124-138. -/
def ruleNew (idxN : N → Nat) (idxT : T → Nat) (start : N) (rule : List (USym N T)) (gen : List (Arg N T) → Except E N) : Rule N T E :=
  { lhs := idxN start
    rhs := rule.map fun symbol => match symbol with
      | .nt n => .nt (idxN n)
      | .tok t => .tm (.sym (idxT t))
      | .error => .tm .err
    gen := gen }

/-- `Rule::new_raw`, syntax.rs:140-154. -/
def ruleNewRaw (start : Nat) (rule : List (USym Nat Nat)) (gen : List (Arg N T) → Except E N) : Rule N T E :=
  { lhs := start
    rhs := rule.map fun symbol => match symbol with
      | .nt n => .nt n
      | .tok t => .tm (.sym t)
      | .error => .tm .err
    gen := gen }

/-- `RuleBuilder`, syntax.rs:69-73. -/
structure RuleBuilder where
  lhs : Nat
  syms : List Sym

/-- `Rule::builder`, syntax.rs:156-162. -/
def ruleBuilder (idxN : N → Nat) (start : N) : RuleBuilder := ⟨idxN start, []⟩

/-- `Rule::builder_raw`, syntax.rs:164-166. -/
def ruleBuilderRaw (start : Nat) : RuleBuilder := ⟨start, []⟩

/-- `RuleBuilder::non_terminal`, syntax.rs:170-173. -/
def RuleBuilder.nonTerminal (b : RuleBuilder) (idxN : N → Nat) (n : N) : RuleBuilder := { b with syms := b.syms ++ [.nt (idxN n)] }

/-- `RuleBuilder::non_terminal_raw`, syntax.rs:175-178. -/
def RuleBuilder.nonTerminalRaw (b : RuleBuilder) (n : Nat) : RuleBuilder := { b with syms := b.syms ++ [.nt n] }

/-- `RuleBuilder::terminal`, syntax.rs:180-183. -/
def RuleBuilder.terminal (b : RuleBuilder) (idxT : T → Nat) (t : T) : RuleBuilder := { b with syms := b.syms ++ [.tm (.sym (idxT t))] }

/-- `RuleBuilder::error`, syntax.rs:185-188. -/
def RuleBuilder.error (b : RuleBuilder) : RuleBuilder := { b with syms := b.syms ++ [.tm .err] }

/-- `RuleBuilder::build`, syntax.rs:190-197. -/
def RuleBuilder.build (b : RuleBuilder) (gen : List (Arg N T) → Except E N) : Rule N T E := ⟨b.lhs, b.syms, gen⟩

/-- The method a user calls on the builder for a symbol. -/
def RuleBuilder.add (idxN : N → Nat) (idxT : T → Nat) (b : RuleBuilder) : USym N T → RuleBuilder
  | .nt n => b.nonTerminal idxN n
  | .tok t => b.terminal idxT t
  | .error => b.error

/-- `SyntaxBuilder`, syntax.rs:29-32: the rules so far; `SyntaxBuilder::rule`, syntax.rs:45-48. -/
def syntaxRule (rules : List (Rule N T E)) (r : Rule N T E) : List (Rule N T E) := rules ++ [r]

/-- `SyntaxBuilder::build`, syntax.rs:50-53: what `LR1Parser::new` gets. -/
def syntaxBuild (idxN : N → Nat) (rules : List (Rule N T E)) (start : N) : List (Rule N T E) × Nat := (rules, idxN start)

/-- `SyntaxBuilder::build_raw`, syntax.rs:55-58. -/
def syntaxBuildRaw (rules : List (Rule N T E)) (start : Nat) : List (Rule N T E) × Nat := (rules, start)

/-! ## Comparing rules -/

/-- Derived `Ord` of `TerminalSymbol<usize, ()>`, syntax.rs:116-121. -/
def Term.cmp : Term → Term → Ordering
  | .sym a, .sym b => compare a b
  | .sym _, _ => .lt
  | .err, .sym _ => .gt
  | .err, .err => .eq
  | .err, .eoi => .lt
  | .eoi, .eoi => .eq
  | .eoi, _ => .gt

/-- Derived `Ord` of `SymbolInternal`, parser.rs:11-15. -/
def Sym.cmp : Sym → Sym → Ordering
  | .nt a, .nt b => compare a b
  | .nt _, .tm _ => .lt
  | .tm _, .nt _ => .gt
  | .tm a, .tm b => a.cmp b

/-- `Ord` of `Vec`: lexicographic. -/
def cmpList {α : Type} (f : α → α → Ordering) : List α → List α → Ordering
  | [], [] => .eq
  | [], _ :: _ => .lt
  | _ :: _, [] => .gt
  | a :: l, b :: m =>
    match f a b with
    | .eq => cmpList f l m
    | x => x

/-- `Rule::eq`, syntax.rs:81-85: the callback is not looked at. -/
def Rule.beq (r r' : Rule N T E) : Bool := r.lhs == r'.lhs && r.rhs == r'.rhs

/-- `Rule::cmp`, syntax.rs:99-107. -/
def Rule.cmp (r r' : Rule N T E) : Ordering :=
  match compare r.lhs r'.lhs with
  | .eq => cmpList Sym.cmp r.rhs r'.rhs
  | x => x

/-- `Rule::partial_cmp`, syntax.rs:89-97. -/
def Rule.partialCmp (r r' : Rule N T E) : Option Ordering :=
  match some (compare r.lhs r'.lhs) with
  | some .eq => some (cmpList Sym.cmp r.rhs r'.rhs)
  | x => x

/-- What `Rule::hash` feeds to the hasher, syntax.rs:109-114. -/
def Rule.hashKey (r : Rule N T E) : Nat × List Sym := (r.lhs, r.rhs)

end Verif.Par
