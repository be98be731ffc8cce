import Verif.Par.Syntax

/-!
# Model of the macro `parser!` (parser_generator/src/lib.rs:301-492)

The parsing of the macro input (lib.rs:14-299) is modelled in `Macro/Read`; this model begins with the parsed input.  Of the
expressions in it only what the emitted code uses is kept: for tokens and symbols the `enum_index` of the value, for rules
the closure `|list| match list { pattern => generator, _ => panic!(..) }` as a callback.  The emitted program is modelled by
its statements (`GProgram`), and running it by `GProgram.run`.
-/

namespace Verif.Par

/-- `TokenKey`, lib.rs:23-27. -/
inductive TokenKey where
  | named (s : String)
  | raw (s : String)
  deriving DecidableEq, Repr

/-- `BNFSymbol`, lib.rs:170-174 (`BNFTerminalSymbol`, lib.rs:154-157, as the `TokenKey` it is looked up by). -/
inductive BnfSym where
  | tok (k : TokenKey)
  | nt (name : String)
  | error
  deriving DecidableEq, Repr

/-- `BNFRuleKey`, lib.rs:196-199. -/
inductive BnfKey where
  | named (name : String)
  | follow
  deriving DecidableEq, Repr

/-- `BNFRule`, lib.rs:217-225. -/
structure BnfRule (N T E : Type) where
  key : BnfKey
  rule : List BnfSym
  gen : List (Arg N T) → Except E N

/-- `ParserGeneratorInput`, lib.rs:247-264. -/
structure MacroInput (N T E : Type) where
  tokens : List (TokenKey × Nat)
  symbols : List (String × Nat)
  start : String
  rules : List (BnfRule N T E)

variable {N T E : Type}

/-- `.enumerate().map(..).collect::<HashMap<_, _>>()`, lib.rs:314 and 316: from names to positions. -/
def nameMap {κ : Type} [DecidableEq κ] (l : List κ) : List (κ × Nat) := l.zipIdx.foldl (fun m x => put x.1 x.2 m) []

/-- lib.rs:333-341 (and again 452-466): the symbols of a rule as positions; `none` is a panic. -/
def bnfItems (tm : List (TokenKey × Nat)) (sm : List (String × Nat)) : List BnfSym → Option (List (USym Nat Nat)) :=
  allSome fun s => match s with
    | .tok k => (get k tm).map .tok
    | .nt name => (get name sm).map .nt
    | .error => some .error

/-- The loop lib.rs:318-343: per rule the position of its left side (`keys`) and its symbols; `none` is a panic. -/
def bnfRules (tm : List (TokenKey × Nat)) (sm : List (String × Nat)) : Option Nat → List (BnfRule N T E) →
    Option (List (Nat × List (USym Nat Nat)))
  | _, [] => some []
  | above, r :: rules =>
    match (match r.key with
      | .named name => get name sm
      | .follow => above) with
    | none => none
    | some start =>
      match bnfItems tm sm r.rule with
      | none => none
      | some items => (bnfRules tm sm (some start) rules).map ((start, items) :: ·)

/-- The plain part of `Rule::new_raw`. -/
def rawRule (x : Nat × List (USym Nat Nat)) : PRule := (ruleNewRaw (N := Unit) (T := Unit) (E := Unit) x.1 x.2 fun _ => .ok ()).plain

/-- The emitted function: the arrays `tokens` and `symbols` (lib.rs:473-474), the `insert` statements of the tables
(lib.rs:352-438), the arguments of `new_raw` with the closures (lib.rs:439-468), and `start` (lib.rs:487).  Numbers in the keys are
positions in the arrays. -/
structure GProgram (N T E : Type) where
  tokens : List Nat
  symbols : List Nat
  action : List (Nat × List (Term × Action Nat))
  goto : List (Nat × List (Nat × Nat))
  errors : List (Nat × List Nat)
  rules : List (Nat × List (USym Nat Nat) × (List (Arg N T) → Except E N))
  start : Nat

/-- Iteration orders of the hash maps and sets that the macro writes out (lib.rs:354, 356, 393, 395, 417, 419). -/
structure GSeeds where
  action : List (Nat × List (Term × Action Nat)) → List (Nat × List (Term × Action Nat))
  row : List (Term × Action Nat) → List (Term × Action Nat)
  goto : List (Nat × List (Nat × Nat)) → List (Nat × List (Nat × Nat))
  gotoRow : List (Nat × Nat) → List (Nat × Nat)
  errors : List (Nat × List Nat) → List (Nat × List Nat)
  errorRow : List Nat → List Nat

structure GSeeds.Fair (o : GSeeds) : Prop where
  action : ∀ l, (o.action l).Perm l
  row : ∀ l, (o.row l).Perm l
  goto : ∀ l, (o.goto l).Perm l
  gotoRow : ∀ l, (o.gotoRow l).Perm l
  errors : ∀ l, (o.errors l).Perm l
  errorRow : ∀ l, (o.errorRow l).Perm l

/-- The `parser` function, lib.rs:310-492; a panic is a compile error.  Warnings are printed only (lib.rs:349-351). -/
def macroParser (fuel : Nat) (o : Seeds) (go : GSeeds) (m : MacroInput N T E) : Res (GProgram N T E) :=
  let tm := nameMap (m.tokens.map Prod.fst)
  let sm := nameMap (m.symbols.map Prod.fst)
  match bnfRules tm sm none m.rules with
  | none => .panic
  | some rules =>
    match get m.start sm with
    | none => .panic
    | some start =>
      match newTables fuel o ⟨rules.map rawRule, start⟩ with
      | .panic => .panic
      | .fuel => .fuel
      | .ok (T, _) =>
        .ok { tokens := m.tokens.map Prod.snd
              symbols := m.symbols.map Prod.snd
              action := (go.action T.action).map fun x => (x.1, go.row x.2)
              goto := (go.goto T.goto).map fun x => (x.1, go.gotoRow x.2)
              errors := (go.errors T.errors).map fun x => (x.1, go.errorRow x.2)
              rules := (rules.zip m.rules).map fun x => (x.1.1, x.1.2, x.2.gen)
              start := T.start }

/-- `value.insert(key, value)` for all statements; keys are array accesses, which panic outside the array. -/
def insertAllKeys {κ κ' β : Type} [DecidableEq κ'] (f : κ → Option κ') : List (κ × β) → List (κ' × β) → Option (List (κ' × β))
  | [], m => some m
  | (k, v) :: l, m =>
    match f k with
    | none => none
    | some k' => insertAllKeys f l (put k' v m)

/-- The key expressions of lib.rs:357-363. -/
def keyOf (tokens : List Nat) : Term → Option Term
  | .sym s => (tokens[s]?).map .sym
  | .err => some .err
  | .eoi => some .eoi

/-- A table of tables (lib.rs:372-380, 396-404, 420-428). -/
def insertRows {α β : Type} (f : α → Option β) : List (Nat × α) → List (Nat × β) → Option (List (Nat × β))
  | [], m => some m
  | (k, v) :: l, m =>
    match f v with
    | none => none
    | some v' => insertRows f l (put k v' m)

/-- The symbols of `new_raw` in lib.rs:452-467. -/
def symOf (tokens symbols : List Nat) : USym Nat Nat → Option (USym Nat Nat)
  | .tok t => (tokens[t]?).map .tok
  | .nt n => (symbols[n]?).map .nt
  | .error => some .error

/-- A rule of the emitted function, lib.rs:442-468; `none` is a panic. -/
def emitRule (tokens symbols : List Nat) (x : Nat × List (USym Nat Nat) × (List (Arg N T) → Except E N)) : Option (Rule N T E) :=
  match symbols[x.1]?, allSome (symOf tokens symbols) x.2.1 with
  | some start, some items => some (ruleNewRaw start items x.2.2)
  | _, _ => none

/-- Running the emitted function, lib.rs:472-489; `none` is a panic.  Hash sets are lists without repetition. -/
def GProgram.run (p : GProgram N T E) : Option (Parser N T E) :=
  match insertRows (fun row => insertAllKeys (keyOf p.tokens) row []) p.action [],
    insertRows (fun row => insertAllKeys (p.symbols[·]?) row []) p.goto [],
    insertRows (fun set => some (set.foldl (fun s v => if s.contains v then s else s ++ [v]) [])) p.errors [],
    allSome (emitRule p.tokens p.symbols) p.rules with
  | some action, some goto, some errors, some rules => some ⟨rules, ⟨action, goto, errors, p.start⟩⟩
  | _, _, _, _ => none

/-- `parser!` expands, and the function it defines returns the parser `p`. -/
def MacroGives (o : Seeds) (go : GSeeds) (m : MacroInput N T E) (p : Parser N T E) : Prop :=
  ∃ fuel g, macroParser fuel o go m = .ok g ∧ g.run = some p

/-- `parser!` panics, i.e. there is a compile error. -/
def MacroPanics (o : Seeds) (go : GSeeds) (m : MacroInput N T E) : Prop := ∃ fuel, macroParser fuel o go m = .panic

/-! ## What a macro input means (specification) -/

/-- The last entry with the name `k` has the enum index `n`. -/
def LastNamed {κ : Type} (l : List (κ × Nat)) (k : κ) (n : Nat) : Prop :=
  ∃ l1 l2, l = l1 ++ (k, n) :: l2 ∧ ∀ x ∈ l2, x.1 ≠ k

/-- The symbol a macro symbol stands for. -/
inductive BnfSym.Means (m : MacroInput N T E) : BnfSym → Sym → Prop
  | tok (k n) : LastNamed m.tokens k n → Means m (.tok k) (.tm (.sym n))
  | nt (name n) : LastNamed m.symbols name n → Means m (.nt name) (.nt n)
  | error : Means m .error (.tm .err)

/-- Symbol by symbol. -/
inductive SymsMean (m : MacroInput N T E) : List BnfSym → List Sym → Prop
  | nil : SymsMean m [] []
  | cons (x X l w) : BnfSym.Means m x X → SymsMean m l w → SymsMean m (x :: l) (X :: w)

/-- The rules a list of macro rules stands for; `above` is the left side of the rule before. -/
inductive RulesMean (m : MacroInput N T E) : Option Nat → List (BnfRule N T E) → List (Rule N T E) → Prop
  | nil (above) : RulesMean m above [] []
  | named (above name n syms rhs gen l l') : LastNamed m.symbols name n → SymsMean m syms rhs →
      RulesMean m (some n) l l' → RulesMean m above (⟨.named name, syms, gen⟩ :: l) (⟨n, rhs, gen⟩ :: l')
  | follow (n syms rhs gen l l') : SymsMean m syms rhs →
      RulesMean m (some n) l l' → RulesMean m (some n) (⟨.follow, syms, gen⟩ :: l) (⟨n, rhs, gen⟩ :: l')

/-- The rules and the start symbol that a macro input stands for, with the numbers of the user's enums. -/
def MacroInput.Means (m : MacroInput N T E) (rules : List (Rule N T E)) (start : Nat) : Prop :=
  RulesMean m none m.rules rules ∧ LastNamed m.symbols m.start start

end Verif.Par
