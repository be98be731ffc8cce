import Verif.Par.Grammar

/-!
# Putting a grammar into another one (specification for C76)
-/

namespace Verif.Par

/-- The symbol `h` in place of the terminal `t`. -/
def Sym.put (t h : Nat) (X : Sym) : Sym := if X = .tm (.sym t) then .nt h else X

def PRule.put (t h : Nat) (r : PRule) : PRule := ⟨r.lhs, r.rhs.map (Sym.put t h)⟩

/-- The rules of `g`, with the start symbol of `g'` in place of the terminal `t`, and the rules of `g'`. -/
def Gram.put (g : Gram) (t : Nat) (g' : Gram) : Gram := ⟨g.rules.map (PRule.put t g'.start) ++ g'.rules, g.start⟩

/-- The two grammars have no non-terminal and no terminal in common. -/
structure Apart (g g' : Gram) : Prop where
  nts : ∀ n, g.Used n → ¬ g'.Used n
  tms : ∀ r ∈ g.rules, ∀ t, Sym.tm t ∈ r.rhs → ∀ r' ∈ g'.rules, Sym.tm t ∉ r'.rhs

/-- The terminal `t` can stand behind itself. -/
def Gram.Twice (g : Gram) (t : Nat) : Prop :=
  ∃ x y, Derives g.rules [.nt g.start] (x ++ .tm (.sym t) :: .tm (.sym t) :: y)

/-- The empty string is a sentence. -/
def Gram.Nullable (g : Gram) : Prop := Derives g.rules [.nt g.start] []

/-- `Filled t M v w`: `w` is `v` with a word of `M` in place of each `t`. -/
inductive Filled (t : Nat) (M : List Nat → Prop) : List Nat → List Nat → Prop
  | nil : Filled t M [] []
  | keep (a v w) : a ≠ t → Filled t M v w → Filled t M (a :: v) (a :: w)
  | fill (u v w) : M u → Filled t M v w → Filled t M (t :: v) (u ++ w)

/-! ## A check for `Twice` -/

/-- Neighbours in `l` are pairs of `A`. -/
def linked (A : List (Sym × Sym)) : List Sym → Bool
  | [] => true
  | [_] => true
  | X :: Y :: l => A.contains (X, Y) && linked A (Y :: l)

/-- `A` contains all pairs of symbols that can stand side by side in what is derived from the start symbol. -/
def Gram.neighbours (g : Gram) (A : List (Sym × Sym)) : Bool :=
  (g.rules.all fun r => linked A r.rhs) &&
  (g.rules.all fun r => A.all fun p => p.2 != .nt r.lhs ||
    match r.rhs.head? with
    | some Y => A.contains (p.1, Y)
    | none => A.all fun q => q.1 != .nt r.lhs || A.contains (p.1, q.2)) &&
  (g.rules.all fun r => A.all fun p => p.1 != .nt r.lhs ||
    match r.rhs.getLast? with
    | some Y => A.contains (Y, p.2)
    | none => true)

end Verif.Par
