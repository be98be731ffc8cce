import Verif.Par.Grammar

/-!
# A check on the rules that bounds the time of error recovery (specification)

The check is given four lists of non-terminals: all that derive the empty string, all that derive something that begins with `error`, all that
derive something with a symbol behind which an `error` can begin, and some lists `X → X error …` or `X → X I …`, `I → error …`.
-/

namespace Verif.Par

structure Sorts where
  empty : List Nat
  first : List Nat
  deep : List Nat
  lists : List Nat

def Sym.among (l : List Nat) : Sym → Bool
  | .nt n => l.contains n
  | .tm _ => false

/-- An `error` can come first. -/
def Sorts.begins (s : Sorts) : List Sym → Bool
  | [] => false
  | .tm t :: _ => t == .err
  | .nt n :: l => s.first.contains n || (s.empty.contains n && s.begins l)

/-- The symbols behind which an `error` can begin. -/
def Sorts.fronts (s : Sorts) : List Sym → List Sym
  | [] => []
  | X :: l => if s.begins l then X :: s.fronts l else s.fronts l

/-- The symbols behind which an `error` can begin in some rule. -/
def Gram.fronts (g : Gram) (s : Sorts) : List Sym := g.rules.flatMap fun r => s.fronts r.rhs

/-- `X → X error …`, or `X → X I …` and `I → error …`. -/
def Gram.isList (g : Gram) (n : Nat) : Bool :=
  g.rules.any fun r => r.lhs == n &&
    match r.rhs with
    | .nt m :: .tm t :: _ => m == n && t == .err
    | .nt m :: .nt k :: _ => m == n && g.rules.any fun r' => r'.lhs == k && r'.rhs.head? == some (.tm .err)
    | _ => false

/-- The lists are complete, and a non-terminal with a place of recovery inside is a list or stands at the end wherever it occurs. -/
def Gram.tidy (g : Gram) (s : Sorts) : Bool :=
  (g.rules.all fun r =>
    (!r.rhs.all (Sym.among s.empty) || s.empty.contains r.lhs) &&
    (!s.begins r.rhs || s.first.contains r.lhs) &&
    (!(r.rhs.any fun X => X.among s.deep || (g.fronts s).contains X) || s.deep.contains r.lhs) &&
    (r.rhs.dropLast.all fun X => !X.among s.deep || X.among s.lists)) &&
  s.lists.all g.isList

/-- No `error` can begin behind an `error`. -/
def Gram.spaced (g : Gram) (s : Sorts) : Bool := !(g.fronts s).contains (.tm .err)

/-- All rules with `error` are `A → α error β`, with no further `error`. -/
def Gram.sameErrors (g : Gram) (A : Nat) (α : List Sym) : Bool :=
  !α.contains (Sym.tm .err) && g.rules.all fun r => !r.rhs.contains (.tm .err) ||
    (r.lhs == A && (α ++ [Sym.tm .err]).isPrefixOf r.rhs && !(r.rhs.drop (α.length + 1)).contains (.tm .err))

end Verif.Par
