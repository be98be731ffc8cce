import Verif.Par.Plug
import Verif.Par.Trees

/-!
# Values of pieces of the input (specification for C76)

Instead of putting the rules of one grammar into another, one can parse the pieces of the input that belong to the inner grammar
first, and then the rest with the value of each piece as a token.
-/

namespace Verif.Par

variable {N T E : Type}

/-- What the outer parser reads: a token, or the value of a piece. -/
inductive Lump (N T : Type) where
  | tok (a : T)
  | val (n : N)

/-- A value is the terminal `t` of the outer grammar. -/
def Lump.idx (idx : T → Nat) (t : Nat) : Lump N T → Nat
  | .tok a => idx a
  | .val _ => t

/-- `ps` is `w` with values in place of pieces; `M u v`: the piece `u` has the value `v`. -/
inductive Cuts (idx : T → Nat) (t : Nat) (M : List T → N → Prop) : List (Lump N T) → List T → Prop
  | nil : Cuts idx t M [] []
  | keep (a ps w) : idx a ≠ t → Cuts idx t M ps w → Cuts idx t M (.tok a :: ps) (a :: w)
  | fill (u v ps w) : M u v → Cuts idx t M ps w → Cuts idx t M (.val v :: ps) (u ++ w)

/-- An argument of a callback of the outer grammar: where it has the symbol `t`, the value of the inner start symbol. -/
def Arg.raise (t : Nat) (X : Sym) : Arg N T → Arg N (Lump N T)
  | .nt n => if X = .tm (.sym t) then .tok (.val n) else .nt n
  | .tok a => .tok (.tok a)
  | .err l => .err (l.map .tok)

/-- A rule of the outer grammar with the inner start symbol `h` in place of `t`, and the same callback. -/
def Rule.put (t h : Nat) (r : Rule N (Lump N T) E) : Rule N T E :=
  ⟨r.lhs, r.rhs.map (Sym.put t h), fun args => r.gen (List.zipWith (Arg.raise t) r.rhs args)⟩

/-- The rules of the whole. -/
def putRules (t h : Nat) (rules : List (Rule N (Lump N T) E)) (rules' : List (Rule N T E)) : List (Rule N T E) :=
  rules.map (Rule.put t h) ++ rules'

end Verif.Par
