import Verif.Par.Rightmost
import Verif.Par.Trees

/-!
# Which derivation tree is taken (specification for C63)

A derivation tree says when to reduce: behind the last symbol of a node.  Where the grammar has conflicts there may be other things to do
at this point.
-/

namespace Verif.Par

variable {T : Type}

/-- The token at position `j`, or the end of the input. -/
def nextTerm (idx : T → Nat) (input : List T) (j : Nat) : Term :=
  match input[j]? with
  | some t => .sym (idx t)
  | none => .eoi

/-- `Q` holds for every reduction of the forest: for the symbols read up to there, for the rule, for the next terminal.  `γ` has been read
before the forest, which begins at position `j` of the input. -/
inductive Along (R : List PRule) (Q : List Sym → Nat → Term → Prop) (idx : T → Nat) (input : List T) : List Sym → Nat → List (Tree T) → Prop
  | nil (γ j) : Along R Q idx input γ j []
  | leaf (γ j i t fs) : Along R Q idx input (γ ++ [.tm (.sym (idx t))]) (j + 1) fs → Along R Q idx input γ j (.leaf i t :: fs)
  | node (γ j r rule cs fs) : R[r]? = some rule → Along R Q idx input γ j cs →
      Q (γ ++ rule.rhs) r (nextTerm idx input (j + (leaves cs).length)) →
      Along R Q idx input (γ ++ [.nt rule.lhs]) (j + (leaves cs).length) fs → Along R Q idx input γ j (.node r cs :: fs)

/-- Reducing rule `r` behind `γ` and in front of `a` is what conflict resolution chooses: with `a`, `γ` is not the begin of any right
sentential form up to its handle, and no earlier rule is the handle of one.  (The third condition matters only if the start symbol derives itself.) -/
def Gram.Preferred (g : Gram) (γ : List Sym) (r : Nat) (a : Term) : Prop :=
  ¬ g.ViablePrefix (γ ++ [.tm a]) ∧ (∀ r', g.HandleAt r' γ a → r ≤ r') ∧ ¬ (a = .eoi ∧ γ = [.nt g.start])

/-- A derivation tree of the input all of whose reductions are preferred. -/
def Gram.Chosen (g : Gram) (idx : T → Nat) (input : List T) (f : Tree T) : Prop :=
  IsTree g.rules g.start idx input f ∧ Along g.rules g.Preferred idx input [] 0 [f]

end Verif.Par
