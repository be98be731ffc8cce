import Verif.Par.Parse

/-!
# Specification of parsing: derivation trees and their evaluation
-/

namespace Verif.Par

/-- Derivation trees over an input.  A leaf is token `t` at position `i` of the input; an error leaf stands for the tokens
`l` from position `lo` on; a node is a rule number with children. -/
inductive Tree (T : Type) where
  | leaf (i : Nat) (t : T)
  | err (lo : Nat) (l : List T)
  | node (r : Nat) (cs : List (Tree T))

variable {N T E : Type}

mutual
/-- Tokens at the leaves with their positions, left to right. -/
def Tree.leaves : Tree T → List (T × Nat)
  | .leaf i t => [(t, i)]
  | .err _ _ => []
  | .node _ cs => leaves cs
def leaves : List (Tree T) → List (T × Nat)
  | [] => []
  | f :: fs => f.leaves ++ leaves fs
end

mutual
/-- Error leaves, left to right. -/
def Tree.errs : Tree T → List (Nat × List T)
  | .leaf _ _ => []
  | .err lo l => [(lo, l)]
  | .node _ cs => errs cs
def errs : List (Tree T) → List (Nat × List T)
  | [] => []
  | f :: fs => f.errs ++ errs fs
end

/-- `Built R idx input us fs`: the forest `fs` derives the input from the symbols `us`: inner nodes are rules, leaves
are tokens of the input, error leaves are non-empty contiguous slices of the input. -/
inductive Built (R : List PRule) (idx : T → Nat) (input : List T) : List Sym → List (Tree T) → Prop
  | nil : Built R idx input [] []
  | leaf (i t us fs) : input[i]? = some t → Built R idx input us fs →
      Built R idx input (.tm (.sym (idx t)) :: us) (.leaf i t :: fs)
  | err (lo l us fs) : l ≠ [] → (input.drop lo).take l.length = l → Built R idx input us fs →
      Built R idx input (.tm .err :: us) (.err lo l :: fs)
  | node (r rule cs us fs) : R[r]? = some rule → Built R idx input rule.rhs cs → Built R idx input us fs →
      Built R idx input (.nt rule.lhs :: us) (.node r cs :: fs)

/-- `f` is a derivation tree of exactly the input. -/
def IsTree (R : List PRule) (start : Nat) (idx : T → Nat) (input : List T) (f : Tree T) : Prop :=
  Built R idx input [.nt start] [f] ∧ errs [f] = [] ∧ leaves [f] = input.zipIdx

/-- A call of a callback: rule number and arguments. -/
abbrev Call (N T : Type) := Nat × List (Arg N T)

/-- Bottom-up, left-to-right evaluation of a forest with the callbacks: the calls made, in order, and the values of the
trees or the first failure. -/
inductive Evals (rules : List (Rule N T E)) : List (Tree T) → List (Call N T) → Except E (List (Arg N T)) → Prop
  | nil : Evals rules [] [] (.ok [])
  | leaf (i t fs lg as) : Evals rules fs lg (.ok as) → Evals rules (.leaf i t :: fs) lg (.ok (.tok t :: as))
  | leafE (i t fs lg e) : Evals rules fs lg (.error e) → Evals rules (.leaf i t :: fs) lg (.error e)
  | err (lo l fs lg as) : Evals rules fs lg (.ok as) → Evals rules (.err lo l :: fs) lg (.ok (.err l :: as))
  | errE (lo l fs lg e) : Evals rules fs lg (.error e) → Evals rules (.err lo l :: fs) lg (.error e)
  | node (r rule cs lg1 args v fs lg2 as) : rules[r]? = some rule → Evals rules cs lg1 (.ok args) → rule.gen args = .ok v →
      Evals rules fs lg2 (.ok as) → Evals rules (.node r cs :: fs) (lg1 ++ (r, args) :: lg2) (.ok (.nt v :: as))
  | nodeE (r rule cs lg1 args v fs lg2 e) : rules[r]? = some rule → Evals rules cs lg1 (.ok args) → rule.gen args = .ok v →
      Evals rules fs lg2 (.error e) → Evals rules (.node r cs :: fs) (lg1 ++ (r, args) :: lg2) (.error e)
  | fail (r rule cs lg1 args e fs) : rules[r]? = some rule → Evals rules cs lg1 (.ok args) → rule.gen args = .error e →
      Evals rules (.node r cs :: fs) (lg1 ++ [(r, args)]) (.error e)
  | inner (r cs lg1 e fs) : Evals rules cs lg1 (.error e) → Evals rules (.node r cs :: fs) lg1 (.error e)

end Verif.Par
