import Verif.Par.Trees

/-!
# How high the stack of `parse` gets: the specification

The stack of `parse` (`parser_stack`, iter.rs:48) holds one entry for every tree that is finished but not yet part of a
bigger one.  The height that building a tree takes is read off the tree: while the child number `i` of a node is built,
the `i` children before it are waiting.
-/

namespace Verif.Par

variable {T : Type}

mutual
/-- The number of stack entries that building the tree takes. -/
def Tree.high : Tree T → Nat
  | .leaf _ _ => 1
  | .err _ _ => 1
  | .node _ cs => max 1 (highs cs)

/-- The number of stack entries that building the trees one after the other takes. -/
def highs : List (Tree T) → Nat
  | [] => 0
  | f :: fs => max f.high (1 + highs fs)
end

mutual
/-- How deeply the tree is nested: the longest way down, where the step to a first child does not count. -/
def Tree.nesting : Tree T → Nat
  | .leaf _ _ => 0
  | .err _ _ => 0
  | .node _ cs => nestings cs

/-- The nesting of a node with the given children. -/
def nestings : List (Tree T) → Nat
  | [] => 0
  | f :: fs => max f.nesting (nestingsRest fs)

/-- The nesting that the children other than the first contribute. -/
def nestingsRest : List (Tree T) → Nat
  | [] => 0
  | f :: fs => max (1 + f.nesting) (nestingsRest fs)
end

/-- `Leads R A B d`: expanding non-terminals leads from `A` to `B`, where `d` times the next non-terminal was not the
first symbol of the right-hand side. -/
inductive Leads (R : List PRule) (A : Nat) : Nat → Nat → Prop
  | refl : Leads R A A 0
  | front (B d r) : Leads R A r.lhs d → r ∈ R → r.rhs[0]? = some (.nt B) → Leads R A B d
  | inner (B d r i) : Leads R A r.lhs d → r ∈ R → r.rhs[i + 1]? = some (.nt B) → Leads R A B (d + 1)

/-- Some non-terminal that is used contains itself, other than at its left edge. -/
def Nests (g : Gram) : Prop := ∃ A c d, Leads g.rules g.start A c ∧ Leads g.rules A A (d + 1)

/-- Every right-hand side can be made into tokens. -/
def Useful (R : List PRule) (idx : T → Nat) : Prop := ∀ r ∈ R, ∃ l : List T, Derives R r.rhs (l.map fun t => .tm (.sym (idx t)))

/-- No right-hand side has more than `k` symbols. -/
def Width (R : List PRule) (k : Nat) : Prop := ∀ r ∈ R, r.rhs.length ≤ k

end Verif.Par
