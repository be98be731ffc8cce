import Verif.Tok.Live

/-!
# Sizes (specification)
-/

namespace Verif.Tok

/-- How often the automaton of a regex is needed for a repetition of it. -/
def RepKind.copies : RepKind → Nat
  | .exactly n => n
  | .atLeast n => if n = 0 then 1 else n + 1
  | .bounded _ m => m
  | _ => 1

mutual
/-- Number of nodes the automaton of a regex needs. -/
def Hir.nodes : Hir → Nat
  | .empty => 1
  | .rep k h => if k.copies = 0 then 1 else k.copies * h.nodes
  | .group h => h.nodes
  | .concat hs => Hir.nodesAll hs
  | .alt hs => 2 + Hir.nodesAll hs
  | _ => 2
def Hir.nodesAll : List Hir → Nat
  | [] => 0
  | h :: t => h.nodes + Hir.nodesAll t
end

/-- `k` is the first of the languages `L` that contains `w`. -/
def Least (L : Nat → List Nat → Prop) (k : Nat) (w : List Nat) : Prop := L k w ∧ ∀ j < k, ¬ L j w

/-- Some continuation tells the texts `u` and `v` apart: with it, a language is the first one that contains one of them, and not
the first one that contains the other. -/
def Tells (L : Nat → List Nat → Prop) (u v : List Nat) : Prop := ∃ x k, ¬ (Least L k (u ++ x) ↔ Least L k (v ++ x))

end Verif.Tok
