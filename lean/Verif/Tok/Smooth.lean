import Verif.Tok.Live
import Verif.Tok.Size
import Verif.Tok.Spec

/-!
# When hash collisions can do no harm (specification for C77)

`minify` can only put two states together by mistake if their rows begin their ranges at the same characters and with the same
targets, but end one of them at different characters.  This can only happen in its first round: later, states in one group have
the same characters in their rows.  In terms of texts: after one text a character `c` can follow, but not `c + 1`; after the other
both can and give the same token; and after both texts the same characters begin something new.
-/

namespace Verif.Tok

/-- The same pattern makes a token of both texts (or none of both). -/
def Alike (L : Nat → List Nat → Prop) (u v : List Nat) : Prop := ∀ k, Least L k u ↔ Least L k v

/-- After `u`, the character `c` can follow, and the character before it cannot, or has another token. -/
def Begins (L : Nat → List Nat → Prop) (u : List Nat) (c : Nat) : Prop :=
  Viable L (u ++ [c]) ∧ ∀ y, c = y + 1 → Viable L (u ++ [y]) → ¬ Alike L (u ++ [y]) (u ++ [c])

/-- Both texts have the same token, and the same characters begin something new after them and give the same token.  But after `u` the
character `c` can follow and `c + 1` cannot, and after `v` they both can and give the same token. -/
def Torn (L : Nat → List Nat → Prop) (u v : List Nat) (c : Nat) : Prop :=
  Viable L (u ++ [c]) ∧ ¬ Viable L (u ++ [c + 1]) ∧ Viable L (v ++ [c]) ∧ Viable L (v ++ [c + 1]) ∧
  Alike L u v ∧ Alike L (u ++ [c]) (v ++ [c]) ∧ Alike L (v ++ [c]) (v ++ [c + 1]) ∧
  ∀ x, (Begins L u x ↔ Begins L v x) ∧ (Begins L u x → Alike L (u ++ [x]) (v ++ [x]))

/-! ## A check -/

/-- In the first round, no two states in a group have rows that compare equal and are different. -/
def DFA.smooth (d : DFA) : Bool :=
  let ks := (initGroups d).zip (d.rows.map (compress (initGroups d)))
  ks.all fun p => ks.all fun q => p.1 != q.1 || !rowEq p.2 q.2 || p.2 == q.2

/-- The check for a list of patterns, on the automaton before minimisation; hash orders do not matter, so none is given. -/
def smoothCheck {π ρ β : Type} (fuel : Nat) (parse : π → Except ρ Hir) (ps : List (π × β)) : Bool :=
  match parseAll parse (ps.map Prod.fst) with
  | .error _ => true
  | .ok hs =>
    match buildAll hs with
    | .error _ => true
    | .ok t =>
      match fromNfa fuel id t with
      | none => false
      | some (d, _) => d.smooth

end Verif.Tok
