import Verif.Tok.Dfa
import Verif.Tok.NfaSem

/-!
# Meaning of the tables (specification)
-/

namespace Verif.Tok

/-- Follow the table along a word; `none` when stuck. -/
def DFA.run (d : DFA) : Nat → List Nat → Option Nat
  | n, [] => some n
  | n, c :: w => (d.next n c).bind fun m => d.run m w

/-- What can be observed of a table on a word: stuck (`none`), or the accept index reached. -/
def DFA.obs (d : DFA) (w : List Nat) : Option (Option Nat) := (d.run d.b w).map d.accept

/-- A well-formed row: non-empty, ordered, disjoint ranges, targets below `len`. -/
structure RowWF (r : Row) (len : Nat) : Prop where
  ranges : ∀ x ∈ r, x.1.1 < x.1.2
  sorted : r.Pairwise fun x y => x.1.2 ≤ y.1.1
  target : ∀ x ∈ r, x.2 < len

/-- Well-formed tables with `pats` patterns. -/
structure DFA.WF (d : DFA) (pats : Nat) : Prop where
  rows : ∀ r ∈ d.rows, RowWF r d.rows.length
  b : d.b < d.rows.length
  endsLen : d.ends.length = d.rows.length
  ends : ∀ e, some e ∈ d.ends → e < pats

end Verif.Tok
