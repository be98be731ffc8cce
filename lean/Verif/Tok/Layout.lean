import Verif.Props.TokJoin

/-!
# Texts that differ only in white space, and texts put together from words (specification)
-/

namespace Verif.Tok

variable {α E π : Type}

/-- The longest parts of a text without blanks (`B` says which characters are blanks). -/
def chunks (B : Nat → Bool) (map : α → Nat) : List α → List (List α)
  | [] => []
  | [x] => if B (map x) then [] else [[x]]
  | x :: y :: l =>
    if B (map x) then chunks B map (y :: l)
    else if B (map y) then [x] :: chunks B map (y :: l)
    else
      match chunks B map (y :: l) with
      | [] => [[x]]
      | c :: cs => (x :: c) :: cs

/-- What is needed so that blanks only keep other words apart; `L k` is what pattern `k` matches.  Callbacks of words of blanks return `None`. -/
structure BlanksApart (L : Nat → List Nat → Prop) (ps : List (π × (List Nat → List α → Option E))) (map : α → Nat) (B : Nat → Bool) : Prop where
  /-- the empty text is no word -/
  nonempty : ∀ k, ¬ L k []
  /-- a word consists of blanks or has none in it -/
  unmixed : ∀ k w, L k w → (∀ c ∈ w, B c = true) ∨ ∀ c ∈ w, B c = false
  /-- a blank is a word -/
  words : ∀ x, B (map x) = true → ∃ k, L k [map x]
  /-- words of blanks are dropped -/
  dropped : ∀ k p w, ps[k]? = some p → L k (w.map map) → (∀ x ∈ w, B (map x) = true) → p.2 (w.map map) w = none

/-- Some word begins with `u` and then the character `c`. -/
def GoesOn (L : Nat → List Nat → Prop) (u : List Nat) (c : Nat) : Prop := ∃ z j, L j (u ++ c :: z)

/-- Words one behind the other, with what the callbacks make of them; no word goes on with the first character of the next. -/
inductive Spelled (L : Nat → List Nat → Prop) (ps : List (π × (List Nat → List α → E))) (map : α → Nat) : List (List α) → List E → Prop
  | nil : Spelled L ps map [] []
  | cons (w k p l es) : w ≠ [] → L k (w.map map) → (∀ j < k, ¬ L j (w.map map)) → ps[k]? = some p →
      (∀ x v, l.flatten = x :: v → ¬ GoesOn L (w.map map) (map x)) → Spelled L ps map l es → Spelled L ps map (w :: l) (p.2 (w.map map) w :: es)

/-- Words with what the callbacks make of them. -/
inductive Worded (L : Nat → List Nat → Prop) (ps : List (π × (List Nat → List α → E))) (map : α → Nat) : List (List α) → List E → Prop
  | nil : Worded L ps map [] []
  | cons (w k p l es) : L k (w.map map) → (∀ j < k, ¬ L j (w.map map)) → ps[k]? = some p → Worded L ps map l es →
      Worded L ps map (w :: l) (p.2 (w.map map) w :: es)

end Verif.Tok
