import Verif.Par.Rightmost

/-!
# Where complete phrases can be given up again (specification)
-/

namespace Verif.Par

/-- A place of recovery: behind `γ` some error rule can begin its `error`. -/
def Gram.PlaceOf (g : Gram) (γ : List Sym) : Prop := ∃ r, g.ErrorAt r γ

/-- A phrase `X` with a place of recovery inside, behind which the parser goes on reading (`Y`) without having made it part of a larger phrase, is
followed by a place of recovery again, unless there is no such place in front of it. -/
def Gram.Settled (g : Gram) : Prop :=
  ∀ γ X Y δ ρ, g.ViablePrefix (γ ++ [.nt X, Y]) → Derives g.rules [.nt X] (δ ++ ρ) → δ ≠ [] → g.PlaceOf (γ ++ δ) →
    g.PlaceOf (γ ++ [.nt X]) ∨ ∀ γ', γ' <+: γ → ¬ g.PlaceOf γ'

end Verif.Par
