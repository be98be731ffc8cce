import Verif.Common.OSet

/-!
# Derived `Ord` implementations
-/

namespace Verif

/-- Lexicographic order on pairs (derived `Ord`). -/
instance instSLTProd {α β : Type} [SLT α] [SLT β] [DecidableEq α] : SLT (α × β) where
  lt x y := SLT.lt x.1 y.1 || (decide (x.1 = y.1) && SLT.lt x.2 y.2)
  irrefl x := by simp [SLT.irrefl]
  trans := by
    intro a b c h1 h2
    simp only [Bool.or_eq_true, Bool.and_eq_true, decide_eq_true_eq] at h1 h2 ⊢
    rcases h1 with h1 | ⟨h1, h1'⟩
    · rcases h2 with h2 | ⟨h2, _⟩
      · exact Or.inl (SLT.trans h1 h2)
      · exact Or.inl (h2 ▸ h1)
    · rcases h2 with h2 | ⟨h2, h2'⟩
      · exact Or.inl (h1 ▸ h2)
      · exact Or.inr ⟨h1.trans h2, SLT.trans h1' h2'⟩
  tri := by
    intro a b h1 h2
    simp only [Bool.or_eq_false_iff, Bool.and_eq_false_iff, decide_eq_false_iff_not] at h1 h2
    have h := SLT.tri h1.1 h2.1
    refine Prod.ext h (SLT.tri ?_ ?_)
    · exact h1.2.resolve_left (fun hn => hn h)
    · exact h2.2.resolve_left (fun hn => hn h.symm)

/-- An order pulled back along an injection. -/
@[reducible] def SLT.comap {α β : Type} [SLT β] (f : α → β) (hf : ∀ a b, f a = f b → a = b) : SLT α where
  lt x y := SLT.lt (f x) (f y)
  irrefl _ := SLT.irrefl _
  trans := SLT.trans
  tri h1 h2 := hf _ _ (SLT.tri h1 h2)

end Verif
