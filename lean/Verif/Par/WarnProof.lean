import Verif.Par.NewProof

/-!
# Consequences of having no warnings
-/

namespace Verif.Par

/-- There is an ordered set of the valid items of every viable prefix. -/
theorem itemsOf_exists {R : List PRule} {s : Nat} {r0 : PRule} (hs : R[s]? = some r0) (γ : List Sym) : ∃ S, ItemsOf R s γ S := by
  classical
  refine ⟨OSet.ofList ((itemUniverse R).filter fun i => decide (Valid R s γ i)), OSet.sorted_ofList, ?_⟩
  intro i
  rw [OSet.mem_ofList, List.mem_filter]
  constructor
  · rintro ⟨_, h⟩; simpa using h
  · intro h; exact ⟨h.universe hs, by simpa using h⟩

/-- Every valid reduction is done, except where the state accepts. -/
theorem no_warn_reduce {R : List PRule} {s : Nat} {r0 : PRule} (hs : R[s]? = some r0) {T : Tables} (hc : Canonical R s T)
    (hw : WarnExact R s []) {γ : List Sym} {q r : Nat} {a : Term} (hq : T.walk γ = some q) (hr : r ≠ s) (hcomp : Complete R s γ r a) :
    T.act q a = some (.reduce r) ∨ (a = .eoi ∧ T.act q a = some .accept) := by
  by_cases hna : a = .eoi ∧ Accepts R s γ
  · right; exact ⟨hna.1, (hc.accept γ q a hq).2 hna⟩
  · left
    obtain ⟨S, hS⟩ := itemsOf_exists hs γ
    have hne : ¬ Expects R s γ (.tm a) := by
      intro he
      obtain ⟨S', hS'⟩ := itemsOf_exists hs (γ ++ [.tm a])
      have := (hw.shiftReduce S S' r).2 ⟨γ, a, hS, hS', hr, hcomp, he⟩
      cases this
    refine (hc.reduce γ q a r hq).2 ⟨hr, hcomp, hne, hna, ?_⟩
    -- a smaller complete rule would give a warning
    have hno : ∀ n r', r' ≤ n → r' < r → r' ≠ s → Complete R s γ r' a → False := by
      intro n
      induction n with
      | zero =>
        intro r' h3 h4 h5 h6
        have := (hw.reduceReduce S r' r).2 ⟨γ, a, hS, h5, hr, h4, h6, hcomp, hne, fun _ _ _ => by omega⟩
        cases this
      | succ n ih =>
        intro r' h3 h4 h5 h6
        by_cases hle : ∃ r'', r'' < r' ∧ r'' ≠ s ∧ Complete R s γ r'' a
        · obtain ⟨r'', k1, k2, k3⟩ := hle
          exact ih r'' (by omega) (by omega) k2 k3
        · have := (hw.reduceReduce S r' r).2 ⟨γ, a, hS, h5, hr, h4, h6, hcomp, hne, fun r'' k1 k2 => by
            apply Classical.byContradiction
            intro hlt
            exact hle ⟨r'', by omega, k1, k2⟩⟩
          cases this
    intro r' h5 h6
    apply Classical.byContradiction
    intro hlt
    exact hno r' r' (Nat.le_refl _) (by omega) h5 h6

end Verif.Par
