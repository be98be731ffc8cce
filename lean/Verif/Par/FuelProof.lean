import Verif.Par.NewProof

/-!
# More fuel does not change an outcome
-/

namespace Verif.Par

theorem nullLoop_mono {R : List PRule} {f f' : Nat} (hf : f ≤ f') {m : List Sym} (h : nullLoop R f m ≠ .fuel) :
    nullLoop R f' m = nullLoop R f m := by
  induction f generalizing f' m with
  | zero => exact absurd rfl h
  | succ f ih =>
    obtain ⟨k, rfl⟩ : ∃ k, f' = k + 1 := ⟨f' - 1, by omega⟩
    unfold nullLoop at h ⊢
    simp only at h ⊢
    split
    · rename_i hb; rw [if_pos hb] at h; exact ih (by omega) h
    · rfl

theorem firstLoop_mono {R : List PRule} {null : List Sym} {f f' : Nat} (hf : f ≤ f') {m : First} (h : firstLoop null R f m ≠ .fuel) :
    firstLoop null R f' m = firstLoop null R f m := by
  induction f generalizing f' m with
  | zero => exact absurd rfl h
  | succ f ih =>
    obtain ⟨k, rfl⟩ : ∃ k, f' = k + 1 := ⟨f' - 1, by omega⟩
    unfold firstLoop at h ⊢
    simp only at h ⊢
    split
    · rename_i hb; rw [if_pos hb] at h; exact ih (by omega) h
    · rfl

theorem closure_mono {R : List PRule} {null : List Sym} {first : First} {f f' : Nat} (hf : f ≤ f') {S : State}
    (h : closure R null first f S ≠ .fuel) : closure R null first f' S = closure R null first f S := by
  induction f generalizing f' S with
  | zero => exact absurd rfl h
  | succ f ih =>
    obtain ⟨k, rfl⟩ : ∃ k, f' = k + 1 := ⟨f' - 1, by omega⟩
    unfold closure at h ⊢
    cases hc : closeUpdate R null first S with
    | none => rfl
    | some u =>
      simp only [hc] at h ⊢
      split
      · rename_i hb; rw [if_pos hb] at h; exact ih (by omega) h
      · rfl

theorem closeAll_mono {R : List PRule} {null : List Sym} {first : First} {f f' : Nat} (hf : f ≤ f') {m : Goto}
    (h : closeAll R null first f m ≠ .fuel) : closeAll R null first f' m = closeAll R null first f m := by
  induction m with
  | nil => rfl
  | cons x m ih =>
    obtain ⟨X, S⟩ := x
    unfold closeAll at h ⊢
    cases hc : closure R null first f S with
    | fuel => simp only [hc] at h; exact absurd rfl h
    | panic => rw [closure_mono hf (by rw [hc]; simp), hc]
    | ok S' =>
      rw [closure_mono hf (by rw [hc]; simp), hc]
      simp only [hc] at h ⊢
      cases hm : closeAll R null first f m with
      | fuel => simp only [hm] at h; exact absurd rfl h
      | panic => rw [ih (by rw [hm]; simp), hm]
      | ok m' => rw [ih (by rw [hm]; simp), hm]

theorem calcGoto_mono {R : List PRule} {null : List Sym} {first : First} {f f' : Nat} (hf : f ≤ f') {S : State}
    (h : calcGoto R null first f S ≠ .fuel) : calcGoto R null first f' S = calcGoto R null first f S := by
  unfold calcGoto at h ⊢
  cases hk : gotoKernels R S [] with
  | none => rfl
  | some m => simp only [hk] at h ⊢; exact closeAll_mono hf h

theorem allLoop_mono {o : Seeds} {R : List PRule} {null : List Sym} {first : First} {u u' f f' : Nat} (hu : u ≤ u') (hf : f ≤ f')
    {q : List State} {sl : List (State × Goto)} (h : allLoop o R null first u f q sl ≠ .fuel) :
    allLoop o R null first u' f' q sl = allLoop o R null first u f q sl := by
  induction f generalizing f' q sl with
  | zero =>
    cases q with
    | nil => cases f' <;> rfl
    | cons S q => exact absurd rfl h
  | succ f ih =>
    obtain ⟨k, rfl⟩ : ∃ k, f' = k + 1 := ⟨f' - 1, by omega⟩
    cases q with
    | nil => rfl
    | cons S q =>
      unfold allLoop at h ⊢
      split
      · rename_i hb; rw [if_pos hb] at h; exact ih (by omega) h
      · rename_i hb
        rw [if_neg hb] at h
        cases hg : calcGoto R null first u S with
        | fuel => simp only [hg] at h; exact absurd rfl h
        | panic => rw [calcGoto_mono hu (by rw [hg]; simp), hg]
        | ok g =>
          rw [calcGoto_mono hu (by rw [hg]; simp), hg]
          simp only [hg] at h ⊢
          exact ih (by omega) h

theorem newTables_mono {o : Seeds} {g : Gram} {f f' : Nat} (hf : f ≤ f') (h : newTables f o g ≠ .fuel) :
    newTables f' o g = newTables f o g := by
  unfold newTables at h ⊢
  simp only at h ⊢
  generalize g.aug (freshSym g.rules) = R at h ⊢
  cases h1 : calcNull f R with
  | fuel => simp only [h1] at h; exact absurd rfl h
  | panic => exact absurd h1 nullLoop_no_panic
  | ok null =>
    have e1 : calcNull f' R = calcNull f R := nullLoop_mono hf (by
      have : calcNull f R ≠ .fuel := by rw [h1]; simp
      exact this)
    rw [e1, h1]
    simp only [h1] at h ⊢
    cases h2 : calcFirst f null R with
    | fuel => simp only [h2] at h; exact absurd rfl h
    | panic => exact absurd h2 firstLoop_no_panic
    | ok first =>
      have e2 : calcFirst f' null R = calcFirst f null R := firstLoop_mono hf (by
        have : calcFirst f null R ≠ .fuel := by rw [h2]; simp
        exact this)
      rw [e2, h2]
      simp only [h2] at h ⊢
      cases h3 : closure R null first f [⟨g.rules.length, 0, .eoi⟩] with
      | fuel => simp only [h3] at h; exact absurd rfl h
      | panic => rw [closure_mono hf (by rw [h3]; simp), h3]
      | ok S =>
        rw [closure_mono hf (by rw [h3]; simp), h3]
        simp only [h3] at h ⊢
        cases h4 : allGoto o R null first f S with
        | fuel => simp only [h4] at h; exact absurd rfl h
        | panic =>
          have e4 : allGoto o R null first f' S = allGoto o R null first f S := allLoop_mono hf hf (by
            have : allGoto o R null first f S ≠ .fuel := by rw [h4]; simp
            exact this)
          rw [e4, h4]
        | ok sl =>
          have e4 : allGoto o R null first f' S = allGoto o R null first f S := allLoop_mono hf hf (by
            have : allGoto o R null first f S ≠ .fuel := by rw [h4]; simp
            exact this)
          rw [e4, h4]

/-- The outcome of `new` is unique. -/
theorem newGives_unique {o : Seeds} {g : Gram} {r r' : Res (Tables × List Warning)} (h : NewGives o g r) (h' : NewGives o g r') :
    r = r' := by
  obtain ⟨f, h1, h2⟩ := h
  obtain ⟨f', h1', h2'⟩ := h'
  rcases Nat.le_total f f' with hf | hf
  · rw [← h1, ← h1', newTables_mono hf (by rw [h1]; exact h2)]
  · rw [← h1, ← h1', newTables_mono hf (by rw [h1']; exact h2')]

end Verif.Par
