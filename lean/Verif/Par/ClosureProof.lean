import Verif.Par.FirstProof

/-!
# The closure of an item set
-/

namespace Verif.Par

/-- The items that the closure of `K` consists of. -/
inductive Clo (R : List PRule) (K : Item → Prop) : Item → Prop
  | base (i) : K i → Clo R K i
  | step (i r B j r' b ρ) : Clo R K i → R[i.rule]? = some r → r.rhs[i.pos]? = some (.nt B) →
      R[j]? = some r' → r'.lhs = B → Gen R (r.rhs.drop (i.pos + 1) ++ [.tm i.la]) (.tm b :: ρ) → Clo R K ⟨j, 0, b⟩

theorem Clo.mono {R : List PRule} {K K' : Item → Prop} (h : ∀ i, K i → K' i) {i : Item} (hc : Clo R K i) : Clo R K' i := by
  induction hc with
  | base i hi => exact .base i (h i hi)
  | step i r B j r' b ρ _ h1 h2 h3 h4 h5 ih => exact .step i r B j r' b ρ ih h1 h2 h3 h4 h5

theorem Clo.idem {R : List PRule} {K K' : Item → Prop} (h : ∀ i, K' i → Clo R K i) {i : Item} (hc : Clo R K' i) : Clo R K i := by
  induction hc with
  | base i hi => exact h i hi
  | step i r B j r' b ρ _ h1 h2 h3 h4 h5 ih => exact .step i r B j r' b ρ ih h1 h2 h3 h4 h5

theorem mem_rulesOf {R : List PRule} {n j : Nat} : j ∈ rulesOf R n ↔ ∃ r, R[j]? = some r ∧ r.lhs = n := by
  unfold rulesOf
  rw [List.mem_filter]
  constructor
  · rintro ⟨_, h⟩
    simp only [beq_iff_eq, Option.map_eq_some_iff] at h
    exact h
  · rintro ⟨r, h, hl⟩
    refine ⟨?_, ?_⟩
    · rw [List.mem_range]
      exact (List.getElem?_eq_some_iff.1 h).1
    · simp [h, hl]

/-- The item can be expanded by an item that does not exist: the panic of `rules[&non_terminal]`. -/
def Stuck (R : List PRule) (i : Item) : Prop :=
  R[i.rule]? = none ∨ ∃ r B b ρ, R[i.rule]? = some r ∧ r.rhs[i.pos]? = some (.nt B) ∧ (∀ r' ∈ R, r'.lhs ≠ B) ∧
    Gen R (r.rhs.drop (i.pos + 1) ++ [.tm i.la]) (.tm b :: ρ)

/-- `j` is one of the items that `i` is expanded by. -/
def Exp (R : List PRule) (i j : Item) : Prop :=
  ∃ r B r' ρ, R[i.rule]? = some r ∧ r.rhs[i.pos]? = some (.nt B) ∧ R[j.rule]? = some r' ∧ r'.lhs = B ∧ j.pos = 0 ∧
    Gen R (r.rhs.drop (i.pos + 1) ++ [.tm i.la]) (.tm j.la :: ρ)

theorem Clo.exp {R : List PRule} {K : Item → Prop} {i j : Item} (h : Clo R K i) (he : Exp R i j) : Clo R K j := by
  obtain ⟨r, B, r', ρ, h1, h2, h3, h4, h5, h6⟩ := he
  have := Clo.step i r B j.rule r' j.la ρ h h1 h2 h3 h4 h6
  obtain ⟨j1, j2, j3⟩ := j
  simp only at h5
  subst h5
  exact this

section
variable {R : List PRule} {null : List Sym} {first : First} (hn : NullExact R null) (hf : FirstExact R first)
include hn hf

theorem closeItem_spec (i : Item) : (closeItem R null first i = none ↔ Stuck R i) ∧
    ∀ u, closeItem R null first i = some u → ∀ j, j ∈ u ↔ Exp R i j := by
  unfold closeItem
  cases hr : R[i.rule]? with
  | none => simp [Stuck, hr]
  | some r =>
    simp only
    cases hX : r.rhs[i.pos]? with
    | none => simp [Stuck, Exp, hr, hX]
    | some X =>
      cases X with
      | tm t => simp [Stuck, Exp, hr, hX]
      | nt B =>
        simp only
        have hla : ∀ b, b ∈ getFirst null first (r.rhs.drop (i.pos + 1) ++ [.tm i.la]) [] ↔
            ∃ ρ, Gen R (r.rhs.drop (i.pos + 1) ++ [.tm i.la]) (.tm b :: ρ) := by
          intro b
          rw [getFirst_spec hn hf]
          simp
        generalize getFirst null first (r.rhs.drop (i.pos + 1) ++ [.tm i.la]) [] = la at hla
        cases hjs : rulesOf R B with
        | nil =>
          have hno : ∀ r' ∈ R, r'.lhs ≠ B := by
            intro r' hr' hl
            obtain ⟨k, hk⟩ := List.getElem?_of_mem hr'
            have : k ∈ rulesOf R B := mem_rulesOf.2 ⟨r', hk, hl⟩
            rw [hjs] at this
            cases this
          simp only
          cases hle : la with
          | nil =>
            subst hle
            simp only [List.isEmpty_nil, if_true, reduceCtorEq, false_iff, Option.some.injEq]
            refine ⟨?_, ?_⟩
            · rintro (h | ⟨r1, B1, b, ρ, h1, h2, h3, h4⟩)
              · simp [hr] at h
              · rw [hr] at h1; cases h1
                exact absurd ((hla b).2 ⟨ρ, h4⟩) (by simp)
            · rintro u rfl j
              constructor
              · intro h; cases h
              · rintro ⟨r1, B1, r', ρ, h1, h2, h3, h4, _⟩
                rw [hr] at h1; cases h1
                rw [hX] at h2; cases h2
                exact absurd h4 (hno r' (List.mem_of_getElem? h3))
          | cons b la' =>
            subst hle
            simp only [List.isEmpty_cons, Bool.false_eq_true, if_false, true_iff, reduceCtorEq, false_implies, implies_true, and_true]
            obtain ⟨ρ, hg⟩ := (hla b).1 (by simp)
            exact Or.inr ⟨r, B, b, ρ, hr, hX, hno, hg⟩
        | cons k ks =>
          simp only [reduceCtorEq, false_iff, Option.some.injEq]
          refine ⟨?_, ?_⟩
          · rintro (h | ⟨r1, B1, b, ρ, h1, h2, h3, h4⟩)
            · simp [hr] at h
            · rw [hr] at h1; cases h1
              rw [hX] at h2; cases h2
              have : k ∈ rulesOf R B := by rw [hjs]; simp
              obtain ⟨r', h5, h6⟩ := mem_rulesOf.1 this
              exact h3 r' (List.mem_of_getElem? h5) h6
          · rintro u rfl j
            rw [List.mem_flatMap]
            simp only [List.mem_map]
            constructor
            · rintro ⟨b, hb, m, hm, rfl⟩
              rw [← hjs] at hm
              obtain ⟨r', h5, h6⟩ := mem_rulesOf.1 hm
              obtain ⟨ρ, hg⟩ := (hla b).1 hb
              exact ⟨r, B, r', ρ, hr, hX, h5, h6, rfl, hg⟩
            · rintro ⟨r1, B1, r', ρ, h1, h2, h3, h4, h5, h6⟩
              rw [hr] at h1; cases h1
              rw [hX] at h2; cases h2
              refine ⟨j.la, (hla _).2 ⟨ρ, h6⟩, j.rule, ?_, ?_⟩
              · rw [← hjs]; exact mem_rulesOf.2 ⟨r', h3, h4⟩
              · rw [← h5]

theorem closeUpdate_spec (s : List Item) : (closeUpdate R null first s = none ↔ ∃ i ∈ s, Stuck R i) ∧
    ∀ u, closeUpdate R null first s = some u → ∀ j, j ∈ u ↔ ∃ i ∈ s, Exp R i j := by
  induction s with
  | nil => simp [closeUpdate]
  | cons i s ih =>
    obtain ⟨h1, h2⟩ := closeItem_spec hn hf i
    unfold closeUpdate
    cases hc : closeItem R null first i with
    | none =>
      simp only [true_iff, reduceCtorEq, false_implies, implies_true, and_true]
      exact ⟨i, by simp, h1.1 hc⟩
    | some u =>
      simp only
      have hns : ¬ Stuck R i := by
        intro h; rw [h1.2 h] at hc; cases hc
      cases hcs : closeUpdate R null first s with
      | none =>
        simp only [true_iff, reduceCtorEq, false_implies, implies_true, and_true]
        obtain ⟨j, hj, hst⟩ := ih.1.1 hcs
        exact ⟨j, by simp [hj], hst⟩
      | some v =>
        simp only [reduceCtorEq, false_iff, Option.some.injEq]
        refine ⟨?_, ?_⟩
        · rintro ⟨j, hj, hst⟩
          rcases List.mem_cons.1 hj with rfl | hj
          · exact hns hst
          · have := ih.1.2 ⟨j, hj, hst⟩
            rw [hcs] at this; cases this
        · rintro w rfl j
          rw [List.mem_append, h2 u hc, ih.2 v hcs]
          simp

theorem closure_spec {fuel : Nat} {K : State} :
    (∀ S, closure R null first fuel K = .ok S → (∀ i, i ∈ S ↔ Clo R (· ∈ K) i) ∧ (∀ i ∈ S, ¬ Stuck R i) ∧ (OSet.Sorted K → OSet.Sorted S)) ∧
    (closure R null first fuel K = .panic → ∃ i, Clo R (· ∈ K) i ∧ Stuck R i) := by
  induction fuel generalizing K with
  | zero => simp [closure]
  | succ f ih =>
    unfold closure
    obtain ⟨h1, h2⟩ := closeUpdate_spec hn hf K
    cases hc : closeUpdate R null first K with
    | none =>
      simp only [reduceCtorEq, false_implies, implies_true, true_and]
      intro _
      obtain ⟨i, hi, hst⟩ := h1.1 hc
      exact ⟨i, .base i hi, hst⟩
    | some u =>
      have h2 := h2 u hc
      simp only
      rw [insertAll_fst]
      have hsub : ∀ i, i ∈ OSet.union K (OSet.ofList u) → Clo R (· ∈ K) i := by
        intro i hi
        rcases OSet.mem_union.1 hi with hi | hi
        · exact .base i hi
        · obtain ⟨j, hj, he⟩ := (h2 i).1 (OSet.mem_ofList.1 hi)
          exact (Clo.base j hj).exp he
      have hequiv : ∀ i, Clo R (· ∈ OSet.union K (OSet.ofList u)) i ↔ Clo R (· ∈ K) i :=
        fun i => ⟨fun h => h.idem hsub, fun h => h.mono (fun j hj => OSet.mem_union.2 (Or.inl hj))⟩
      split
      · obtain ⟨h3, h4⟩ := ih (K := OSet.union K (OSet.ofList u))
        refine ⟨?_, ?_⟩
        · intro S hS
          obtain ⟨a, b, c⟩ := h3 S hS
          exact ⟨fun i => (a i).trans (hequiv i), b, fun hK => c (OSet.sorted_union hK)⟩
        · intro hp
          obtain ⟨i, hi, hst⟩ := h4 hp
          exact ⟨i, (hequiv i).1 hi, hst⟩
      · rename_i hflag
        simp only [Res.ok.injEq, reduceCtorEq, false_implies, and_true]
        rintro S rfl
        have hstable : ∀ x ∈ u, x ∈ K := by
          intro x hx
          apply Classical.byContradiction
          intro hnx
          exact hflag ((insertAll_snd _ _).2 ⟨x, by simpa using hx, hnx⟩)
        have hmem : ∀ i, i ∈ OSet.union K (OSet.ofList u) ↔ i ∈ K := by
          intro i
          rw [OSet.mem_union, OSet.mem_ofList]
          exact ⟨fun h => h.elim id (hstable i), Or.inl⟩
        refine ⟨?_, ?_, OSet.sorted_union⟩
        · intro i
          refine ⟨hsub i, ?_⟩
          intro hcl
          induction hcl with
          | base i hi => exact (hmem i).2 hi
          | step i r B j r' b ρ _ g1 g2 g3 g4 g5 ihc =>
            rw [OSet.mem_union, OSet.mem_ofList]
            exact Or.inr ((h2 _).2 ⟨i, (hmem i).1 ihc, r, B, r', ρ, g1, g2, g3, g4, rfl, g5⟩)
        · intro i hi hst
          have := h1.2 ⟨i, (hmem i).1 hi, hst⟩
          rw [hc] at this; cases this

omit hn hf in
/-- The items that an expansion can add. -/
def expUniverse (R : List PRule) : List Item :=
  (List.range R.length).flatMap fun j => (Term.eoi :: termsOf R).map fun b => ⟨j, 0, b⟩

omit hn hf in
/-- All look-aheads occur in the rules, or are the end of input. -/
def LaOk (R : List PRule) (i : Item) : Prop := i.la ∈ Term.eoi :: termsOf R

omit hn hf in
theorem Exp.universe {i j : Item} (hi : LaOk R i) (h : Exp R i j) : j ∈ expUniverse R ∧ LaOk R j := by
  obtain ⟨r, B, r', ρ, h1, h2, h3, h4, h5, h6⟩ := h
  have hla : j.la ∈ Term.eoi :: termsOf R := by
    rcases gen_terms h6 (.tm j.la) (by simp) with h | ⟨r1, hr1, h⟩
    · rcases List.mem_append.1 h with h | h
      · exact List.mem_cons_of_mem _ (mem_termsOf.2 ⟨r, List.mem_of_getElem? h1, List.mem_of_mem_drop h⟩)
      · simp at h; rw [h]; exact hi
    · exact List.mem_cons_of_mem _ (mem_termsOf.2 ⟨r1, hr1, h⟩)
  refine ⟨?_, hla⟩
  unfold expUniverse
  rw [List.mem_flatMap]
  refine ⟨j.rule, ?_, ?_⟩
  · rw [List.mem_range]; exact (List.getElem?_eq_some_iff.1 h3).1
  · rw [List.mem_map]
    exact ⟨j.la, hla, by rw [← h5]⟩

omit hn hf in
theorem Clo.laOk {K : Item → Prop} (hK : ∀ i, K i → LaOk R i) {i : Item} (h : Clo R K i) : LaOk R i := by
  induction h with
  | base i hi => exact hK i hi
  | step i r B j r' b ρ _ g1 g2 g3 g4 g5 ih =>
    exact (Exp.universe (j := ⟨j, 0, b⟩) ih ⟨r, B, r', ρ, g1, g2, g3, g4, rfl, g5⟩).2

theorem closure_fuel {fuel : Nat} {K : State} (hK : ∀ i ∈ K, LaOk R i)
    (h : ((expUniverse R).filter fun i => decide (i ∉ K)).length < fuel) : closure R null first fuel K ≠ .fuel := by
  induction fuel generalizing K with
  | zero => omega
  | succ f ih =>
    unfold closure
    obtain ⟨h1, h2⟩ := closeUpdate_spec hn hf K
    cases hc : closeUpdate R null first K with
    | none => simp
    | some u =>
      have h2 := h2 u hc
      simp only
      rw [insertAll_fst]
      split
      · rename_i hflag
        apply ih
        · intro i hi
          rcases OSet.mem_union.1 hi with hi | hi
          · exact hK i hi
          · obtain ⟨j, hj, he⟩ := (h2 i).1 (OSet.mem_ofList.1 hi)
            exact (he.universe (hK j hj)).2
        · obtain ⟨x, hx, hnx⟩ := (insertAll_snd _ _).1 hflag
          rw [OSet.mem_ofList] at hx
          obtain ⟨j, hj, he⟩ := (h2 x).1 hx
          have := filter_lt (U := expUniverse R) (P := fun i => decide (i ∉ OSet.union K (OSet.ofList u)))
            (Q := fun i => decide (i ∉ K)) (x := x) ?_ (he.universe (hK j hj)).1 (by simpa using hnx) (by simp [hx])
          · omega
          · intro y hy
            simp only [decide_eq_true_eq, OSet.mem_union, not_or] at hy ⊢
            exact hy.1
      · simp

theorem closure_total {fuel : Nat} {K : State} (hK : ∀ i ∈ K, LaOk R i) (h : (expUniverse R).length < fuel) :
    closure R null first fuel K ≠ .fuel :=
  closure_fuel hn hf hK (Nat.lt_of_le_of_lt (List.length_filter_le _ _) h)

end

end Verif.Par
