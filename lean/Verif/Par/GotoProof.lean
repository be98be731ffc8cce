import Verif.Par.ClosureProof

/-!
# Goto and the collection of states
-/

namespace Verif.Par

/-- Item `i` with the dot moved over `X`. -/
def Moves (R : List PRule) (X : Sym) (i j : Item) : Prop :=
  ∃ r, R[i.rule]? = some r ∧ r.rhs[i.pos]? = some X ∧ j = ⟨i.rule, i.pos + 1, i.la⟩

/-! ## Valid items, by the last symbol -/

theorem valid_nil {R : List PRule} {s : Nat} {i : Item} : Valid R s [] i ↔ Clo R (· = ⟨s, 0, .eoi⟩) i := by
  constructor
  · intro h
    generalize hγ : ([] : List Sym) = γ at h
    induction h with
    | start => exact .base _ rfl
    | advance γ i r X _ _ _ _ => simp at hγ
    | expand γ i r B j r' b ρ _ h1 h2 h3 h4 h5 ih => exact .step i r B j r' b ρ (ih hγ) h1 h2 h3 h4 (gen_iff.2 h5)
  · intro h
    induction h with
    | base i hi => subst hi; exact .start
    | step i r B j r' b ρ _ h1 h2 h3 h4 h5 ih => exact .expand [] i r B j r' b ρ ih h1 h2 h3 h4 (gen_iff.1 h5)

theorem valid_snoc {R : List PRule} {s : Nat} {γ : List Sym} {X : Sym} {j : Item} :
    Valid R s (γ ++ [X]) j ↔ Clo R (fun j => ∃ i, Valid R s γ i ∧ Moves R X i j) j := by
  constructor
  · intro h
    generalize hδ : γ ++ [X] = δ at h
    induction h with
    | start => simp at hδ
    | advance γ' i r Y h1 h2 h3 _ =>
      obtain ⟨rfl, hY⟩ := List.append_inj' hδ rfl
      cases hY
      exact .base _ ⟨i, h1, r, h2, h3, rfl⟩
    | expand γ i r B j r' b ρ _ h1 h2 h3 h4 h5 ih => exact .step i r B j r' b ρ (ih hδ) h1 h2 h3 h4 (gen_iff.2 h5)
  · intro h
    induction h with
    | base j hj =>
      obtain ⟨i, hi, r, h1, h2, rfl⟩ := hj
      exact .advance γ i r X hi h1 h2
    | step i r B j r' b ρ _ h1 h2 h3 h4 h5 ih => exact .expand _ i r B j r' b ρ ih h1 h2 h3 h4 (gen_iff.1 h5)

theorem Clo.nonempty {R : List PRule} {K : Item → Prop} {i : Item} (h : Clo R K i) : ∃ j, K j := by
  induction h with
  | base i hi => exact ⟨i, hi⟩
  | step i r B j r' b ρ _ h1 h2 h3 h4 h5 ih => exact ih

theorem Valid.rule {R : List PRule} {s : Nat} {r0 : PRule} (hs : R[s]? = some r0) {γ : List Sym} {i : Item} (h : Valid R s γ i) :
    ∃ r, R[i.rule]? = some r ∧ i.pos ≤ r.rhs.length := by
  induction h with
  | start => exact ⟨r0, hs, Nat.zero_le _⟩
  | advance γ i r X _ h1 h2 _ => exact ⟨r, h1, (List.getElem?_eq_some_iff.1 h2).1⟩
  | expand γ i r B j r' b ρ _ h1 h2 h3 h4 h5 ih => exact ⟨r', h3, Nat.zero_le _⟩

theorem Valid.laOk {R : List PRule} {s : Nat} {γ : List Sym} {i : Item} (h : Valid R s γ i) : LaOk R i := by
  induction h with
  | start => exact List.mem_cons_self
  | advance γ i r X _ h1 h2 ih => exact ih
  | expand γ i r B j r' b ρ _ h1 h2 h3 h4 h5 ih =>
    exact (Exp.universe (j := ⟨j, 0, b⟩) ih ⟨r, B, r', ρ, h1, h2, h3, h4, rfl, gen_iff.2 h5⟩).2

/-! ## `calc_goto` -/

theorem gotoKernels_spec {R : List PRule} {s : List Item} {m : Goto} (hs : ∀ i ∈ s, ∃ r, R[i.rule]? = some r)
    (hd : (m.map Prod.fst).Nodup) (hso : ∀ X K, get X m = some K → OSet.Sorted K) :
    ∃ m', gotoKernels R s m = some m' ∧ (m'.map Prod.fst).Nodup ∧ (∀ X K, get X m' = some K → OSet.Sorted K) ∧
      (∀ X, get X m' = none ↔ get X m = none ∧ ∀ i ∈ s, ∀ j, ¬ Moves R X i j) ∧
      ∀ X j, j ∈ (get X m').getD [] ↔ j ∈ (get X m).getD [] ∨ ∃ i ∈ s, Moves R X i j := by
  induction s generalizing m with
  | nil => exact ⟨m, rfl, hd, hso, by simp, by simp⟩
  | cons i s ih =>
    obtain ⟨r, hr⟩ := hs i (by simp)
    have hs' : ∀ i ∈ s, ∃ r, R[i.rule]? = some r := fun j hj => hs j (by simp [hj])
    unfold gotoKernels
    simp only [hr]
    cases hX : r.rhs[i.pos]? with
    | none =>
      simp only
      have hno : ∀ X j, ¬ Moves R X i j := by
        rintro X j ⟨r1, h1, h2, _⟩
        rw [hr] at h1; cases h1; rw [hX] at h2; cases h2
      obtain ⟨m', h1, h2, h3, h4, h5⟩ := ih hs' hd hso
      refine ⟨m', h1, h2, h3, ?_, ?_⟩
      · intro X; rw [h4]; simp [hno]
      · intro X j; rw [h5]; simp [hno]
    | some X =>
      simp only
      obtain ⟨m', h1, h2, h3, h4, h5⟩ := ih (m := entry X [] (OSet.insert ⟨i.rule, i.pos + 1, i.la⟩) m) hs' (entry_nodup hd)
        (by
          intro Y K hK
          rw [get_entry] at hK
          split at hK
          · cases hK
            apply OSet.sorted_insert
            cases hg : get X m with
            | none => exact OSet.sorted_nil
            | some K => exact hso X K hg
          · exact hso Y K hK)
      have hmv : ∀ Y j, Moves R Y i j ↔ Y = X ∧ j = ⟨i.rule, i.pos + 1, i.la⟩ := by
        intro Y j
        constructor
        · rintro ⟨r1, h1, h2, h3⟩
          rw [hr] at h1; cases h1; rw [hX] at h2; cases h2
          exact ⟨rfl, h3⟩
        · rintro ⟨rfl, rfl⟩
          exact ⟨r, hr, hX, rfl⟩
      refine ⟨m', h1, h2, h3, ?_, ?_⟩
      · intro Y
        rw [h4, get_entry]
        by_cases hY : Y = X
        · subst hY
          simp only [if_true, reduceCtorEq, false_and, false_iff, not_and]
          intro _ h
          exact h i (by simp) _ ((hmv _ _).2 ⟨rfl, rfl⟩)
        · rw [if_neg hY]
          simp [hmv, hY]
      · intro Y j
        rw [h5, get_entry]
        by_cases hY : Y = X
        · subst hY
          simp only [if_true, Option.getD_some, OSet.mem_insert, List.mem_cons]
          constructor
          · rintro ((h | h) | ⟨i', hi', h⟩)
            · exact Or.inr ⟨i, Or.inl rfl, (hmv _ _).2 ⟨rfl, h⟩⟩
            · exact Or.inl h
            · exact Or.inr ⟨i', Or.inr hi', h⟩
          · rintro (h | ⟨i', rfl | hi', h⟩)
            · exact Or.inl (Or.inr h)
            · exact Or.inl (Or.inl ((hmv _ _).1 h).2)
            · exact Or.inr ⟨i', hi', h⟩
        · rw [if_neg hY]
          simp [hmv, hY]

theorem closeAll_spec {R : List PRule} {null : List Sym} {first : First} {fuel : Nat} {m : Goto} :
    (∀ m', closeAll R null first fuel m = .ok m' → m'.map Prod.fst = m.map Prod.fst ∧
      (∀ X, get X m = none → get X m' = none) ∧
      (∀ X K, get X m = some K → ∃ S, get X m' = some S ∧ closure R null first fuel K = .ok S)) ∧
    (closeAll R null first fuel m = .panic → ∃ x ∈ m, closure R null first fuel x.2 = .panic) ∧
    (closeAll R null first fuel m = .fuel → ∃ x ∈ m, closure R null first fuel x.2 = .fuel) := by
  induction m with
  | nil => simp [closeAll, get]
  | cons x m ih =>
    obtain ⟨X, K⟩ := x
    unfold closeAll
    cases hc : closure R null first fuel K with
    | panic =>
      simp only [reduceCtorEq, false_implies, implies_true, true_and, and_true]
      exact fun _ => ⟨(X, K), by simp, hc⟩
    | fuel =>
      simp only [reduceCtorEq, false_implies, implies_true, true_and]
      exact fun _ => ⟨(X, K), by simp, hc⟩
    | ok S =>
      simp only
      cases hm : closeAll R null first fuel m with
      | panic =>
        simp only [reduceCtorEq, false_implies, implies_true, true_and, and_true]
        intro _
        obtain ⟨x, hx, h⟩ := ih.2.1 hm
        exact ⟨x, by simp [hx], h⟩
      | fuel =>
        simp only [reduceCtorEq, false_implies, implies_true, true_and]
        intro _
        obtain ⟨x, hx, h⟩ := ih.2.2 hm
        exact ⟨x, by simp [hx], h⟩
      | ok m1 =>
        simp only [Res.ok.injEq, reduceCtorEq, false_implies, and_true]
        rintro m' rfl
        obtain ⟨h1, h2, h3⟩ := ih.1 m1 hm
        refine ⟨by simp [h1], ?_, ?_⟩
        · intro Y h
          simp only [get] at h ⊢
          split at h
          · cases h
          · rename_i hY; rw [if_neg hY]; exact h2 Y h
        · intro Y K' h
          simp only [get] at h ⊢
          split at h
          · rename_i hY; rw [if_pos hY]; cases h; exact ⟨S, rfl, hc⟩
          · rename_i hY; rw [if_neg hY]; exact h3 Y K' h

/-- `S` is the state of the viable prefix `γ`. -/
structure Is (R : List PRule) (s : Nat) (γ : List Sym) (S : State) : Prop where
  sorted : OSet.Sorted S
  mem : ∀ i, i ∈ S ↔ Valid R s γ i
  ok : ∀ i ∈ S, ¬ Stuck R i

theorem Is.unique {R : List PRule} {s : Nat} {γ : List Sym} {S S' : State} (h : Is R s γ S) (h' : Is R s γ S') : S = S' :=
  OSet.ext h.sorted h'.sorted (fun i => (h.mem i).trans (h'.mem i).symm)

/-- An item valid for `γ` that panics. -/
def Bad (R : List PRule) (s : Nat) : Prop := ∃ γ i, Valid R s γ i ∧ Stuck R i

section
variable {R : List PRule} {s : Nat} {r0 : PRule} (hs : R[s]? = some r0)
variable {null : List Sym} {first : First} (hn : NullExact R null) (hf : FirstExact R first)
include hs hn hf

theorem calcGoto_spec {fuel : Nat} {γ : List Sym} {S : State} (hS : Is R s γ S) :
    (∀ g, calcGoto R null first fuel S = .ok g → (g.map Prod.fst).Nodup ∧
      (∀ X, get X g = none ↔ ∀ i, Valid R s γ i → ∀ j, ¬ Moves R X i j) ∧
      ∀ X S', get X g = some S' → Is R s (γ ++ [X]) S') ∧
    (calcGoto R null first fuel S = .panic → Bad R s) ∧
    ((expUniverse R).length < fuel → calcGoto R null first fuel S ≠ .fuel) := by
  obtain ⟨m, h1, h2, h3, h4, h5⟩ := gotoKernels_spec (R := R) (s := S) (m := []) (by
    intro i hi
    obtain ⟨r, hr, _⟩ := ((hS.mem i).1 hi).rule hs
    exact ⟨r, hr⟩) (by simp) (by intro X K h; cases h)
  have hK : ∀ X K, get X m = some K → ∀ j, j ∈ K ↔ ∃ i, Valid R s γ i ∧ Moves R X i j := by
    intro X K hg j
    have := h5 X j
    rw [hg] at this
    simp only [Option.getD_some, get, Option.getD_none, List.not_mem_nil, false_or] at this
    rw [this]
    simp only [hS.mem]
  have hclo : ∀ X K, get X m = some K → ∀ j, Clo R (· ∈ K) j ↔ Valid R s (γ ++ [X]) j := by
    intro X K hg j
    rw [valid_snoc]
    exact ⟨fun h => h.mono (fun i hi => (hK X K hg i).1 hi), fun h => h.mono (fun i hi => (hK X K hg i).2 hi)⟩
  unfold calcGoto
  rw [h1]
  simp only
  obtain ⟨c1, c2, c3⟩ := closeAll_spec (R := R) (null := null) (first := first) (fuel := fuel) (m := m)
  refine ⟨?_, ?_, ?_⟩
  · intro g hg
    obtain ⟨d1, d2, d3⟩ := c1 g hg
    refine ⟨by rw [d1]; exact h2, ?_, ?_⟩
    · intro X
      have : get X g = none ↔ get X m = none := by
        refine ⟨?_, d2 X⟩
        intro h
        cases hm : get X m with
        | none => rfl
        | some K =>
          obtain ⟨S', e1, _⟩ := d3 X K hm
          rw [h] at e1; cases e1
      rw [this, h4]
      simp only [get, true_and, hS.mem]
    · intro X S' hg'
      cases hm : get X m with
      | none => rw [d2 X hm] at hg'; cases hg'
      | some K =>
        obtain ⟨S'', e1, e2⟩ := d3 X K hm
        rw [hg'] at e1; cases e1
        obtain ⟨f1, f2, f3⟩ := (closure_spec hn hf).1 S' e2
        exact ⟨f3 (h3 X K hm), fun i => (f1 i).trans (hclo X K hm i), f2⟩
  · intro hp
    obtain ⟨⟨X, K⟩, hx, hc⟩ := c2 hp
    have hm := get_of_mem h2 hx
    obtain ⟨i, hi, hst⟩ := (closure_spec hn hf).2 hc
    exact ⟨γ ++ [X], i, (hclo X K hm i).1 hi, hst⟩
  · intro hfuel hp
    obtain ⟨⟨X, K⟩, hx, hc⟩ := c3 hp
    have hm := get_of_mem h2 hx
    refine closure_total hn hf ?_ hfuel hc
    intro j hj
    exact ((hclo X K hm j).1 (.base j hj)).laOk

/-! ## `calc_all_goto` -/

omit hs hn hf in
/-- Invariant of the loop. -/
structure AllInv (R : List PRule) (s : Nat) (null : List Sym) (first : First) (fuel : Nat) (start : State)
    (q : List State) (sl : List (State × Goto)) : Prop where
  nodup : (sl.map Prod.fst).Nodup
  reach : ∀ x ∈ sl, ∃ γ, Is R s γ x.1
  queue : ∀ S ∈ q, ∃ γ, Is R s γ S
  goto : ∀ x ∈ sl, calcGoto R null first fuel x.1 = .ok x.2
  closed : ∀ x ∈ sl, ∀ y ∈ x.2, y.2 ∈ sl.map Prod.fst ∨ y.2 ∈ q
  start : start ∈ sl.map Prod.fst ∨ start ∈ q
  full : ∀ x ∈ sl, x.1 ≠ []
  qfull : ∀ S ∈ q, S ≠ []

theorem allLoop_spec {o : Seeds} (ho : o.Fair) {fuel : Nat} {start : State} {f : Nat} {q : List State} {sl : List (State × Goto)}
    (h : AllInv R s null first fuel start q sl) :
    (∀ res, allLoop o R null first fuel f q sl = .ok res → AllInv R s null first fuel start [] res) ∧
    (allLoop o R null first fuel f q sl = .panic → Bad R s) := by
  induction f generalizing q sl with
  | zero =>
    cases q with
    | nil =>
      simp only [allLoop, Res.ok.injEq, reduceCtorEq, false_implies, and_true]
      rintro res rfl; exact h
    | cons S q => simp [allLoop]
  | succ f ih =>
    cases q with
    | nil =>
      simp only [allLoop, Res.ok.injEq, reduceCtorEq, false_implies, and_true]
      rintro res rfl; exact h
    | cons S q =>
      unfold allLoop
      split
      · rename_i hc
        have hc : S ∈ sl.map Prod.fst := by simpa using hc
        apply ih
        refine { h with queue := fun T hT => h.queue T (by simp [hT]), qfull := fun T hT => h.qfull T (by simp [hT]), closed := ?_, start := ?_ }
        · intro x hx y hy
          rcases h.closed x hx y hy with h1 | h1
          · exact Or.inl h1
          · rcases List.mem_cons.1 h1 with h1 | h1
            · rw [h1]; exact Or.inl hc
            · exact Or.inr h1
        · rcases h.start with h1 | h1
          · exact Or.inl h1
          · rcases List.mem_cons.1 h1 with h1 | h1
            · rw [h1]; exact Or.inl hc
            · exact Or.inr h1
      · rename_i hc
        have hc : S ∉ sl.map Prod.fst := by simpa using hc
        obtain ⟨γ, hγ⟩ := h.queue S (by simp)
        obtain ⟨g1, g2, _⟩ := calcGoto_spec (fuel := fuel) hs hn hf hγ
        cases hg : calcGoto R null first fuel S with
        | panic =>
          simp only [reduceCtorEq, false_implies, implies_true, true_and]
          exact fun _ => g2 hg
        | fuel => simp
        | ok g =>
          simp only
          obtain ⟨k1, k2, k3⟩ := g1 g hg
          have hmem : ∀ T, T ∈ (o.gotoOrd S g).map Prod.snd ↔ T ∈ g.map Prod.snd := by
            intro T
            exact ((ho.gotoOrd S g).map Prod.snd).mem_iff
          apply ih
          refine ⟨?_, ?_, ?_, ?_, ?_, ?_, ?_, ?_⟩
          · rw [List.map_append, List.nodup_append]
            refine ⟨h.nodup, by simp, ?_⟩
            intro a ha b hb
            simp at hb
            rw [hb]
            rintro rfl
            exact hc ha
          · intro x hx
            rcases List.mem_append.1 hx with hx | hx
            · exact h.reach x hx
            · simp at hx; subst hx; exact ⟨γ, hγ⟩
          · intro T hT
            rcases List.mem_append.1 hT with hT | hT
            · exact h.queue T (by simp [hT])
            · rw [hmem, List.mem_map] at hT
              obtain ⟨⟨X, T'⟩, hx, rfl⟩ := hT
              exact ⟨γ ++ [X], k3 X T' (get_of_mem k1 hx)⟩
          · intro x hx
            rcases List.mem_append.1 hx with hx | hx
            · exact h.goto x hx
            · simp at hx; subst hx; exact hg
          · intro x hx y hy
            rw [List.map_append, List.mem_append, List.mem_append]
            rcases List.mem_append.1 hx with hx | hx
            · rcases h.closed x hx y hy with h1 | h1
              · exact Or.inl (Or.inl h1)
              · rcases List.mem_cons.1 h1 with h1 | h1
                · rw [h1]; exact Or.inl (Or.inr (by simp))
                · exact Or.inr (Or.inl h1)
            · simp at hx; subst hx
              exact Or.inr (Or.inr ((hmem _).2 (List.mem_map.2 ⟨y, hy, rfl⟩)))
          · rw [List.map_append, List.mem_append, List.mem_append]
            rcases h.start with h1 | h1
            · exact Or.inl (Or.inl h1)
            · rcases List.mem_cons.1 h1 with h1 | h1
              · rw [h1]; exact Or.inl (Or.inr (by simp))
              · exact Or.inr (Or.inl h1)
          · intro x hx
            rcases List.mem_append.1 hx with hx | hx
            · exact h.full x hx
            · simp at hx; subst hx; exact h.qfull _ (by simp)
          · intro T hT
            rcases List.mem_append.1 hT with hT | hT
            · exact h.qfull T (by simp [hT])
            · rw [hmem, List.mem_map] at hT
              obtain ⟨⟨X, T'⟩, hx, rfl⟩ := hT
              have hgX := get_of_mem k1 hx
              rintro rfl
              have hnone : get X g = none := by
                rw [k2 X]
                intro i hi j hm
                have := ((k3 X [] hgX).mem j).2 (valid_snoc.2 (.base j ⟨i, hi, hm⟩))
                cases this
              rw [hgX] at hnone
              cases hnone

/-! ## Termination of `calc_all_goto` -/

omit hs hn hf in
/-- Sub-lists, in order. -/
def power {α : Type} : List α → List (List α)
  | [] => [[]]
  | a :: l => power l ++ (power l).map (a :: ·)

omit hs hn hf in
theorem mem_power {α : Type} [SLT α] [DecidableEq α] {u : List α} : ∀ {t : List α}, OSet.Sorted u → OSet.Sorted t → (∀ x ∈ t, x ∈ u) → t ∈ power u := by
  induction u with
  | nil =>
    intro t _ _ h
    cases t with
    | nil => simp [power]
    | cons a t => exact absurd (h a (by simp)) (by simp)
  | cons b u ih =>
    intro t hu ht h
    have hu' := List.pairwise_cons.1 hu
    unfold power
    rw [List.mem_append]
    by_cases hb : b ∈ t
    · right
      cases t with
      | nil => cases hb
      | cons a t =>
        have ht' := List.pairwise_cons.1 ht
        have hab : a = b := by
          rcases List.mem_cons.1 (h a (by simp)) with h1 | h1
          · exact h1
          · rcases List.mem_cons.1 hb with h2 | h2
            · exact h2.symm
            · have := SLT.trans (hu'.1 a h1) (ht'.1 b h2)
              simp [SLT.irrefl] at this
        subst hab
        refine List.mem_map.2 ⟨t, ih hu'.2 ht'.2 ?_, rfl⟩
        intro x hx
        rcases List.mem_cons.1 (h x (by simp [hx])) with h1 | h1
        · subst h1
          have := ht'.1 x hx
          simp [SLT.irrefl] at this
        · exact h1
    · left
      refine ih hu'.2 ht ?_
      intro x hx
      rcases List.mem_cons.1 (h x hx) with h1 | h1
      · subst h1; exact absurd hx hb
      · exact h1

omit hs hn hf in
/-- All items there can be. -/
def itemUniverse (R : List PRule) : List Item :=
  (List.range R.length).flatMap fun j => (List.range (((R[j]?.map fun r => r.rhs.length).getD 0) + 1)).flatMap fun p =>
    (Term.eoi :: termsOf R).map fun b => ⟨j, p, b⟩

omit hn hf in
theorem Valid.universe {γ : List Sym} {i : Item} (h : Valid R s γ i) : i ∈ itemUniverse R := by
  obtain ⟨r, hr, hp⟩ := h.rule hs
  unfold itemUniverse
  rw [List.mem_flatMap]
  refine ⟨i.rule, ?_, ?_⟩
  · rw [List.mem_range]; exact (List.getElem?_eq_some_iff.1 hr).1
  · rw [List.mem_flatMap]
    refine ⟨i.pos, ?_, List.mem_map.2 ⟨i.la, h.laOk, rfl⟩⟩
    rw [List.mem_range, hr]
    simp
    omega

omit hs hn hf in
/-- All states there can be. -/
def stateUniverse (R : List PRule) : List State := power (OSet.ofList (itemUniverse R))

omit hn hf in
theorem Is.universe {γ : List Sym} {S : State} (h : Is R s γ S) : S ∈ stateUniverse R :=
  mem_power OSet.sorted_ofList h.sorted (fun x hx => by
    rw [OSet.mem_ofList]
    exact ((h.mem x).1 hx).universe hs)

omit hs hn hf in
/-- The symbols in the rules. -/
def symUniverse (R : List PRule) : List Sym := R.flatMap PRule.rhs

omit hs hn hf in
/-- Enough fuel for everything. -/
def enough (R : List PRule) : Nat :=
  R.length + R.length * (termsOf R).length + (expUniverse R).length + ((symUniverse R).length + 1) * (stateUniverse R).length + 2

theorem allLoop_fuel {o : Seeds} (ho : o.Fair) {fuel : Nat} (hfuel : (expUniverse R).length < fuel) {f : Nat} {q : List State}
    {sl : List (State × Goto)} (hq : ∀ S ∈ q, ∃ γ, Is R s γ S)
    (h : q.length + ((symUniverse R).length + 1) * ((stateUniverse R).filter fun S => decide (S ∉ sl.map Prod.fst)).length ≤ f) :
    allLoop o R null first fuel f q sl ≠ .fuel := by
  induction f generalizing q sl with
  | zero =>
    cases q with
    | nil => simp [allLoop]
    | cons S q => simp at h
  | succ f ih =>
    cases q with
    | nil => simp [allLoop]
    | cons S q =>
      unfold allLoop
      split
      · apply ih (fun T hT => hq T (by simp [hT]))
        simp only [List.length_cons] at h
        omega
      · rename_i hc
        have hc : S ∉ sl.map Prod.fst := by simpa using hc
        obtain ⟨γ, hγ⟩ := hq S (by simp)
        obtain ⟨g1, g2, g3⟩ := calcGoto_spec (fuel := fuel) hs hn hf hγ
        cases hg : calcGoto R null first fuel S with
        | panic => simp
        | fuel => exact absurd hg (g3 hfuel)
        | ok g =>
          simp only
          obtain ⟨k1, k2, k3⟩ := g1 g hg
          apply ih
          · intro T hT
            rcases List.mem_append.1 hT with hT | hT
            · exact hq T (by simp [hT])
            · rw [((ho.gotoOrd S g).map Prod.snd).mem_iff, List.mem_map] at hT
              obtain ⟨⟨X, T'⟩, hx, rfl⟩ := hT
              exact ⟨γ ++ [X], k3 X T' (get_of_mem k1 hx)⟩
          · have hlen : (o.gotoOrd S g).length ≤ (symUniverse R).length := by
              rw [(ho.gotoOrd S g).length_eq, ← List.length_map (f := Prod.fst)]
              refine length_le_of_nodup_subset k1 ?_
              intro X hX
              obtain ⟨S', hS'⟩ := get_isSome_iff.2 hX
              have : ¬ get X g = none := by rw [hS']; simp
              rw [k2] at this
              simp only [Classical.not_forall, Classical.not_not] at this
              obtain ⟨i, hi, j, r, h1, h2, _⟩ := this
              exact List.mem_flatMap.2 ⟨r, List.mem_of_getElem? h1, List.mem_of_getElem? h2⟩
            have := filter_lt (U := stateUniverse R) (P := fun T => decide (T ∉ (sl ++ [(S, g)]).map Prod.fst))
              (Q := fun T => decide (T ∉ sl.map Prod.fst)) (x := S) (by
                intro T hT
                simp only [decide_eq_true_eq, List.map_append, List.mem_append, not_or] at hT ⊢
                exact hT.1) (hγ.universe hs) (by simpa using hc) (by simp)
            simp only [List.length_append, List.length_map, List.length_cons] at h ⊢
            generalize ((stateUniverse R).filter fun T => decide (T ∉ (sl ++ [(S, g)]).map Prod.fst)).length = a at *
            generalize ((stateUniverse R).filter fun T => decide (T ∉ sl.map Prod.fst)).length = b at *
            obtain ⟨d, rfl⟩ : ∃ d, b = a + 1 + d := ⟨b - (a + 1), by omega⟩
            generalize (symUniverse R).length = k at *
            have hexp : (k + 1) * (a + 1 + d) = (k + 1) * a + (k + 1) + (k + 1) * d := by
              rw [Nat.mul_add, Nat.mul_add, Nat.mul_one]
            rw [hexp] at h
            omega

end

end Verif.Par
