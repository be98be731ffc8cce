import Verif.Par.LL1Proof

/-!
# The LL(1) table check: proofs
-/

namespace Verif.Par

variable {g : Gram} {c : LLSets}

/-- The sets are closed under the rules. -/
structure LLSets.Closed (c : LLSets) (g : Gram) : Prop where
  null : ∀ r ∈ g.rules, c.nullAll r.rhs = true → c.null r.lhs = true
  first : ∀ r ∈ g.rules, ∀ a ∈ c.firstOf r.rhs, a ∈ c.first r.lhs
  follow : ∀ r ∈ g.rules, c.followOk r.lhs r.rhs = true
  start : Term.eoi ∈ c.follow g.start

theorem LLSets.check_closed (h : c.check g = true) : c.Closed g := by
  simp only [LLSets.check, Bool.and_eq_true, decide_eq_true_eq, List.all_eq_true, Bool.or_eq_true, Bool.not_eq_true'] at h
  obtain ⟨⟨h1, h2⟩, _⟩ := h
  refine ⟨fun r hr hn => ?_, fun r hr => (h2 r hr).1.2, fun r hr => (h2 r hr).2, h1⟩
  rcases (h2 r hr).1.1 with h | h
  · rw [hn] at h; cases h
  · exact h

theorem LLSets.check_disjoint (h : c.check g = true) {j j' : Nat} {r r' : PRule} (hj : g.rules[j]? = some r) (hj' : g.rules[j']? = some r')
    (hl : r.lhs = r'.lhs) {a : Term} (ha : a ∈ c.select r) (ha' : a ∈ c.select r') : j = j' := by
  simp only [LLSets.check, Bool.and_eq_true, List.all_eq_true, Bool.or_eq_true, beq_iff_eq, bne_iff_ne, decide_eq_true_eq] at h
  obtain ⟨_, h3⟩ := h
  rcases h3 (r, j) (List.mem_zipIdx_iff_getElem?.2 hj) (r', j') (List.mem_zipIdx_iff_getElem?.2 hj') with (h | h) | h
  · exact h
  · exact absurd hl h
  · exact absurd ha' (h a ha)

theorem LLSets.Closed.null_of (h : c.Closed g) {l w : List Sym} (hg : Gen g.rules l w) (hw : w = []) : c.nullAll l = true := by
  induction hg with
  | nil => rfl
  | keep => cases hw
  | expand r l u v hr _ _ ih1 ih2 =>
    obtain ⟨rfl, rfl⟩ := List.append_eq_nil_iff.1 hw
    simp [LLSets.nullAll, h.null r hr (ih1 rfl), ih2 rfl]

theorem LLSets.Closed.first_of (h : c.Closed g) {l w : List Sym} (hg : Gen g.rules l w) {a : Term} {ρ : List Sym} (hw : w = .tm a :: ρ) :
    a ∈ c.firstOf l := by
  induction hg generalizing ρ with
  | nil => cases hw
  | keep X l w _ _ =>
    cases hw
    simp [LLSets.firstOf]
  | expand r l u v hr hu _ ih1 ih2 =>
    simp only [LLSets.firstOf, List.mem_append]
    cases u with
    | nil =>
      right
      rw [h.null r hr (h.null_of hu rfl)]
      exact ih2 hw
    | cons X u =>
      left
      obtain ⟨rfl, _⟩ := List.cons.inj hw
      exact h.first r hr a (ih1 rfl)

/-- What the first terminal of two strings comes from. -/
theorem LLSets.Closed.first_append (h : c.Closed g) {l m : List Sym} {a : Term} {ρ : List Sym} (hg : Gen g.rules (l ++ m) (.tm a :: ρ)) :
    a ∈ c.firstOf l ∨ (c.nullAll l = true ∧ ∃ ρ', Gen g.rules m (.tm a :: ρ')) := by
  obtain ⟨u, v, h1, h2, h3⟩ := hg.split
  cases u with
  | nil => exact .inr ⟨h.null_of h2 rfl, ρ, by rw [h1]; exact h3⟩
  | cons X u =>
    obtain ⟨rfl, _⟩ := List.cons.inj h1
    exact .inl (h.first_of h2 rfl)

theorem LLSets.followOk_at {n m : Nat} {u v : List Sym} (h : c.followOk n (u ++ .nt m :: v) = true) :
    (∀ a ∈ c.firstOf v, a ∈ c.follow m) ∧ (c.nullAll v = true → ∀ a ∈ c.follow n, a ∈ c.follow m) := by
  induction u with
  | nil =>
    simp only [List.nil_append, LLSets.followOk, Bool.and_eq_true, List.all_eq_true, decide_eq_true_eq, Bool.or_eq_true, Bool.not_eq_true'] at h
    refine ⟨h.1.1, fun hn => ?_⟩
    rcases h.1.2 with h | h
    · rw [hn] at h; cases h
    · exact h
  | cons X u ih =>
    cases X with
    | tm t => exact ih h
    | nt k =>
      simp only [List.cons_append, LLSets.followOk, Bool.and_eq_true] at h
      exact ih h.2

theorem LLSets.Closed.follow_of (h : c.Closed g) {ζ : List Sym} (hd : Derives g.rules [.nt g.start] ζ) : ∀ {x : List Sym} {n : Nat} {y : List Sym}
    {a : Term} {ρ : List Sym}, ζ = x ++ .nt n :: y → Gen g.rules (y ++ [.tm .eoi]) (.tm a :: ρ) → a ∈ c.follow n := by
  generalize hu : [Sym.nt g.start] = u at hd
  induction hd with
  | refl =>
    subst hu
    intro x n y a ρ he hg
    cases x with
    | nil =>
      obtain ⟨h1, rfl⟩ := List.cons.inj he
      cases h1
      obtain ⟨v, h2, _⟩ := Gen.terminal hg
      cases h2
      exact h.start
    | cons X x => simp at he
  | step x' y' r hd hr ih =>
    intro x n y a ρ he hg
    rw [List.append_assoc] at he
    rcases List.append_eq_append_iff.1 he with ⟨z, h1, h2⟩ | ⟨z, h1, h2⟩
    · -- not before the right-hand side
      rcases List.append_eq_append_iff.1 h2 with ⟨z', h3, h4⟩ | ⟨z', h3, h4⟩
      · exact ih (x := x' ++ .nt r.lhs :: z') (n := n) (y := y) (by rw [h4]; simp) hg
      · cases z' with
        | nil =>
          simp at h3 h4
          exact ih (x := x' ++ [.nt r.lhs]) (n := n) (y := y) (by rw [← h4]; simp) hg
        | cons Z v =>
          obtain ⟨rfl, rfl⟩ := List.cons.inj h4
          have hok := h.follow r hr
          rw [h3] at hok
          obtain ⟨k1, k2⟩ := LLSets.followOk_at hok
          have hg : Gen g.rules (v ++ (y' ++ [.tm .eoi])) (.tm a :: ρ) := by simpa using hg
          rcases h.first_append hg with hf | ⟨hn, ρ', hf⟩
          · exact k1 a hf
          · exact k2 hn a (ih (x := x') (n := r.lhs) (y := y') rfl hf)
    · -- before the right-hand side
      cases z with
      | nil =>
        simp at h1 h2
        have : r.rhs ++ y' = .nt n :: y := h2.symm
        cases hrhs : r.rhs with
        | nil =>
          rw [hrhs] at this
          exact ih (x := x' ++ [.nt r.lhs]) (n := n) (y := y) (by rw [← this]; simp) hg
        | cons Z v =>
          rw [hrhs] at this
          obtain ⟨rfl, rfl⟩ := List.cons.inj this
          have hok := h.follow r hr
          rw [hrhs] at hok
          obtain ⟨k1, k2⟩ := LLSets.followOk_at (u := []) hok
          have hg : Gen g.rules (v ++ (y' ++ [.tm .eoi])) (.tm a :: ρ) := by simpa using hg
          rcases h.first_append hg with hf | ⟨hn, ρ', hf⟩
          · exact k1 a hf
          · exact k2 hn a (ih (x := x') (n := r.lhs) (y := y') rfl hf)
      | cons Z v =>
        obtain ⟨rfl, rfl⟩ := List.cons.inj h2
        refine ih (x := x) (n := n) (y := v ++ .nt r.lhs :: y') (by rw [h1]; simp) (ρ := ρ) ?_
        refine Gen.trans ?_ hg
        have := Gen.mid hr v (y' ++ [.tm .eoi])
        simpa using this

theorem LLSets.check_ll1 (h : c.check g = true) : g.LL1 := by
  have hc := LLSets.check_closed h
  have key : ∀ j r a, g.rules[j]? = some r → g.Selects j a → a ∈ c.select r := by
    rintro j r a hj ⟨rule, x, y, ρ, h1, h2, h3⟩
    obtain rfl := Option.some.inj (hj.symm.trans h1)
    rw [List.append_assoc] at h3
    simp only [LLSets.select, List.mem_append]
    rcases hc.first_append (gen_iff.2 h3) with hf | ⟨hn, ρ', hf⟩
    · exact .inl hf
    · right
      rw [hn]
      exact hc.follow_of h2 rfl hf
  intro j j' r r' a hj hj' hl hs hs'
  exact LLSets.check_disjoint h hj hj' hl (key j r a hj hs) (key j' r' a hj' hs')

/-! ## Ranks -/

theorem Gram.ranked_fruitful {rank : Nat → Nat} (h : g.ranked rank = true) : g.Fruitful := by
  have key : ∀ X ∈ (.nt g.start :: g.rules.flatMap PRule.rhs : List Sym), ∀ n, X = .nt n →
      ∃ r ∈ g.rules, r.lhs = n ∧ ∀ m, Sym.nt m ∈ r.rhs → rank m < rank n := by
    rintro X hX n rfl
    have := List.all_eq_true.1 h _ hX
    simp only [List.any_eq_true, Bool.and_eq_true, beq_iff_eq, List.all_eq_true] at this
    obtain ⟨r, hr, h1, h2⟩ := this
    refine ⟨r, hr, h1, fun m hm => ?_⟩
    simpa using h2 _ hm
  have mem : ∀ r ∈ g.rules, ∀ X ∈ r.rhs, X ∈ (.nt g.start :: g.rules.flatMap PRule.rhs : List Sym) :=
    fun r hr X hX => List.mem_cons_of_mem _ (List.mem_flatMap.2 ⟨r, hr, hX⟩)
  have fruit : ∀ k n, rank n < k → Sym.nt n ∈ (.nt g.start :: g.rules.flatMap PRule.rhs : List Sym) → ∃ w, Gen g.rules [.nt n] (tms w) := by
    intro k
    induction k with
    | zero => intro n hn; omega
    | succ k ih =>
      intro n hn hm
      obtain ⟨r, hr, h1, h2⟩ := key _ hm n rfl
      have all : ∀ l : List Sym, (∀ X ∈ l, X ∈ r.rhs) → ∃ w, Gen g.rules l (tms w) := by
        intro l
        induction l with
        | nil => intro _; exact ⟨[], .nil⟩
        | cons X l ihl =>
          intro hl
          obtain ⟨w, hw⟩ := ihl fun X hX => hl X (List.mem_cons_of_mem _ hX)
          cases X with
          | tm t => exact ⟨t :: w, .keep _ _ _ hw⟩
          | nt m =>
            have hX := hl _ List.mem_cons_self
            obtain ⟨w', hw'⟩ := ih m (by have := h2 m hX; omega) (mem r hr _ hX)
            exact ⟨w' ++ w, by simpa using hw'.append hw⟩
      obtain ⟨w, hw⟩ := all r.rhs fun _ h => h
      exact ⟨w, h1 ▸ (Gen.rule hr).trans hw⟩
  have used : ∀ ζ, Derives g.rules [.nt g.start] ζ → ∀ X ∈ ζ, X ∈ (.nt g.start :: g.rules.flatMap PRule.rhs : List Sym) := by
    intro ζ hd
    generalize hu : [Sym.nt g.start] = u at hd
    induction hd with
    | refl => subst hu; intro X hX; rw [List.mem_singleton] at hX; rw [hX]; exact List.mem_cons_self
    | step x y r _ hr ih =>
      intro X hX
      simp only [List.mem_append] at hX
      rcases hX with (hX | hX) | hX
      · exact ih X (by simp [hX])
      · exact mem r hr X hX
      · exact ih X (by simp [hX])
  intro x n y hd
  obtain ⟨w, hw⟩ := fruit (rank n + 1) n (Nat.lt_succ_self _) (used _ hd _ (by simp))
  exact ⟨w, gen_iff.1 hw⟩

end Verif.Par
