import Verif.Par.Trees
import Verif.Par.NewProof

/-!
# Lemmas on trees, their evaluation and on valid items
-/

namespace Verif.Par

variable {N T E : Type}

theorem leaves_append (fs gs : List (Tree T)) : leaves (fs ++ gs) = leaves fs ++ leaves gs := by
  induction fs with
  | nil => simp [leaves]
  | cons f fs ih => simp [leaves, ih]

theorem errs_append (fs gs : List (Tree T)) : errs (fs ++ gs) = errs fs ++ errs gs := by
  induction fs with
  | nil => simp [errs]
  | cons f fs ih => simp [errs, ih]

theorem leaves_single (f : Tree T) : leaves [f] = f.leaves := by simp [leaves]
theorem errs_single (f : Tree T) : errs [f] = f.errs := by simp [errs]

theorem Built.append {R : List PRule} {idx : T → Nat} {input : List T} {us vs fs gs}
    (h : Built R idx input us fs) (h' : Built R idx input vs gs) : Built R idx input (us ++ vs) (fs ++ gs) := by
  induction h with
  | nil => exact h'
  | leaf i t us fs h1 _ ih => exact .leaf i t _ _ h1 ih
  | err lo l us fs h1 h2 _ ih => exact .err lo l _ _ h1 h2 ih
  | node r rule cs us fs h1 h2 _ _ ih => exact .node r rule cs _ _ h1 h2 ih

theorem Built.length {R : List PRule} {idx : T → Nat} {input : List T} {us fs} (h : Built R idx input us fs) :
    us.length = fs.length := by
  induction h with
  | nil => rfl
  | leaf => simp [*]
  | err => simp [*]
  | node => simp [*]

theorem Evals.append {rules : List (Rule N T E)} {fs gs l1 l2 a b} (h : Evals rules fs l1 (.ok a))
    (h' : Evals rules gs l2 (.ok b)) : Evals rules (fs ++ gs) (l1 ++ l2) (.ok (a ++ b)) := by
  generalize hx : Except.ok a = x at h
  induction h generalizing a with
  | nil => cases hx; exact h'
  | leaf i t fs lg as _ ih => cases hx; exact .leaf i t _ _ _ (ih rfl)
  | leafE => cases hx
  | err lo l fs lg as _ ih => cases hx; exact .err lo l _ _ _ (ih rfl)
  | errE => cases hx
  | node r rule cs lg1 args v fs lg2 as h1 h2 h3 _ _ ih =>
    cases hx
    have := Evals.node r rule cs lg1 args v _ _ _ h1 h2 h3 (ih rfl)
    simpa using this
  | nodeE => cases hx
  | fail => cases hx
  | inner => cases hx

/-- Evaluation is a function. -/
theorem Evals.unique {rules : List (Rule N T E)} {fs l1 l2 a b} (h : Evals rules fs l1 a) (h' : Evals rules fs l2 b) :
    l1 = l2 ∧ a = b := by
  induction h generalizing l2 b with
  | nil => cases h'; exact ⟨rfl, rfl⟩
  | leaf i t fs lg as _ ih =>
    cases h' with
    | leaf _ _ _ _ _ h => obtain ⟨rfl, k'⟩ := ih h; cases k'; exact ⟨rfl, rfl⟩
    | leafE _ _ _ _ _ h => obtain ⟨rfl, k'⟩ := ih h; cases k'
  | leafE i t fs lg as _ ih =>
    cases h' with
    | leaf _ _ _ _ _ h => obtain ⟨rfl, k'⟩ := ih h; cases k'
    | leafE _ _ _ _ _ h => obtain ⟨rfl, k'⟩ := ih h; cases k'; exact ⟨rfl, rfl⟩
  | err i t fs lg as _ ih =>
    cases h' with
    | err _ _ _ _ _ h => obtain ⟨rfl, k'⟩ := ih h; cases k'; exact ⟨rfl, rfl⟩
    | errE _ _ _ _ _ h => obtain ⟨rfl, k'⟩ := ih h; cases k'
  | errE i t fs lg as _ ih =>
    cases h' with
    | err _ _ _ _ _ h => obtain ⟨rfl, k'⟩ := ih h; cases k'
    | errE _ _ _ _ _ h => obtain ⟨rfl, k'⟩ := ih h; cases k'; exact ⟨rfl, rfl⟩
  | node r rule cs lg1 args v fs lg2 as h1 h2 h3 _ ih1 ih =>
    cases h' with
    | node _ _ _ _ _ _ _ _ _ k1 k2 k3 k4 =>
      rw [h1] at k1; cases k1
      obtain ⟨rfl, k⟩ := ih1 k2; cases k
      rw [h3] at k3; cases k3
      obtain ⟨rfl, k⟩ := ih k4; cases k
      exact ⟨rfl, rfl⟩
    | nodeE _ _ _ _ _ _ _ _ _ k1 k2 k3 k4 => obtain ⟨_, k⟩ := ih k4; cases k
    | fail _ _ _ _ _ _ _ k1 k2 k3 =>
      rw [h1] at k1; cases k1
      obtain ⟨rfl, k⟩ := ih1 k2; cases k
      rw [h3] at k3; cases k3
    | inner _ _ _ _ _ k => obtain ⟨_, k⟩ := ih1 k; cases k
  | nodeE r rule cs lg1 args v fs lg2 e h1 h2 h3 _ ih1 ih =>
    cases h' with
    | node _ _ _ _ _ _ _ _ _ k1 k2 k3 k4 => obtain ⟨_, k⟩ := ih k4; cases k
    | nodeE _ _ _ _ _ _ _ _ _ k1 k2 k3 k4 =>
      rw [h1] at k1; cases k1
      obtain ⟨rfl, k⟩ := ih1 k2; cases k
      rw [h3] at k3; cases k3
      obtain ⟨rfl, k⟩ := ih k4; cases k
      exact ⟨rfl, rfl⟩
    | fail _ _ _ _ _ _ _ k1 k2 k3 =>
      rw [h1] at k1; cases k1
      obtain ⟨rfl, k⟩ := ih1 k2; cases k
      rw [h3] at k3; cases k3
    | inner _ _ _ _ _ k => obtain ⟨_, k⟩ := ih1 k; cases k
  | fail r rule cs lg1 args e fs h1 h2 h3 ih1 =>
    cases h' with
    | node _ _ _ _ _ _ _ _ _ k1 k2 k3 k4 =>
      rw [h1] at k1; cases k1
      obtain ⟨rfl, k⟩ := ih1 k2; cases k
      rw [h3] at k3; cases k3
    | nodeE _ _ _ _ _ _ _ _ _ k1 k2 k3 k4 =>
      rw [h1] at k1; cases k1
      obtain ⟨rfl, k⟩ := ih1 k2; cases k
      rw [h3] at k3; cases k3
    | fail _ _ _ _ _ _ _ k1 k2 k3 =>
      rw [h1] at k1; cases k1
      obtain ⟨rfl, k⟩ := ih1 k2; cases k
      rw [h3] at k3; cases k3
      exact ⟨rfl, rfl⟩
    | inner _ _ _ _ _ k => obtain ⟨_, k⟩ := ih1 k; cases k
  | inner r cs lg1 e fs h1 ih1 =>
    cases h' with
    | node _ _ _ _ _ _ _ _ _ k1 k2 k3 k4 => obtain ⟨_, k⟩ := ih1 k2; cases k
    | nodeE _ _ _ _ _ _ _ _ _ k1 k2 k3 k4 => obtain ⟨_, k⟩ := ih1 k2; cases k
    | fail _ _ _ _ _ _ _ k1 k2 k3 => obtain ⟨_, k⟩ := ih1 k2; cases k
    | inner _ _ _ _ _ k => obtain ⟨rfl, k'⟩ := ih1 k; cases k'; exact ⟨rfl, rfl⟩

/-- Every derivation forest has an evaluation. -/
theorem Built.evals {rules : List (Rule N T E)} {idx : T → Nat} {input : List T} {us fs}
    (h : Built (rules.map Rule.plain) idx input us fs) : ∃ lg x, Evals rules fs lg x := by
  induction h with
  | nil => exact ⟨_, _, .nil⟩
  | leaf i t us fs _ _ ih =>
    obtain ⟨lg, x, ih⟩ := ih
    cases x with
    | ok x => exact ⟨_, _, .leaf _ _ _ _ _ ih⟩
    | error x => exact ⟨_, _, .leafE _ _ _ _ _ ih⟩
  | err i t us fs _ _ _ ih =>
    obtain ⟨lg, x, ih⟩ := ih
    cases x with
    | ok x => exact ⟨_, _, .err _ _ _ _ _ ih⟩
    | error x => exact ⟨_, _, .errE _ _ _ _ _ ih⟩
  | node r rule cs us fs h1 h2 h3 ih1 ih2 =>
    obtain ⟨lg1, x, ih1⟩ := ih1
    obtain ⟨lg2, y, ih2⟩ := ih2
    rw [List.getElem?_map] at h1
    cases hr : rules[r]? with
    | none => rw [hr] at h1; cases h1
    | some rl =>
      cases x with
      | error x => exact ⟨_, _, .inner _ _ _ _ _ ih1⟩
      | ok x =>
        cases hg : rl.gen x with
        | error e => exact ⟨_, _, .fail _ _ _ _ _ _ _ hr ih1 hg⟩
        | ok v =>
          cases y with
          | ok y => exact ⟨_, _, .node _ _ _ _ _ _ _ _ _ hr ih1 hg ih2⟩
          | error y => exact ⟨_, _, .nodeE _ _ _ _ _ _ _ _ _ hr ih1 hg ih2⟩

/-- A derivation forest without error leaves is a derivation of its leaves. -/
theorem Built.gen {R : List PRule} {idx : T → Nat} {input : List T} {us fs} (h : Built R idx input us fs)
    (he : errs fs = []) : Gen R us ((leaves fs).map fun x => .tm (.sym (idx x.1))) := by
  induction h with
  | nil => exact .nil
  | leaf i t us fs _ _ ih =>
    have := ih (by simpa [errs, Tree.errs] using he)
    simp only [leaves, Tree.leaves, List.singleton_append, List.map_cons]
    exact Gen.append (Gen.refl [.tm (.sym (idx t))]) this
  | err lo l us fs _ _ _ ih => simp [errs, Tree.errs] at he
  | node r rule cs us fs h1 h2 h3 ih1 ih2 =>
    simp only [errs, Tree.errs, List.append_eq_nil_iff] at he
    simp only [leaves, Tree.leaves, List.map_append]
    exact Gen.append ((Gen.rule (List.mem_of_getElem? h1)).trans (ih1 he.1)) (ih2 he.2)

/-- The error leaves of a derivation forest are slices of the input. -/
theorem Built.slices {R : List PRule} {idx : T → Nat} {input : List T} {us fs} (h : Built R idx input us fs) :
    ∀ x ∈ errs fs, x.2 ≠ [] ∧ (input.drop x.1).take x.2.length = x.2 := by
  induction h with
  | nil => intro x hx; cases hx
  | leaf i t us fs _ _ ih => simpa [errs, Tree.errs] using ih
  | err lo l us fs h1 h2 _ ih =>
    intro x hx
    simp only [errs, Tree.errs, List.singleton_append, List.mem_cons] at hx
    rcases hx with rfl | hx
    · exact ⟨h1, h2⟩
    · exact ih x hx
  | node r rule cs us fs h1 h2 h3 ih1 ih2 =>
    intro x hx
    simp only [errs, Tree.errs, List.mem_append] at hx
    rcases hx with hx | hx
    · exact ih1 x hx
    · exact ih2 x hx

theorem Built.no_errs {R : List PRule} {idx : T → Nat} {input : List T} {us fs} (h : Built R idx input us fs)
    (hu : Sym.tm .err ∉ us) (hR : ∀ r ∈ R, Sym.tm .err ∉ r.rhs) : errs fs = [] := by
  induction h with
  | nil => rfl
  | leaf i t us fs _ _ ih => simpa [errs, Tree.errs] using ih (fun h => hu (List.mem_cons_of_mem _ h))
  | err lo l us fs h1 h2 _ ih => exact absurd List.mem_cons_self hu
  | node r rule cs us fs h1 h2 h3 ih1 ih2 =>
    simp only [errs, Tree.errs]
    rw [ih1 (hR rule (List.mem_of_getElem? h1)), ih2 (fun h => hu (List.mem_cons_of_mem _ h))]
    rfl

theorem Evals.err_mem {rules : List (Rule N T E)} {fs lg as l} (h : Evals rules fs lg (.ok as)) (hl : Arg.err l ∈ as) :
    ∃ lo, (lo, l) ∈ errs fs := by
  generalize hx : Except.ok as = x at h
  induction h generalizing as with
  | nil => cases hx; cases hl
  | leaf i t fs lg as _ ih =>
    cases hx
    rcases List.mem_cons.1 hl with hl | hl
    · cases hl
    · simpa [errs, Tree.errs] using ih hl rfl
  | leafE => cases hx
  | err lo l' fs lg as _ ih =>
    cases hx
    rcases List.mem_cons.1 hl with hl | hl
    · cases hl; exact ⟨lo, by simp [errs, Tree.errs]⟩
    · obtain ⟨lo', h⟩ := ih hl rfl
      exact ⟨lo', by simp [errs, Tree.errs, h]⟩
  | errE => cases hx
  | node r rule cs lg1 args v fs lg2 as h1 h2 h3 _ _ ih =>
    cases hx
    rcases List.mem_cons.1 hl with hl | hl
    · cases hl
    · obtain ⟨lo', h⟩ := ih hl rfl
      exact ⟨lo', by simp [errs, h]⟩
  | nodeE => cases hx
  | fail => cases hx
  | inner => cases hx

/-! ## Valid items -/

/-- A valid item begins where its rule begins. -/
theorem Valid.split {R : List PRule} {s : Nat} {γ : List Sym} {i : Item} (h : Valid R s γ i) (hs : ∃ r, R[s]? = some r) :
    ∃ γ0 rule, R[i.rule]? = some rule ∧ γ = γ0 ++ rule.rhs.take i.pos ∧ Valid R s γ0 ⟨i.rule, 0, i.la⟩ ∧
      i.pos ≤ rule.rhs.length := by
  induction h with
  | start =>
    obtain ⟨r, hr⟩ := hs
    exact ⟨[], r, hr, by simp, .start, Nat.zero_le _⟩
  | advance γ i r X h1 h2 h3 ih =>
    obtain ⟨γ0, rule, k1, k2, k3, k4⟩ := ih
    rw [h2] at k1
    cases k1
    have hlt : i.pos < r.rhs.length := by
      rw [List.getElem?_eq_some_iff] at h3; exact h3.1
    refine ⟨γ0, r, h2, ?_, k3, hlt⟩
    simp only
    rw [List.take_add_one, h3, k2]
    simp
  | expand γ i r B j r' b ρ h1 h2 h3 h4 h5 h6 ih =>
    exact ⟨γ, r', h4, by simp, .expand γ i r B j r' b ρ h1 h2 h3 h4 h5 h6, Nat.zero_le _⟩

/-- An item at its beginning was expected. -/
theorem Valid.origin {R : List PRule} {s : Nat} {γ : List Sym} {i : Item} (h : Valid R s γ i) (hp : i.pos = 0)
    (hr : i.rule ≠ s) : ∃ rule, R[i.rule]? = some rule ∧ Expects R s γ (.nt rule.lhs) := by
  cases h with
  | start => exact absurd rfl hr
  | advance γ i r X h1 h2 h3 => cases hp
  | expand _ i r B j r' b ρ h1 h2 h3 h4 h5 h6 =>
    subst h5
    exact ⟨r', h4, i, r, h1, h2, h3⟩

/-- What is reduced is the end of the viable prefix, and the left-hand side is expected before it. -/
theorem Complete.split {R : List PRule} {s r : Nat} {γ : List Sym} {a : Term} (h : Complete R s γ r a)
    (hs : ∃ r, R[s]? = some r) (hr : r ≠ s) :
    ∃ γ0 rule, R[r]? = some rule ∧ γ = γ0 ++ rule.rhs ∧ Expects R s γ0 (.nt rule.lhs) := by
  obtain ⟨rule, h1, h2⟩ := h
  obtain ⟨γ0, rule', k1, k2, k3, _⟩ := h2.split hs
  simp only [h1] at k1
  cases k1
  obtain ⟨rule'', k4, k5⟩ := k3.origin rfl hr
  simp only [h1] at k4
  cases k4
  exact ⟨γ0, rule, h1, by simpa using k2, k5⟩

/-- Items of the start rule: look-ahead end of input, complete only after the start symbol. -/
theorem start_items {g : Gram} {fresh : Nat} (hf : ¬ g.Used fresh) {γ : List Sym} {i : Item}
    (h : Valid (g.aug fresh) g.rules.length γ i) (hi : i.rule = g.rules.length) :
    i.la = .eoi ∧ ((i.pos = 0 ∧ γ = []) ∨ (i.pos = 1 ∧ γ = [.nt g.start])) := by
  induction h with
  | start => exact ⟨rfl, Or.inl ⟨rfl, rfl⟩⟩
  | advance γ i r X _ h1 h2 ih =>
    obtain ⟨h3, h4⟩ := ih hi
    simp only at hi
    rw [hi] at h1
    simp [Gram.aug] at h1
    subst h1
    refine ⟨h3, Or.inr ?_⟩
    rcases h4 with ⟨h5, h6⟩ | ⟨h5, h6⟩
    · rw [h5] at h2
      simp at h2
      subst h2
      exact ⟨by simp [h5], by simp [h6]⟩
    · rw [h5] at h2
      simp at h2
  | expand γ i r B j r' b ρ hv h1 h2 h3 h4 h5 ih =>
    simp only at hi
    rw [hi] at h3
    simp [Gram.aug] at h3
    subst h3
    simp only at h4
    subst h4
    by_cases hr : i.rule = g.rules.length
    · obtain ⟨k1, k2⟩ := ih hr
      rw [hr] at h1
      simp [Gram.aug] at h1
      subst h1
      rcases k2 with ⟨k2, k3⟩ | ⟨k2, k3⟩
      · rw [k2, k1] at h5
        simp only [Nat.zero_add, List.drop_one, List.tail_cons, List.nil_append] at h5
        have := gen_iff.2 h5
        have hb : b = .eoi := by
          obtain ⟨v, hv, _⟩ := this.terminal
          cases hv
          rfl
        exact ⟨hb, Or.inl ⟨rfl, k3⟩⟩
      · rw [k2] at h2
        simp at h2
    · exfalso
      have hm : r ∈ g.rules := by
        rcases List.mem_append.1 (List.mem_of_getElem? h1) with hm | hm
        · exact hm
        · exfalso
          have hlt : i.rule < (g.aug fresh).length := by
            rw [List.getElem?_eq_some_iff] at h1; exact h1.1
          have hlt' : i.rule < g.rules.length := by
            simp [Gram.aug] at hlt; omega
          simp only [Gram.aug] at h1
          rw [List.getElem?_append_left hlt'] at h1
          simp at hm
          subst hm
          exact hf ⟨_, List.mem_of_getElem? h1, Or.inl rfl⟩
      exact hf ⟨r, hm, Or.inr (List.mem_of_getElem? h2)⟩

end Verif.Par
