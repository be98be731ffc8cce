import Verif.Par.Report
import Verif.Par.FullProof

/-!
# Proofs about error rules that only report
-/

namespace Verif.Par

variable {N T E : Type} {rules : List (Rule N T E)} {idx : T → Nat} {input : List T} {start : Nat}

/-- An `error` symbol gives an error slice. -/
theorem Built.slice {us fs} (hb : Built (rules.map Rule.plain) idx input us fs) : ∀ {lg as}, Evals rules fs lg (.ok as) → Sym.tm .err ∈ us →
    ∃ l, Arg.err l ∈ as := by
  induction hb with
  | nil => intro lg as _ h; simp at h
  | leaf i t us fs _ _ ih =>
    intro lg as h hm
    cases h with
    | leaf _ _ _ _ as h =>
      obtain ⟨l, hl⟩ := ih h (by simpa using hm)
      exact ⟨l, List.mem_cons_of_mem _ hl⟩
  | err lo l us fs _ _ _ ih =>
    intro lg as h hm
    cases h with
    | err _ _ _ _ as h => exact ⟨l, List.mem_cons_self⟩
  | node r rule cs us fs _ _ _ _ ih =>
    intro lg as h hm
    cases h with
    | node _ _ _ _ _ _ _ _ as _ _ _ h =>
      obtain ⟨l, hl⟩ := ih h (by simpa using hm)
      exact ⟨l, List.mem_cons_of_mem _ hl⟩

/-- What can be evaluated has errors only on the outside. -/
theorem Built.reports (hr : Reports rules) {us fs} (hb : Built (rules.map Rule.plain) idx input us fs) : ∀ {lg as}, Evals rules fs lg (.ok as) →
    Sym.tm .err ∉ us → errs fs = [] := by
  induction hb with
  | nil => intro _ _ _ _; rfl
  | leaf i t us fs _ _ ih =>
    intro lg as h hm
    cases h with
    | leaf _ _ _ _ as h => simpa [errs, Tree.errs] using ih h fun h => hm (List.mem_cons_of_mem _ h)
  | err lo l us fs _ _ _ ih => intro lg as h hm; simp at hm
  | node r rule cs us fs h1 hb1 _ ih1 ih2 =>
    intro lg as h hm
    cases h with
    | node _ rule' _ _ args _ _ _ as k1 k2 k3 k4 =>
      rw [List.getElem?_map, k1] at h1
      cases h1
      have e1 := ih1 k2 (by
        intro h
        obtain ⟨l, hl⟩ := hb1.slice k2 h
        obtain ⟨e, he⟩ := hr rule' (List.mem_of_getElem? k1) h args l hl
        rw [k3] at he
        cases he)
      have e2 := ih2 k4 fun h => hm (List.mem_cons_of_mem _ h)
      simp [errs, Tree.errs, e1, e2]

theorem strict_place {k : Nat} {rule : Rule N T E} (h : (strict rules)[k]? = some rule) : ∃ n : Nat, rules[n]? = some rule :=
  List.getElem?_of_mem (List.mem_filter.1 (List.mem_of_getElem? h)).1

theorem strict_number {k : Nat} {rule : Rule N T E} (h : rules[k]? = some rule) (he : Sym.tm .err ∉ rule.rhs) :
    ∃ n : Nat, (strict rules)[n]? = some rule :=
  List.getElem?_of_mem (List.mem_filter.2 ⟨List.mem_of_getElem? h, by simpa using he⟩)

/-- A tree of the strict grammar is one of the whole grammar, and has the same value. -/
theorem strict_tree {us fs} (h : Built ((strict rules).map Rule.plain) idx input us fs) (he : errs fs = []) :
    ∃ fs', Built (rules.map Rule.plain) idx input us fs' ∧ errs fs' = [] ∧ leaves fs' = leaves fs ∧
      ∀ lg x, Evals (strict rules) fs lg x → ∃ lg', Evals rules fs' lg' x := by
  induction h with
  | nil =>
    refine ⟨[], .nil, rfl, rfl, ?_⟩
    intro lg x h
    cases h
    exact ⟨_, .nil⟩
  | leaf i t us fs h1 _ ih =>
    obtain ⟨fs', k1, k2, k3, k4⟩ := ih (by simpa [errs, Tree.errs] using he)
    refine ⟨.leaf i t :: fs', .leaf _ _ _ _ h1 k1, by simpa [errs, Tree.errs] using k2, by simp [leaves, k3], ?_⟩
    intro lg x h
    cases h with
    | leaf _ _ _ _ as h => obtain ⟨lg', h'⟩ := k4 _ _ h; exact ⟨_, .leaf _ _ _ _ _ h'⟩
    | leafE _ _ _ _ e h => obtain ⟨lg', h'⟩ := k4 _ _ h; exact ⟨_, .leafE _ _ _ _ _ h'⟩
  | err lo l us fs _ _ _ _ => simp [errs, Tree.errs] at he
  | node r rule cs us fs h1 _ _ ih1 ih2 =>
    simp only [errs, Tree.errs, List.append_eq_nil_iff] at he
    obtain ⟨cs', k1, k2, k3, k4⟩ := ih1 he.1
    obtain ⟨fs', m1, m2, m3, m4⟩ := ih2 he.2
    rw [List.getElem?_map] at h1
    obtain ⟨rule0, h2, rfl⟩ := Option.map_eq_some_iff.1 h1
    obtain ⟨n, h3⟩ := strict_place h2
    refine ⟨.node n cs' :: fs', .node _ rule0.plain _ _ _ (by simp [h3]) k1 m1, by simp [errs, Tree.errs, k2, m2], by simp [leaves, Tree.leaves, k3, m3], ?_⟩
    intro lg x h
    cases h with
    | node _ rule _ lg1 args v _ lg2 as e1 e2 e3 e4 =>
      rw [h2] at e1; cases e1
      obtain ⟨l1, h1'⟩ := k4 _ _ e2
      obtain ⟨l2, h2'⟩ := m4 _ _ e4
      exact ⟨_, .node _ _ _ _ _ _ _ _ _ h3 h1' e3 h2'⟩
    | nodeE _ rule _ lg1 args v _ lg2 e e1 e2 e3 e4 =>
      rw [h2] at e1; cases e1
      obtain ⟨l1, h1'⟩ := k4 _ _ e2
      obtain ⟨l2, h2'⟩ := m4 _ _ e4
      exact ⟨_, .nodeE _ _ _ _ _ _ _ _ _ h3 h1' e3 h2'⟩
    | fail _ rule _ lg1 args e _ e1 e2 e3 =>
      rw [h2] at e1; cases e1
      obtain ⟨l1, h1'⟩ := k4 _ _ e2
      exact ⟨_, .fail _ _ _ _ _ _ _ h3 h1' e3⟩
    | inner _ _ lg1 e _ e1 =>
      obtain ⟨l1, h1'⟩ := k4 _ _ e1
      exact ⟨_, .inner _ _ _ _ _ h1'⟩

/-- A tree without errors uses the strict grammar. -/
theorem tree_strict {us fs} (h : Built (rules.map Rule.plain) idx input us fs) (he : errs fs = []) :
    ∃ fs', Built ((strict rules).map Rule.plain) idx input us fs' ∧ errs fs' = [] ∧ leaves fs' = leaves fs := by
  induction h with
  | nil => exact ⟨[], .nil, rfl, rfl⟩
  | leaf i t us fs h1 _ ih =>
    obtain ⟨fs', k1, k2, k3⟩ := ih (by simpa [errs, Tree.errs] using he)
    exact ⟨.leaf i t :: fs', .leaf _ _ _ _ h1 k1, by simpa [errs, Tree.errs] using k2, by simp [leaves, k3]⟩
  | err lo l us fs _ _ _ _ => simp [errs, Tree.errs] at he
  | node r rule cs us fs h1 h0 _ ih1 ih2 =>
    simp only [errs, Tree.errs, List.append_eq_nil_iff] at he
    obtain ⟨cs', k1, k2, k3⟩ := ih1 he.1
    obtain ⟨fs', m1, m2, m3⟩ := ih2 he.2
    rw [List.getElem?_map] at h1
    obtain ⟨rule0, h2, rfl⟩ := Option.map_eq_some_iff.1 h1
    have hne : Sym.tm .err ∉ rule0.rhs := by
      intro hm
      have h3 : ∀ {us fs}, Built (rules.map Rule.plain) idx input us fs → Sym.tm .err ∈ us → errs fs ≠ [] := by
        intro us fs h hm
        induction h with
        | nil => cases hm
        | leaf i t us fs _ _ ih =>
          rcases List.mem_cons.1 hm with hm | hm
          · cases hm
          · simpa [errs, Tree.errs] using ih hm
        | err => simp [errs, Tree.errs]
        | node r rule cs us fs _ _ _ _ ih =>
          rcases List.mem_cons.1 hm with hm | hm
          · cases hm
          · simp only [errs, ne_eq, List.append_eq_nil_iff, not_and]
            exact fun _ => ih hm
      exact h3 h0 hm he.1
    obtain ⟨n, hn⟩ := strict_number h2 hne
    exact ⟨.node n cs' :: fs', .node _ rule0.plain _ _ _ (by simp [hn]) k1 m1, by simp [errs, Tree.errs, k2, m2], by simp [leaves, Tree.leaves, k3, m3]⟩

end Verif.Par
