import Verif.Par.Contract

/-! # Helper lemmas: values of derivation forests fit their symbols -/

namespace Verif.Par

variable {N T E : Type} {idx : T → Nat} {rules : List (Rule N T E)} {input : List T}

theorem ArgsFit.nil {Q : Nat → N → Prop} : ArgsFit idx Q [] ([] : List (Arg N T)) := ⟨rfl, fun i u a h => by simp at h⟩

theorem ArgsFit.cons {Q : Nat → N → Prop} {u : Sym} {us : List Sym} {a : Arg N T} {as : List (Arg N T)} (h : a.Fits idx Q u)
    (hs : ArgsFit idx Q us as) : ArgsFit idx Q (u :: us) (a :: as) := by
  refine ⟨by simp [hs.1], ?_⟩
  intro i x b h1 h2
  cases i with
  | zero => simp at h1 h2; subst h1; subst h2; exact h
  | succ i => exact hs.2 i x b (by simpa using h1) (by simpa using h2)

theorem evals_fit {Q : Nat → N → Prop} (hk : Keeps idx Q rules) {fs : List (Tree T)} {lg : List (Call N T)} {r : Except E (List (Arg N T))}
    (he : Evals rules fs lg r) : ∀ {us args}, r = .ok args → Built (rules.map Rule.plain) idx input us fs → ArgsFit idx Q us args := by
  induction he with
  | nil =>
    intro us args h hb
    cases h
    cases hb
    exact .nil
  | leaf i t fs lg as _ ih =>
    intro us args h hb
    cases h
    cases hb with
    | leaf _ _ us _ _ hb => exact (ih rfl hb).cons rfl
  | err lo l fs lg as _ ih =>
    intro us args h hb
    cases h
    cases hb with
    | err _ _ us _ hl _ hb => exact (ih rfl hb).cons hl
  | node r rule cs lg1 as v fs lg2 as2 hr _ hg _ ih1 ih2 =>
    intro us args h hb
    cases h
    cases hb with
    | node _ rule' _ us _ hr' hb1 hb2 =>
      rw [List.getElem?_map, hr] at hr'
      cases hr'
      refine (ih2 rfl hb2).cons ?_
      exact hk rule (List.mem_of_getElem? hr) as v (ih1 rfl hb1) hg
  | leafE => intro us args h; cases h
  | errE => intro us args h; cases h
  | nodeE => intro us args h; cases h
  | fail => intro us args h; cases h
  | inner => intro us args h; cases h

theorem evals_spans {Q : Nat → List T → N → Prop} (hk : Computes idx Q rules) {fs : List (Tree T)} {lg : List (Call N T)}
    {r : Except E (List (Arg N T))} (he : Evals rules fs lg r) : ∀ {us args}, r = .ok args → Built (rules.map Rule.plain) idx input us fs →
    errs fs = [] → Spans idx Q us args ((leaves fs).map Prod.fst) := by
  induction he with
  | nil =>
    intro us args h hb _
    cases h
    cases hb
    exact .nil
  | leaf i t fs lg as _ ih =>
    intro us args h hb hne
    cases h
    cases hb with
    | leaf _ _ us _ _ hb => exact .tok _ _ _ _ (ih rfl hb hne)
  | err lo l fs lg as _ ih =>
    intro us args h hb hne
    simp [errs, Tree.errs] at hne
  | node r rule cs lg1 as v fs lg2 as2 hr _ hg _ ih1 ih2 =>
    intro us args h hb hne
    cases h
    simp only [errs, Tree.errs, List.append_eq_nil_iff] at hne
    cases hb with
    | node _ rule' _ us _ hr' hb1 hb2 =>
      rw [List.getElem?_map, hr] at hr'
      cases hr'
      have := Spans.nt (idx := idx) (Q := Q) rule.lhs v _ us as2 _
        (hk rule (List.mem_of_getElem? hr) as _ v (ih1 rfl hb1 hne.1) hg) (ih2 rfl hb2 hne.2)
      simpa [leaves, Tree.leaves, Rule.plain] using this
  | leafE => intro us args h; cases h
  | errE => intro us args h; cases h
  | nodeE => intro us args h; cases h
  | fail => intro us args h; cases h
  | inner => intro us args h; cases h

end Verif.Par
