import Verif.Props.ParKeep

/-!
# C28 for grammars with error rules: nothing is an error before the first offending token
-/

namespace Verif.Par

variable {N T E : Type}

/-- The calls for a tree without errors get no error slices. -/
theorem Evals.no_slices {rules : List (Rule N T E)} {fs : List (Tree T)} {lg x} (h : Evals rules fs lg x) (he : errs fs = []) :
    (∀ cl ∈ lg, ∀ l, Arg.err l ∉ cl.2) ∧ ∀ as, x = .ok as → ∀ l, Arg.err l ∉ as := by
  induction h with
  | nil => exact ⟨by simp, fun as h => by cases h; simp⟩
  | leaf i t fs lg as _ ih =>
    obtain ⟨h1, h2⟩ := ih (by simpa [errs, Tree.errs] using he)
    exact ⟨h1, fun as h l => by cases h; simpa using h2 _ rfl l⟩
  | leafE i t fs lg e _ ih => exact ⟨(ih (by simpa [errs, Tree.errs] using he)).1, fun as h => by cases h⟩
  | err => simp [errs, Tree.errs] at he
  | errE => simp [errs, Tree.errs] at he
  | inner r cs lg e fs _ ih =>
    simp only [errs, Tree.errs, List.append_eq_nil_iff] at he
    exact ⟨(ih he.1).1, fun as h => by cases h⟩
  | fail r rule cs lg args e fs _ _ _ ih =>
    simp only [errs, Tree.errs, List.append_eq_nil_iff] at he
    obtain ⟨h1, h2⟩ := ih he.1
    refine ⟨?_, fun as h => by cases h⟩
    intro cl hc l
    rcases List.mem_append.1 hc with hc | hc
    · exact h1 cl hc l
    · cases List.mem_singleton.1 hc
      exact h2 _ rfl l
  | node r rule cs lg args v fs lg' as _ _ _ _ ih1 ih2 =>
    simp only [errs, Tree.errs, List.append_eq_nil_iff] at he
    obtain ⟨h1, h2⟩ := ih1 he.1
    obtain ⟨h3, h4⟩ := ih2 he.2
    constructor
    · intro cl hc l
      simp only [List.mem_append, List.mem_cons, List.not_mem_nil, or_false] at hc
      rcases hc with hc | rfl | hc
      · exact h1 cl hc l
      · exact h2 _ rfl l
      · exact h3 cl hc l
    · intro as h l
      cases h
      simpa using h4 _ rfl l
  | nodeE r rule cs lg args v fs lg' e _ _ _ _ ih1 ih2 =>
    simp only [errs, Tree.errs, List.append_eq_nil_iff] at he
    obtain ⟨h1, h2⟩ := ih1 he.1
    obtain ⟨h3, _⟩ := ih2 he.2
    refine ⟨?_, fun as h => by cases h⟩
    intro cl hc l
    simp only [List.mem_append, List.mem_cons, List.not_mem_nil, or_false] at hc
    rcases hc with hc | rfl | hc
    · exact h1 cl hc l
    · exact h2 _ rfl l
    · exact h3 cl hc l

/-- C28 with error rules: as long as the tokens pulled (and the end of the input, if it has been pulled) are also those of some sentence, no callback has got
an error slice, and `parse` has not given up.  So error recovery does not begin before the first token that no sentence has at this place has been seen. -/
theorem c28_no_early_error (o : Seeds) (ho : o.Fair) (rules : List (Rule N T E)) (start : Nat) (hok : (gram rules start).Ok) (p : Parser N T E)
    (hm : MakesParser o rules start p []) (idx : T → Nat) (input sent : List T) (hs : (gram rules start).Sentence (sent.map idx)) (n : Nat) (c : Cfg N T)
    (h : run idx p n (Cfg.init p input) = .more c ∨ ∃ x, run idx p n (Cfg.init p input) = .done x c) (ha : sent.take c.pulls = input.take c.pulls) :
    (∀ cl ∈ c.log, ∀ l, Arg.err l ∉ cl.2) ∧ run idx p n (Cfg.init p input) ≠ .done (.error .noRecovery) c := by
  obtain ⟨fresh, hx, hnw⟩ := noConflict_of_makes ho hok hm
  obtain ⟨f, hf⟩ := (sentence_iff (idx := idx) (input := sent)).1 hs
  obtain ⟨lg, x, hev⟩ := Built.evals hf.1
  -- the parse of the sentence
  obtain ⟨y, c', hy, hlog, hne⟩ : ∃ y c', ParsesTo idx p sent y c' ∧ (∀ cl ∈ c'.log, ∀ l, Arg.err l ∉ cl.2) ∧ y ≠ .error .noRecovery := by
    rcases follow hx hnw hf hev with ⟨v, c, _, h2, h3⟩ | ⟨e, c, _, h2, h3⟩ | ⟨_, v, c, f', h1, h2, h3⟩
    · exact ⟨_, _, h2, fun cl hc => (hev.no_slices hf.2.1).1 cl (by rw [← h3]; simpa using hc), by simp⟩
    · exact ⟨_, _, h2, fun cl hc => (hev.no_slices hf.2.1).1 cl (by rw [← h3]; simpa using hc), by simp⟩
    · exact ⟨_, _, h1, fun cl hc => (h3.no_slices h2.2.1).1 cl (by simpa using hc), by simp⟩
  have hcfg : (run idx p n (Cfg.init p input)).cfg? = some c := by
    rcases h with h | ⟨x, h⟩ <;> rw [h] <;> rfl
  have hc := causal hcfg ha
  rcases h with h | ⟨x, h⟩
  · rw [h] at hc
    refine ⟨?_, by rw [h]; simp⟩
    obtain ⟨m, hm'⟩ := machSim_more (idx := idx) (input := sent) hx hc
    obtain ⟨k, hk⟩ := hy
    have hrun : run idx p k (c.withSrc (sent.drop c.pulls)) = .done y c' := by
      have e1 : run idx p (k + n) (Cfg.init p sent) = .done y c' := by rw [run_add, hk]
      rw [Nat.add_comm, run_add, hc] at e1
      exact e1
    have hpre := calls_prefix hx k hm' hrun
    rw [hm'.calls] at hpre
    intro cl hcl
    have : cl ∈ c'.log.reverse := hpre.subset (by simpa [Cfg.withSrc] using hcl)
    exact hlog cl (by simpa using this)
  · rw [h] at hc
    obtain ⟨rfl, rfl⟩ := hy.unique ⟨n, hc⟩
    refine ⟨fun cl hcl => hlog cl hcl, ?_⟩
    rw [h]
    intro hcon
    cases hcon
    exact hne rfl

/-- `P → L . | error; L → L e | e` on `e e ?`: after two tokens have been pulled, one callback has been called, without a slice; `e e .` is a sentence that
begins like that.  When `?` has been pulled, the result is that of the rule with `error`. -/
example : gWhole.Sentence ([0, 0, 1].map id) ∧
    (∃ c, run id pWhole 2 (Cfg.init pWhole [0, 0, 5]) = .more c ∧ c.log = [(3, [.tok 0])] ∧ [0, 0, 1].take c.pulls = [0, 0, 5].take c.pulls) ∧
    ∃ c, ParsesTo id pWhole [0, 0, 5] (.ok 1) c ∧ c.log = [(1, [.err [0, 0, 5]]), (3, [.tok 0])] := by
  refine ⟨?_, ⟨_, rfl, rfl, rfl⟩, _, ⟨20, rfl⟩, rfl⟩
  exact .step _ [] [.tm (.sym 0), .tm (.sym 1)] ⟨1, [.tm (.sym 0)]⟩
    (.step _ [] [.tm (.sym 1)] ⟨1, [.nt 1, .tm (.sym 0)]⟩ (.step _ [] [] ⟨0, [.nt 1, .tm (.sym 1)]⟩ (.refl _) (by simp [gWhole])) (by simp [gWhole]))
    (by simp [gWhole])

end Verif.Par
