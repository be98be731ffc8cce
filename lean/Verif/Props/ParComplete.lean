import Verif.Par.FullProof
import Verif.Props.ParRun

/-!
# Sentences are parsed: C24, C25, C30
-/

namespace Verif.Par

variable {N T E : Type}

/-! ## C24 -/

/-- C24: without warnings, every sentence is parsed: `parse` returns the value, or the first callback failure, of a
derivation tree of exactly this sentence, and the callbacks called are exactly those of the evaluation of this tree. -/
theorem c24_complete (o : Seeds) (ho : o.Fair) (rules : List (Rule N T E)) (start : Nat) (hok : (gram rules start).Ok)
    (p : Parser N T E) (hp : MakesParser o rules start p []) (idx : T → Nat) (input : List T)
    (hs : (gram rules start).Sentence (input.map idx)) :
    ∃ f c, IsTree (rules.map Rule.plain) start idx input f ∧
      ((∃ v, Evals rules [f] c.log.reverse (.ok [.nt v]) ∧ ParsesTo idx p input (.ok v) c) ∨
       (∃ e, Evals rules [f] c.log.reverse (.error e) ∧ ParsesTo idx p input (.error (.reducer e)) c)) := by
  obtain ⟨fresh, hx, hnw⟩ := noConflict_of_makes ho hok hp
  obtain ⟨f, hf⟩ := sentence_iff.1 hs
  obtain ⟨lg, x, hev⟩ := Built.evals hf.1
  rcases follow hx hnw hf hev with ⟨v, c, rfl, h2, rfl⟩ | ⟨e, c, rfl, h2, rfl⟩ | ⟨_, v, c, f', h1, h2, h3⟩
  · exact ⟨f, c, hf, Or.inl ⟨v, hev, h2⟩⟩
  · exact ⟨f, c, hf, Or.inr ⟨e, hev, h2⟩⟩
  · exact ⟨f', c, h2, Or.inl ⟨v, h3, h1⟩⟩

/-- C24 with callbacks that do not fail: every sentence is accepted, whatever the callbacks return. -/
theorem c24_accepts (o : Seeds) (ho : o.Fair) (rules : List (Rule N T E)) (start : Nat) (hok : (gram rules start).Ok)
    (hg : ∀ r ∈ rules, ∀ l, ∃ v, r.gen l = .ok v)
    (p : Parser N T E) (hp : MakesParser o rules start p []) (idx : T → Nat) (input : List T)
    (hs : (gram rules start).Sentence (input.map idx)) : ∃ v c, ParsesTo idx p input (.ok v) c := by
  obtain ⟨f, c, h1, ⟨v, _, h3⟩ | ⟨e, h2, h3⟩⟩ := c24_complete o ho rules start hok p hp idx input hs
  · exact ⟨v, c, h3⟩
  · exfalso
    have : ∀ (fs : List (Tree T)) lg (x : Except E (List (Arg N T))), Evals rules fs lg x → ∃ as, x = .ok as := by
      intro fs lg x h
      induction h with
      | nil => exact ⟨_, rfl⟩
      | leaf => exact ⟨_, rfl⟩
      | leafE _ _ _ _ _ _ ih => exact ih
      | err => exact ⟨_, rfl⟩
      | errE _ _ _ _ _ _ ih => exact ih
      | node => exact ⟨_, rfl⟩
      | nodeE _ _ _ _ _ _ _ _ _ _ _ _ _ _ ih => obtain ⟨_, h⟩ := ih; cases h
      | fail r rule cs lg1 args e fs h1 h2 h3 =>
        obtain ⟨v, hv⟩ := hg rule (List.mem_of_getElem? h1) args
        rw [hv] at h3; cases h3
      | inner _ _ _ _ _ _ ih => obtain ⟨_, h⟩ := ih; cases h
    obtain ⟨_, h⟩ := this _ _ _ h2
    cases h

example : (gram rRight 0).Sentence ([0, 1].map id) :=
  .step _ [.tm (.sym 0)] [] ⟨0, [.tm (.sym 1)]⟩ (.step _ [] [] ⟨0, [.tm (.sym 0), .nt 0]⟩ (.refl _) (by simp [gram, rRight, Rule.plain]))
    (by simp [gram, rRight, Rule.plain])

/-! ## C25 -/

/-- C25: without warnings, no sentence has two derivation trees, unless the start symbol derives itself. -/
theorem c25_unambiguous (o : Seeds) (ho : o.Fair) (g : Gram) (hok : g.Ok) (tab : Tables) (h : NewGives o g (.ok (tab, [])))
    (hc : ¬ g.Cyclic) (idx : T → Nat) (input : List T) (f f' : Tree T) (hf : IsTree g.rules g.start idx input f)
    (hf' : IsTree g.rules g.start idx input f') : f = f' :=
  tree_unique ho hok h hc hf hf'

/-- C25 fails for `S → S | a`: there is no warning, but `a` has two derivation trees. -/
theorem c25_cyclic_ambiguous : (∃ tab, NewGives idSeeds gLoop (.ok (tab, []))) ∧
    ∃ f f', IsTree gLoop.rules gLoop.start id [0] f ∧ IsTree gLoop.rules gLoop.start id [0] f' ∧ f ≠ f' := by
  refine ⟨⟨{ action := [(0, [(.sym 0, .shift 2)]), (1, [(.eoi, .accept)]), (2, [(.eoi, .reduce 1)])], goto := [(0, [(0, 1)])], errors := [], start := 0 },
    10, by decide, by simp⟩, .node 1 [.leaf 0 0], .node 0 [.node 1 [.leaf 0 0]], ⟨?_, rfl, rfl⟩, ⟨?_, rfl, rfl⟩, by simp⟩
  · exact .node 1 ⟨0, [.tm (.sym 0)]⟩ _ _ _ rfl (.leaf 0 0 _ _ rfl .nil) .nil
  · exact .node 0 ⟨0, [.nt 0]⟩ _ _ _ rfl (.node 1 ⟨0, [.tm (.sym 0)]⟩ _ _ _ rfl (.leaf 0 0 _ _ rfl .nil) .nil) .nil

theorem gRight_not_cyclic : ¬ gRight.Cyclic := by
  rintro ⟨x, r, y, hr, _, h⟩
  simp only [gRight, List.mem_cons, List.not_mem_nil, or_false] at hr
  have : ∀ X ∈ r.rhs, X = .nt 0 := by
    intro X hX
    have : X ∈ x ++ r.rhs ++ y := by simp [hX]
    rw [h] at this
    simpa [gRight] using this
  rcases hr with rfl | rfl <;> simp at this

example : IsTree gRight.rules gRight.start id [0, 1] (.node 0 [.leaf 0 0, .node 1 [.leaf 1 1]]) :=
  ⟨.node 0 ⟨0, [.tm (.sym 0), .nt 0]⟩ _ _ _ rfl (.leaf 0 0 _ _ rfl
    (.node 1 ⟨0, [.tm (.sym 1)]⟩ _ _ _ rfl (.leaf 1 1 _ _ rfl .nil) .nil)) .nil, rfl, rfl⟩

/-! ## C30 -/

/-- C30: without warnings and if the start symbol does not derive itself, `parse` is the bottom-up left-to-right
evaluation of the derivation tree: it makes exactly the calls of the evaluation, in the same order, and returns its
result.  In particular a failing callback ends the parse with its error. -/
theorem c30_evaluation (o : Seeds) (ho : o.Fair) (rules : List (Rule N T E)) (start : Nat) (hok : (gram rules start).Ok)
    (p : Parser N T E) (hp : MakesParser o rules start p []) (hc : ¬ (gram rules start).Cyclic) (idx : T → Nat) (input : List T)
    (f : Tree T) (hf : IsTree (rules.map Rule.plain) start idx input f) (calls : List (Call N T)) :
    (∀ v, Evals rules [f] calls (.ok [.nt v]) ↔ ∃ c, ParsesTo idx p input (.ok v) c ∧ c.log.reverse = calls) ∧
    (∀ e, Evals rules [f] calls (.error e) ↔ ∃ c, ParsesTo idx p input (.error (.reducer e)) c ∧ c.log.reverse = calls) := by
  obtain ⟨fresh, hx, hnw⟩ := noConflict_of_makes ho hok hp
  obtain ⟨lg, x, hev⟩ := Built.evals hf.1
  rcases follow hx hnw hf hev with ⟨v, c, rfl, h2, rfl⟩ | ⟨e, c, rfl, h2, rfl⟩ | ⟨h1, _⟩
  · constructor
    · intro v'
      constructor
      · intro h
        obtain ⟨rfl, k⟩ := hev.unique h
        cases k
        exact ⟨c, h2, rfl⟩
      · rintro ⟨c', h3, rfl⟩
        obtain ⟨h4, rfl⟩ := h2.unique h3
        cases h4
        exact hev
    · intro e
      constructor
      · intro h
        obtain ⟨_, k⟩ := hev.unique h
        cases k
      · rintro ⟨c', h3, rfl⟩
        obtain ⟨h4, _⟩ := h2.unique h3
        cases h4
  · constructor
    · intro v'
      constructor
      · intro h
        obtain ⟨_, k⟩ := hev.unique h
        cases k
      · rintro ⟨c', h3, rfl⟩
        obtain ⟨h4, _⟩ := h2.unique h3
        cases h4
    · intro e'
      constructor
      · intro h
        obtain ⟨rfl, k⟩ := hev.unique h
        cases k
        exact ⟨c, h2, rfl⟩
      · rintro ⟨c', h3, rfl⟩
        obtain ⟨h4, rfl⟩ := h2.unique h3
        cases h4
        exact hev
  · exact absurd h1 hc

/-- C30 for every grammar and every input, also when there were syntax errors: if `parse` returns a callback's error,
the last call failed with exactly this error and all calls before succeeded; otherwise all calls succeeded. -/
theorem c30_first_failure (o : Seeds) (ho : o.Fair) (rules : List (Rule N T E)) (start : Nat) (hok : (gram rules start).Ok)
    (p : Parser N T E) (ws : List Warning) (hp : MakesParser o rules start p ws) (idx : T → Nat) (input : List T)
    (x : Except (PErr E) N) (c : Cfg N T) (h : ParsesTo idx p input x c) :
    (∀ e, x = .error (.reducer e) → ∃ r args rest rule, c.log.reverse = rest ++ [(r, args)] ∧ rules[r]? = some rule ∧
      rule.gen args = .error e ∧ ∀ y ∈ rest, ∃ rule v, rules[y.1]? = some rule ∧ rule.gen y.2 = .ok v) ∧
    ((∀ e, x ≠ .error (.reducer e)) → ∀ y ∈ c.log, ∃ rule v, rules[y.1]? = some rule ∧ rule.gen y.2 = .ok v) := by
  obtain ⟨fresh, hx⟩ := ctx_of_makes ho hok hp
  obtain ⟨n, hn⟩ := h
  rcases Reach.run (idx := idx) hx (Reach.init (input := input)) n with ⟨c', h1, _⟩ | h1
  · rw [h1] at hn; cases hn
  · rw [hn] at h1
    cases h1 with
    | ok c v f lg h2 h3 h4 => exact ⟨fun e h => (by cases h), fun _ => h2.good⟩
    | reducer c e r args rule h2 h3 h4 h5 =>
      obtain ⟨_, _, _, _, _, h2, _⟩ := h2
      refine ⟨fun e' h => ?_, fun h => absurd rfl (h e)⟩
      cases h
      exact ⟨r, args, c.log.reverse, rule, by simp, h3, h4, fun y hy => h2.good y (List.mem_reverse.1 hy)⟩
    | noRecovery c h2 =>
      obtain ⟨_, _, _, _, _, h2, _⟩ := h2
      exact ⟨fun e h => (by cases h), fun _ => h2.good⟩

/-- A callback that fails in the middle: `S → a S` fails, `S → b` does not. -/
def rFail : List (Rule Nat Nat Nat) := [⟨0, [.tm (.sym 0), .nt 0], fun _ => .error 7⟩, ⟨0, [.tm (.sym 1)], fun _ => .ok 0⟩]

def pFail : Parser Nat Nat Nat := ⟨rFail ++ [⟨1, [.nt 0], fun _ => .error 0⟩], tRight⟩

example : MakesParser idSeeds rFail 0 pFail [] := ⟨gRight_new, _, rfl⟩
example : ∃ c, ParsesTo id pFail [0, 0, 1] (.error (.reducer 7)) c ∧ c.log.reverse = [(1, [.tok 1]), (0, [.tok 0, .nt 0])] :=
  ⟨_, ⟨20, rfl⟩, rfl⟩

end Verif.Par
