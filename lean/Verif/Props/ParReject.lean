import Verif.Par.TermProof
import Verif.Props.ParComplete

/-!
# Termination, rejection and the amount of input read: C26, C27, C28, C31
-/

namespace Verif.Par

variable {N T E : Type}

/-! ## C27 -/

/-- C27: without warnings and without error rules, and if every non-terminal that can be reached derives some token
string, `parse` ends with a result on every input. -/
theorem c27_terminates (o : Seeds) (ho : o.Fair) (rules : List (Rule N T E)) (start : Nat) (hok : (gram rules start).Ok)
    (hn : (gram rules start).NoError) (hp : (gram rules start).Productive) (p : Parser N T E) (hm : MakesParser o rules start p [])
    (idx : T → Nat) (input : List T) : ∃ x c, ParsesTo idx p input x c := by
  obtain ⟨m, h⟩ := makes_ends ho hok hm hn hp idx input
  cases hr : run idx p m (Cfg.init p input) with
  | more c => exact absurd hr (h c)
  | done x c => exact ⟨x, c, m, hr⟩
  | panic => exact absurd ⟨m, hr⟩ (c29_no_panic o ho rules start hok p [] hm idx input (Or.inr hn))

/-! ## C26 -/

/-- C26: an input that is not a sentence is not accepted; if no callback fails, the result is `RecoveryRuleNotFound`. -/
theorem c26_rejects (o : Seeds) (ho : o.Fair) (rules : List (Rule N T E)) (start : Nat) (hok : (gram rules start).Ok)
    (hn : (gram rules start).NoError) (hp : (gram rules start).Productive) (p : Parser N T E) (hm : MakesParser o rules start p [])
    (idx : T → Nat) (input : List T) (hs : ¬ (gram rules start).Sentence (input.map idx)) :
    (∃ c, ParsesTo idx p input (.error .noRecovery) c) ∨ ∃ e c, ParsesTo idx p input (.error (.reducer e)) c := by
  obtain ⟨x, c, h⟩ := c27_terminates o ho rules start hok hn hp p hm idx input
  cases x with
  | ok v => exact absurd (c23_sentence o ho rules start hok hn p [] hm idx input v c h) hs
  | error e =>
    cases e with
    | noRecovery => exact Or.inl ⟨c, h⟩
    | reducer e => exact Or.inr ⟨e, c, h⟩

/-- C26 and C24 together: if callbacks do not fail, `parse` decides the language: `Ok` on sentences,
`RecoveryRuleNotFound` on everything else. -/
theorem c26_decides (o : Seeds) (ho : o.Fair) (rules : List (Rule N T E)) (start : Nat) (hok : (gram rules start).Ok)
    (hn : (gram rules start).NoError) (hp : (gram rules start).Productive) (hg : ∀ r ∈ rules, ∀ l, ∃ v, r.gen l = .ok v)
    (p : Parser N T E) (hm : MakesParser o rules start p []) (idx : T → Nat) (input : List T) :
    ((gram rules start).Sentence (input.map idx) ↔ ∃ v c, ParsesTo idx p input (.ok v) c) ∧
    (¬ (gram rules start).Sentence (input.map idx) ↔ ∃ c, ParsesTo idx p input (.error .noRecovery) c) := by
  have h1 : (gram rules start).Sentence (input.map idx) ↔ ∃ v c, ParsesTo idx p input (.ok v) c :=
    ⟨c24_accepts o ho rules start hok hg p hm idx input, fun ⟨v, c, h⟩ => c23_sentence o ho rules start hok hn p [] hm idx input v c h⟩
  refine ⟨h1, ?_⟩
  constructor
  · intro hs
    rcases c26_rejects o ho rules start hok hn hp p hm idx input hs with h | ⟨e, c, h⟩
    · exact h
    · obtain ⟨r, args, rest, rule, _, k1, k2, _⟩ := (c30_first_failure o ho rules start hok p [] hm idx input _ c h).1 e rfl
      obtain ⟨v, hv⟩ := hg rule (List.mem_of_getElem? k1) args
      rw [hv] at k2
      cases k2
  · rintro ⟨c, h⟩ hs
    obtain ⟨v, c', h'⟩ := h1.1 hs
    have := (h.unique h').1
    cases this

/-! ## C28 -/

/-- C28: at every moment of a parse, all tokens pulled so far except the last one are the beginning of some sentence
(no error rules; conflicts do not matter). -/
theorem c28_viable_prefix (o : Seeds) (ho : o.Fair) (rules : List (Rule N T E)) (start : Nat) (hok : (gram rules start).Ok)
    (hn : (gram rules start).NoError) (hp : (gram rules start).Productive) (p : Parser N T E) (ws : List Warning)
    (hm : MakesParser o rules start p ws) (idx : T → Nat) (input : List T) (n : Nat) (c : Cfg N T)
    (h : run idx p n (Cfg.init p input) = .more c ∨ ∃ x, run idx p n (Cfg.init p input) = .done x c) :
    ∃ w, (gram rules start).Sentence ((input.map idx).take (c.pulls - 1) ++ w) := by
  obtain ⟨fresh, hx⟩ := ctx_of_makes ho hok hm
  rcases Reach.run (idx := idx) hx (Reach.init (input := input)) n with ⟨c', h1, h2⟩ | h1
  · rcases h with h | ⟨x, h⟩
    · rw [h1] at h
      cases h
      exact h2.viable hx hn hp
    · rw [h1] at h; cases h
  · rcases h with h | ⟨x, h⟩
    · rw [h] at h1; cases h1
    · rw [h] at h1
      cases h1 with
      | ok c v f lg h2 h3 h4 => exact Reach.viable hx hn hp ⟨_, _, _, _, _, h2, h3⟩
      | reducer c e r args rule h2 h3 h4 h5 => exact h2.viable hx hn hp
      | noRecovery c h2 => exact h2.viable hx hn hp

/-- C28: without warnings, when `parse` gives up, no sentence agrees with the input on what has been pulled, where
pulling the end of input counts as well.  With `c28_viable_prefix`: the error is reported exactly at the first token that
no sentence has at this place. -/
theorem c28_offending (o : Seeds) (ho : o.Fair) (rules : List (Rule N T E)) (start : Nat) (hok : (gram rules start).Ok)
    (p : Parser N T E) (hm : MakesParser o rules start p []) (idx : T → Nat) (input : List T) (c : Cfg N T)
    (h : ParsesTo idx p input (.error .noRecovery) c) :
    (c.pulls ≤ input.length → ∀ w, ¬ (gram rules start).Sentence ((input.map idx).take c.pulls ++ w)) ∧
    (input.length < c.pulls → ¬ (gram rules start).Sentence (input.map idx)) := by
  constructor
  · intro hle w hs
    refine makes_offending ho hok hm h hs ?_
    rw [List.take_left']
    simp
    omega
  · intro hlt hs
    exact makes_offending ho hok hm h hs rfl

/-! ## C31 -/

/-- C31: the course of a parse depends only on the tokens pulled: an input that agrees on them (a pull of the end
counts) gives the same result after the same number of pulls with the same calls of callbacks. -/
theorem c31_causal (p : Parser N T E) (idx : T → Nat) (input input' : List T) (x : Except (PErr E) N) (c : Cfg N T)
    (h : ParsesTo idx p input x c) (ht : input'.take c.pulls = input.take c.pulls) :
    ∃ c', ParsesTo idx p input' x c' ∧ c'.pulls = c.pulls ∧ c'.log = c.log := by
  obtain ⟨n, hn⟩ := h
  have := causal (idx := idx) (p := p) (input := input) (n := n) (c' := c) (by rw [hn]; rfl) ht
  rw [hn] at this
  exact ⟨_, ⟨n, this⟩, rfl, rfl⟩

/-- C31: the source is never polled again after its end. -/
theorem c31_pulls (o : Seeds) (ho : o.Fair) (rules : List (Rule N T E)) (start : Nat) (hok : (gram rules start).Ok)
    (p : Parser N T E) (ws : List Warning) (hm : MakesParser o rules start p ws) (idx : T → Nat) (input : List T) (n : Nat) (c : Cfg N T)
    (h : run idx p n (Cfg.init p input) = .more c ∨ ∃ x, run idx p n (Cfg.init p input) = .done x c) :
    c.pulls ≤ input.length + 1 := by
  obtain ⟨fresh, hx⟩ := ctx_of_makes ho hok hm
  rcases Reach.run (idx := idx) hx (Reach.init (input := input)) n with ⟨c', h1, h2⟩ | h1
  · rcases h with h | ⟨x, h⟩
    · rw [h1] at h
      cases h
      obtain ⟨_, _, _, _, _, h2, _⟩ := h2
      exact h2.pulls_le
    · rw [h1] at h; cases h
  · rcases h with h | ⟨x, h⟩
    · rw [h] at h1; cases h1
    · rw [h] at h1
      cases h1 with
      | ok c v f lg h2 h3 h4 => exact h2.pulls_le
      | reducer c e r args rule h2 h3 h4 h5 =>
        obtain ⟨_, _, _, _, _, h2, _⟩ := h2
        exact h2.pulls_le
      | noRecovery c h2 =>
        obtain ⟨_, _, _, _, _, h2, _⟩ := h2
        exact h2.pulls_le

/-- C31: when `parse` returns `Ok`, the whole input has been pulled, and its end. -/
theorem c31_ok (o : Seeds) (ho : o.Fair) (rules : List (Rule N T E)) (start : Nat) (hok : (gram rules start).Ok)
    (p : Parser N T E) (ws : List Warning) (hm : MakesParser o rules start p ws) (idx : T → Nat) (input : List T) (v : N) (c : Cfg N T)
    (h : ParsesTo idx p input (.ok v) c) : c.pulls = input.length + 1 := by
  obtain ⟨fresh, hx⟩ := ctx_of_makes ho hok hm
  obtain ⟨n, hn⟩ := h
  rcases Reach.run (idx := idx) hx (Reach.init (input := input)) n with ⟨c', h1, _⟩ | h1
  · rw [h1] at hn; cases hn
  · rw [hn] at h1
    cases h1 with
    | ok c v f lg h2 h3 h4 =>
      have h5 := h2.pulls
      rw [h4, if_pos rfl] at h5
      have h6 := congrArg List.length h2.read
      have h7 := h2.jle
      simp at h6
      omega

/-! ## Examples -/

/-- `S → a S | b` meets the hypotheses. -/
theorem gRight_productive : gRight.Productive := by
  intro x n y h
  have key : ∀ {u}, Derives gRight.rules [.nt 0] u → ∀ X ∈ u, X = .nt 0 ∨ X = .tm (.sym 0) ∨ X = .tm (.sym 1) := by
    intro u h
    induction h with
    | refl => simp
    | step x y r _ hr ih =>
      intro X hX
      simp only [gRight, List.mem_cons, List.not_mem_nil, or_false] at hr
      simp only [List.mem_append] at hX
      rcases hX with (hX | hX) | hX
      · exact ih X (by simp [hX])
      · rcases hr with rfl | rfl
        · simp at hX
          rcases hX with rfl | rfl <;> simp
        · simp at hX
          subst hX
          simp
      · exact ih X (by simp [hX])
  have := key h (.nt n) (by simp)
  simp at this
  subst this
  exact ⟨[1], .step _ [] [] ⟨0, [.tm (.sym 1)]⟩ (.refl _) (by simp [gRight])⟩

example : (gram rRight 0).Productive := gRight_productive

/-- The wrong second token is found at once: two tokens are pulled, none after. -/
example : ∃ c, ParsesTo id pRight [0, 2, 0, 1] (.error .noRecovery) c ∧ c.pulls = 2 := ⟨_, ⟨20, rfl⟩, rfl⟩
example : ∃ c, ParsesTo id pRight [0, 0] (.error .noRecovery) c ∧ c.pulls = 3 := ⟨_, ⟨20, rfl⟩, rfl⟩

end Verif.Par
