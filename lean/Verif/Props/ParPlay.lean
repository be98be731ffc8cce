import Verif.Props.ParEffects

/-!
# Property C55: what callbacks with side effects get, and in which order they are called
-/

namespace Verif.Par

variable {S N T E : Type}

/-! ## Helper lemmas -/

theorem GoodE.init (p : EParser S N T E) (input : List T) : GoodE p.rules ((pairE p).init input) :=
  ⟨by simp [EParser.init, Cfg.init], by simp [EParser.init, Cfg.init]⟩

/-- A moment of a parse with effects has the calls of a moment without effects. -/
theorem moment_free {o : Seeds} (ho : o.Fair) {rules : List (ERule S N T E)} {start : Nat} (hok : (gramE rules start).Ok)
    {p : EParser S N T E} {ws : List Warning} (hp : MakesE o rules start p ws) {idx : T → Nat} {input : List T}
    (hne : input ≠ [] ∨ (gramE rules start).NoError) {s : S} {c : Cfg N T} {s' : S} (h : MomentE idx p input s c s') :
    ∃ cp : Cfg (N × Shape T) T, cp.map Prod.fst id = c ∧ GoodE p.rules cp ∧ ∃ k d,
      (run idx (free p) k (Cfg.init (free p) input) = .more d ∨ ∃ x, run idx (free p) k (Cfg.init (free p) input) = .done x d) ∧
      d.log = (cp.map Prod.snd id).log := by
  obtain ⟨n, h⟩ := h
  rw [runE_pair] at h
  have hg := GoodE.run (idx := idx) n (GoodE.init p input) s
  have hnp : ∀ k, run idx (free p) k (Cfg.init (free p) input) ≠ .panic := by
    intro k hk
    exact c29_no_panic o ho (freeRules rules) start (by rw [free_gram]; exact hok) (free p) ws (makes_free hp) idx input
      (by rw [free_gram]; exact hne) ⟨k, hk⟩
  rcases run_of_pair (p := p) (idx := idx) (input := input) (s := s) n with ⟨c', s2, h1, h2⟩ | ⟨m, c', h1, h2, h3, h4⟩
  · rw [h1] at h hg
    simp only [EStep.map] at h
    rcases h with h | ⟨x, h⟩ | h <;> cases h
    exact ⟨c', rfl, hg, n, _, Or.inl h2, rfl⟩
  · cases hz : runE idx (pairE p) n ((pairE p).init input) s with
    | more c2 s2 => exact absurd hz (h4 c2 s2)
    | panic => rw [hz] at h; simp [EStep.map] at h
    | unwind c2 s2 =>
      rw [hz] at h hg h2
      simp only [EStep.map] at h
      rcases h with h | ⟨x, h⟩ | h <;> cases h
      rcases h2 with h2 | ⟨d, h2, h5, _⟩
      · exact absurd h2 (hnp _)
      · exact ⟨c2, rfl, hg, m + 1, d, Or.inl h2, h5⟩
    | done x c2 s2 =>
      rw [hz] at h hg h2
      cases x with
      | ok v =>
        simp only [EStep.map] at h
        rcases h with h | ⟨x, h⟩ | h <;> cases h
        exact ⟨c2, rfl, hg, m + 1, _, Or.inr ⟨_, h2⟩, rfl⟩
      | error e =>
        simp only [EStep.map] at h
        rcases h with h | ⟨x, h⟩ | h <;> cases h
        cases e with
        | noRecovery => exact ⟨c2, rfl, hg, m + 1, _, Or.inr ⟨_, h2⟩, rfl⟩
        | reducer e =>
          rcases h2 with h2 | ⟨d, h2, h5, _⟩
          · exact absurd h2 (hnp _)
          · exact ⟨c2, rfl, hg, m + 1, d, Or.inl h2, h5⟩

/-- A returned value comes with the record of how it was made. -/
theorem ok_free {p : EParser S N T E} {idx : T → Nat} {input : List T} {s : S} {v : N} {c : Cfg N T} {s' : S}
    (h : ParsesE idx p input s (.ok v) c s') :
    ∃ (w : Shape T) (d : Cfg (Shape T) T), ParsesTo idx (free p) input (.ok w) d ∧ Fit p.rules (v, w) := by
  obtain ⟨n, h⟩ := h
  rw [runE_pair] at h
  rcases run_of_pair (p := p) (idx := idx) (input := input) (s := s) n with ⟨c', s2, h1, h2⟩ | ⟨m, c', h1, h2, h3, h4⟩
  · rw [h1] at h; cases h
  · cases hz : runE idx (pairE p) n ((pairE p).init input) s with
    | more c2 s2 => exact absurd hz (h4 c2 s2)
    | panic => rw [hz] at h; cases h
    | unwind c2 s2 => rw [hz] at h; cases h
    | done x c2 s2 =>
      have hg := GoodE.run (idx := idx) n (GoodE.init p input) s
      cases x with
      | error e => rw [hz] at h; cases h
      | ok x =>
        rw [hz] at h h2 hg
        cases h
        obtain ⟨v, w⟩ := x
        refine ⟨w, _, ⟨m + 1, h2⟩, ?_⟩
        -- the value is on top of the stack
        obtain ⟨q, i, st, hst⟩ : ∃ q i st, c2.stack = (q, SSym.nt (v, w) i) :: st := by
          clear h4 h2 h1 hg h3
          generalize (pairE p).init input = c0 at hz
          induction n generalizing c0 s with
          | zero => cases hz
          | succ n ih =>
            simp only [runE] at hz
            have hv := stepE_view (idx := idx) (p := pairE p) c0 s
            cases hs : stepE idx (pairE p) c0 s with
            | more c1 s1 => rw [hs] at hz; exact ih c1 hz
            | panic => rw [hs] at hz; cases hz
            | unwind c1 s1 => rw [hs] at hz; cases hz
            | done x c1 s1 =>
              rw [hs] at hz
              simp only at hz
              rw [hz] at hs
              generalize fill idx c0 = d at hv
              revert hs hv
              generalize stepE idx (pairE p) c0 s = z
              intro hs hv
              cases hv with
              | tok => cases hs
              | eoi => cases hs
              | panic => cases hs
              | accept q v i st h => cases hs; exact ⟨q, i, st, h⟩
              | error a i =>
                rcases onError_view (idx := idx) (p := (⟨[], (pairE p).tab⟩ : Parser (N × Shape T) T E)) (c := d) (a := a) (i := i)
                  with h' | h' | ⟨q, state, lo, hi, stack, buffer, recov, h', _⟩ <;> (rw [h'] at hs; cases hs)
              | reduce r =>
                have hv := onReduceE_view (p := pairE p) d s r
                revert hs hv
                generalize onReduceE (pairE p) d s r = z
                intro hs hv
                cases hv with
                | panic => cases hs
                | call rule args x k1 k2 k3 k4 =>
                  cases hact : rule.act s args with
                  | panic s' => rw [hact] at k4; simp only at k4; rw [k4] at hs; cases hs
                  | error e s' => rw [hact] at k4; simp only at k4; rw [k4] at hs; cases hs
                  | ok v s' =>
                    rw [hact] at k4
                    rcases k4 with k4 | ⟨q, q0, i, rec, k4⟩ <;> (rw [k4] at hs; cases hs)
        exact hg.1 q _ i (by rw [hst]; simp)

theorem yields_fit {idx : T → Nat} {input : List T} {Q : Nat → N → Prop} {rules : List (ERule S N T E)} (hk : KeepsE idx Q rules)
    {fs : List (Tree T)} {args : List (Arg N T)} (h : Yields rules fs args) :
    ∀ {us}, Built (rules.map ERule.plain) idx input us fs → ArgsFit idx Q us args := by
  induction h with
  | nil => intro us hb; cases hb; exact .nil
  | leaf i t fs as _ ih =>
    intro us hb
    cases hb with
    | leaf _ _ us _ _ hb => exact (ih hb).cons rfl
  | err lo l fs as _ ih =>
    intro us hb
    cases hb with
    | err _ _ us _ hl _ hb => exact (ih hb).cons hl
  | node r rule cs as s v s' fs as2 hr _ hg _ ih1 ih2 =>
    intro us hb
    cases hb with
    | node _ rule' _ us _ hr' hb1 hb2 =>
      rw [List.getElem?_map, hr] at hr'
      cases hr'
      refine (ih2 hb2).cons ?_
      exact hk rule (List.mem_of_getElem? hr) s as v s' (ih1 hb1) hg

/-! ## C55 -/

/-- C55: for all grammars, also with conflicts and error rules: at every moment every callback so far was given the values of a derivation
forest of its right-hand side, each of which was made by the callback of its node from the values of the children.  No value is made up,
mixed up or handed to a callback of another symbol. -/
theorem c55_calls (o : Seeds) (ho : o.Fair) (rules : List (ERule S N T E)) (start : Nat) (hok : (gramE rules start).Ok)
    (p : EParser S N T E) (ws : List Warning) (hp : MakesE o rules start p ws) (idx : T → Nat) (input : List T)
    (hne : input ≠ [] ∨ (gramE rules start).NoError) (s : S) (c : Cfg N T) (s' : S) (h : MomentE idx p input s c s') :
    ∀ r args, (r, args) ∈ c.log → ∃ rule cs, rules[r]? = some rule ∧ Built (rules.map ERule.plain) idx input rule.rhs cs ∧
      Yields rules cs args ∧ (leaves cs).Pairwise fun x y => x.2 < y.2 := by
  obtain ⟨cp, rfl, hg, k, d, h1, h2⟩ := moment_free ho hok hp hne h
  intro r args hm
  simp only [Cfg.map, List.mem_map, Prod.mk.injEq] at hm
  obtain ⟨⟨r', args'⟩, hm, rfl, rfl⟩ := hm
  have hm' : (r', args'.map (Arg.map Prod.snd id)) ∈ d.log := by
    rw [h2]
    simp only [Cfg.map, List.mem_map]
    exact ⟨(r', args'), hm, rfl⟩
  obtain ⟨rule, cs, calls, k1, k2, k3, k4⟩ := c33_calls o ho (freeRules rules) start (by rw [free_gram]; exact hok) (free p) ws (makes_free hp)
    idx input k d h1 r' _ hm'
  rw [freeRules_plain] at k2
  simp only [freeRules, List.getElem?_mapIdx, Option.map_eq_some_iff] at k1
  obtain ⟨rule', k1, rfl⟩ := k1
  obtain ⟨_, dummy, hpr⟩ := hp
  have hposs := hg.2 r' args' hm
  rw [hpr] at hposs
  exact ⟨rule', cs, k1, k2, yields_of k3 _ rfl _ hposs, k4⟩

/-- C55: a value returned by `parse` is made by the callbacks from a derivation tree of the start symbol over the input. -/
theorem c55_sound (o : Seeds) (ho : o.Fair) (rules : List (ERule S N T E)) (start : Nat) (hok : (gramE rules start).Ok)
    (p : EParser S N T E) (ws : List Warning) (hp : MakesE o rules start p ws) (idx : T → Nat) (input : List T) (s : S) (v : N) (c : Cfg N T)
    (s' : S) (h : ParsesE idx p input s (.ok v) c s') :
    ∃ f, Built (rules.map ERule.plain) idx input [.nt start] [f] ∧ Yields rules [f] [.nt v] ∧
      (leaves [f]).Pairwise (fun x y => x.2 < y.2) ∧ (errs [f] = [] → leaves [f] = input.zipIdx) := by
  obtain ⟨w, d, h1, h2⟩ := ok_free h
  obtain ⟨f, calls, k1, k2, k3, k4, k5⟩ := c23_sound o ho (freeRules rules) start (by rw [free_gram]; exact hok) (free p) ws (makes_free hp)
    idx input w d h1
  rw [freeRules_plain] at k1
  obtain ⟨_, dummy, hpr⟩ := hp
  unfold Fit at h2
  rw [hpr] at h2
  exact ⟨f, k1, yields_of k2 _ rfl _ h2, k3, fun he => (k5 he).1⟩

/-- C55: without error rules, only sentences are accepted, whatever the callbacks do. -/
theorem c55_sentence (o : Seeds) (ho : o.Fair) (rules : List (ERule S N T E)) (start : Nat) (hok : (gramE rules start).Ok)
    (hn : (gramE rules start).NoError) (p : EParser S N T E) (ws : List Warning) (hp : MakesE o rules start p ws) (idx : T → Nat)
    (input : List T) (s : S) (v : N) (c : Cfg N T) (s' : S) (h : ParsesE idx p input s (.ok v) c s') :
    (gramE rules start).Sentence (input.map idx) := by
  obtain ⟨w, d, h1, h2⟩ := ok_free h
  have := c23_sentence o ho (freeRules rules) start (by rw [free_gram]; exact hok) (by rw [free_gram]; exact hn) (free p) ws (makes_free hp)
    idx input w d h1
  rwa [free_gram] at this

/-- C55: a promise `Q` about the values of each non-terminal that every callback keeps, in every world, is kept all the time, as in C48. -/
theorem c55_contract (o : Seeds) (ho : o.Fair) (rules : List (ERule S N T E)) (start : Nat) (hok : (gramE rules start).Ok)
    (p : EParser S N T E) (ws : List Warning) (hp : MakesE o rules start p ws) (idx : T → Nat) (input : List T)
    (hne : input ≠ [] ∨ (gramE rules start).NoError) (Q : Nat → N → Prop) (hQ : KeepsE idx Q rules) (s : S) :
    (∀ c s', MomentE idx p input s c s' → ∀ r args, (r, args) ∈ c.log → ∃ rule, rules[r]? = some rule ∧ ArgsFit idx Q rule.rhs args) ∧
    ∀ v c s', ParsesE idx p input s (.ok v) c s' → Q start v := by
  constructor
  · intro c s' h r args hm
    obtain ⟨rule, cs, h1, h2, h3, _⟩ := c55_calls o ho rules start hok p ws hp idx input hne s c s' h r args hm
    exact ⟨rule, h1, yields_fit hQ h3 h2⟩
  · intro v c s' h
    obtain ⟨f, h1, h2, _⟩ := c55_sound o ho rules start hok p ws hp idx input s v c s' h
    exact (yields_fit hQ h2 h1).2 0 _ _ rfl rfl

/-- The parse with effects does what going through the tree does. -/
def Plays (idx : T → Nat) (p : EParser S N T E) (rules : List (ERule S N T E)) (input : List T) (s : S) (f : Tree T) : Prop :=
  match f.play rules s with
  | (lg, .ok a s') => ∃ v c, a = .nt v ∧ ParsesE idx p input s (.ok v) c s' ∧ c.log.reverse = lg
  | (lg, .error e s') => ∃ c, ParsesE idx p input s (.error (.reducer e)) c s' ∧ c.log.reverse = lg
  | (lg, .panic s') => ∃ c, UnwindsE idx p input s c s' ∧ c.log.reverse = lg

/-- C55: without warnings, on a sentence `parse` calls the callbacks in the order of a derivation tree of the sentence, bottom-up and from
left to right, every one with the values of its children and with the world as the call before left it, until one of them returns an error
or panics, and returns the value, the error or the panic; the world is left as the last call left it. -/
theorem c55_complete (o : Seeds) (ho : o.Fair) (rules : List (ERule S N T E)) (start : Nat) (hok : (gramE rules start).Ok)
    (p : EParser S N T E) (hp : MakesE o rules start p []) (idx : T → Nat) (input : List T)
    (hs : (gramE rules start).Sentence (input.map idx)) :
    ∃ f, IsTree (rules.map ERule.plain) start idx input f ∧ ∀ s, Plays idx p rules input s f := by
  have hm := makes_free hp
  obtain ⟨f, d, h1, h2⟩ := c24_complete o ho (freeRules rules) start (by rw [free_gram]; exact hok) (free p) hm idx input
    (by rw [free_gram]; exact hs)
  have h1' := h1
  rw [freeRules_plain] at h1'
  refine ⟨f, h1', fun s => ?_⟩
  obtain ⟨w, h2, h3⟩ : ∃ w, Evals (freeRules rules) [f] d.log.reverse (.ok [.nt w]) ∧ ParsesTo idx (free p) input (.ok w) d := by
    rcases h2 with h2 | ⟨e, h2, _⟩
    · exact h2
    · exfalso
      have : ∀ (fs : List (Tree T)) lg (x : Except Unit (List (Arg (Shape T) T))), Evals (freeRules rules) fs lg x → ∃ as, x = .ok as := by
        intro fs lg x h
        induction h with
        | nil => exact ⟨_, rfl⟩
        | leaf => exact ⟨_, rfl⟩
        | leafE _ _ _ _ _ _ ih => exact ih
        | err => exact ⟨_, rfl⟩
        | errE _ _ _ _ _ _ ih => exact ih
        | node => exact ⟨_, rfl⟩
        | nodeE _ _ _ _ _ _ _ _ _ _ _ _ _ _ ih => obtain ⟨_, h⟩ := ih; cases h
        | fail r rule cs lg1 args e fs h1 h2 h3 =>
          simp only [freeRules, List.getElem?_mapIdx, Option.map_eq_some_iff] at h1
          obtain ⟨rule', _, rfl⟩ := h1
          cases h3
        | inner _ _ _ _ _ _ ih => obtain ⟨_, h⟩ := ih; cases h
      obtain ⟨_, h⟩ := this _ _ _ h2
      cases h
  obtain ⟨n, hn⟩ := h3
  -- there is one value on the stack at the end, and no error in it
  have hstack : ∃ q i, d.stack = [(q, .nt w i)] := by
    obtain ⟨fresh, hx⟩ := ctx_of_makes ho (by rw [free_gram]; exact hok) hm
    rcases Reach.run (idx := idx) hx (Reach.init (input := input)) n with ⟨c', k1, _⟩ | k1
    · rw [k1] at hn; cases hn
    · rw [hn] at k1
      cases k1 with
      | ok c v f lg k2 k3 k4 =>
        have hel := k2.seg.elems
        generalize hys : d.stack.reverse.map Prod.snd = ys at hel
        cases hel with
        | cons X y f l a us ys fs lg as k1 k2 =>
          cases k2
          cases k1
          rename_i i _ _
          rw [List.map_eq_singleton_iff] at hys
          obtain ⟨⟨q, y⟩, hq, hy⟩ := hys
          simp only at hy
          subst hy
          refine ⟨q, i, ?_⟩
          rw [← List.reverse_reverse d.stack, hq]
          rfl
  obtain ⟨q, i, hstack⟩ := hstack
  have hcl : ¬ DirtySt d.stack := by
    rw [hstack]
    rintro ⟨x, hx, hd⟩
    simp only [List.mem_singleton] at hx
    subst hx
    rcases hd with ⟨lo, hi, hd⟩ | ⟨r, as, i', hd, hd'⟩
    · cases hd
    · simp only [SSym.nt.injEq] at hd
      obtain ⟨rfl, _⟩ := hd
      exact h2.clean _ rfl (.nt r as _ (by simp) hd') h1.2.1
  -- follow the replay of the calls
  obtain ⟨calls, k1, k2⟩ := follow_replay hcl n ((pairE p).init input) s (by rw [init_free]; exact hn)
  have hcalls : calls = d.log.reverse := by
    rw [k1]; simp [EParser.init, Cfg.init, Cfg.map]
  subst hcalls
  obtain ⟨_, dummy, hpr⟩ := hp
  have k3 := play_replay (d := ⟨freshSym (rules.map ERule.plain), [.nt start], dummy⟩) h2 _ rfl [] [] s
  rw [List.append_nil, ← hpr] at k3
  have hst0 : (stVals ((pairE p).init input).stack).map Prod.fst = ([] : List N) := rfl
  rw [hst0] at k2
  have hlog0 : (((pairE p).init input).map Prod.fst id).log = [] := rfl
  unfold EndsAs at k2
  rw [hlog0] at k2
  unfold Plays
  have hplays : plays rules [f] s = match f.play rules s with
      | (lg, .error e s) => (lg, .error e s)
      | (lg, .panic s) => (lg, .panic s)
      | (lg, .ok a s) => (lg, .ok [a] s) := by
    simp only [plays]
    cases hp : f.play rules s with
    | mk lg x => cases x <;> simp
  rw [hplays] at k3
  have key : ∀ z, runE idx (pairE p) n ((pairE p).init input) s = z → runE idx p n (p.init input) s = z.map Prod.fst := by
    intro z hz
    rw [runE_pair, hz]
  cases hpl : f.play rules s with
  | mk lg x =>
    rw [hpl] at k3
    cases x with
    | error e s' =>
      simp only at k3 ⊢
      rw [k3] at k2
      obtain ⟨c', k4, k5⟩ := k2
      exact ⟨_, ⟨n, key _ k4⟩, by simpa using k5⟩
    | panic s' =>
      simp only at k3 ⊢
      rw [k3] at k2
      obtain ⟨c', k4, k5⟩ := k2
      exact ⟨_, ⟨n, key _ k4⟩, by simpa using k5⟩
    | ok a s' =>
      simp only [replay, List.append_nil] at k3 ⊢
      obtain ⟨k6, k7, k3⟩ := k3
      rw [k3] at k2
      obtain ⟨v, c', k4, k5, k8⟩ := k2
      have ha : a = .nt v := by
        -- the final stack
        have hm := runE_mimP (idx := idx) (pair_snd p) n ((pairE p).init input) s
        rw [init_free] at hm
        rcases hm with ⟨c1, s1, m1, m2⟩ | ⟨m, m0, c1, s1, m1, m2, m3, m4, m5⟩
        · rw [hn] at m2; cases m2
        · rw [k4] at m4
          simp only [EStep.MimP] at m4
          have hd : d = c'.map Prod.snd id := by
            obtain ⟨k, rfl⟩ : ∃ k, n = m + 1 + k := ⟨n - (m + 1), by omega⟩
            have : run idx (free p) (m + 1) (Cfg.init (free p) input) = .done (.ok w) (c'.map Prod.snd id) := by
              rw [run_add, m2]
              simp only [run, m4]
            rw [run_add, this] at hn
            cases hn
            rfl
          rw [hd] at hstack
          simp only [Cfg.map, mapSt, List.map_eq_singleton_iff, Prod.mk.injEq] at hstack
          obtain ⟨⟨q', y⟩, hstack, _, hy⟩ := hstack
          rw [hstack] at k8
          have htop : ∃ i, y = SSym.nt (v, w) i := by
            have hv := stepE_view (idx := idx) (p := pairE p) c1 s1
            rw [← m3, k4] at hv
            generalize fill idx c1 = d0 at hv
            generalize hz : (EStep.done (.ok (v, w)) c' s' : EStep S (N × Shape T) T E) = z at hv
            cases hv with
            | tok => cases hz
            | eoi => cases hz
            | panic => cases hz
            | accept q v i st h =>
              cases hz
              rw [hstack] at h
              cases h
              exact ⟨i, rfl⟩
            | error a i =>
              rcases onError_view (idx := idx) (p := (⟨[], (pairE p).tab⟩ : Parser (N × Shape T) T E)) (c := d0) (a := a) (i := i)
                with h' | h' | ⟨q, state, lo, hi, stack, buffer, recov, h', _⟩ <;> (rw [h'] at hz; cases hz)
            | reduce r =>
              have hv := onReduceE_view (p := pairE p) d0 s1 r
              rw [← hz] at hv
              generalize hz : (EStep.done (.ok (v, w)) c' s' : EStep S (N × Shape T) T E) = z at hv
              cases hv with
              | panic => cases hz
              | call rule args x k1 k2 k3 k4 =>
                cases hact : rule.act s1 args with
                | panic s' => rw [hact] at k4; simp only at k4; rw [k4] at hz; cases hz
                | error e s' => rw [hact] at k4; simp only at k4; rw [k4] at hz; cases hz
                | ok v s' =>
                  rw [hact] at k4
                  rcases k4 with k4 | ⟨q, q0, i, rec, k4⟩ <;> (rw [k4] at hz; cases hz)
          obtain ⟨i2, rfl⟩ := htop
          cases a with
          | nt v' =>
            simp [argVals, stVals, symVals] at k8
            rw [k8]
          | tok t => simp [argVals] at k7
          | err l => simp [argVals] at k7
      refine ⟨v, _, ha, ⟨n, key _ k4⟩, by simpa using k5⟩

/-- C55: if moreover the start symbol does not derive itself, there is only one derivation tree. -/
theorem c55_evaluation (o : Seeds) (ho : o.Fair) (rules : List (ERule S N T E)) (start : Nat) (hok : (gramE rules start).Ok)
    (p : EParser S N T E) (hp : MakesE o rules start p []) (hc : ¬ (gramE rules start).Cyclic) (idx : T → Nat) (input : List T)
    (f : Tree T) (hf : IsTree (rules.map ERule.plain) start idx input f) (s : S) : Plays idx p rules input s f := by
  obtain ⟨f', h1, h2⟩ := c55_complete o ho rules start hok p hp idx input (sentence_iff (g := gramE rules start) |>.2 ⟨f, hf⟩)
  have := c25_unambiguous o ho (gramE rules start) hok p.tab hp.1 hc idx input f f' hf h1
  rw [this]
  exact h2 s

/-- C55: a parse has only one outcome, so `Plays` says everything about it. -/
theorem c55_one_outcome (p : EParser S N T E) (idx : T → Nat) (input : List T) (s : S) :
    (∀ x c s1 x' c' s1', ParsesE idx p input s x c s1 → ParsesE idx p input s x' c' s1' → x = x' ∧ c = c' ∧ s1 = s1') ∧
    (∀ c s1 c' s1', UnwindsE idx p input s c s1 → UnwindsE idx p input s c' s1' → c = c' ∧ s1 = s1') ∧
    ∀ x c s1 c' s1', ParsesE idx p input s x c s1 → ¬ UnwindsE idx p input s c' s1' := by
  have key : ∀ n m, (∀ c t, runE idx p n (p.init input) s ≠ .more c t) → (∀ c t, runE idx p m (p.init input) s ≠ .more c t) →
      runE idx p n (p.init input) s = runE idx p m (p.init input) s := by
    intro n m h1 h2
    have e1 : runE idx p (n + m) (p.init input) s = runE idx p n (p.init input) s := by
      rw [runE_add]
      cases h : runE idx p n (p.init input) s with
      | more c t => exact absurd h (h1 c t)
      | done | unwind | panic => rfl
    have e2 : runE idx p (m + n) (p.init input) s = runE idx p m (p.init input) s := by
      rw [runE_add]
      cases h : runE idx p m (p.init input) s with
      | more c t => exact absurd h (h2 c t)
      | done | unwind | panic => rfl
    rw [← e1, Nat.add_comm, e2]
  refine ⟨?_, ?_, ?_⟩
  · rintro x c s1 x' c' s1' ⟨n, hn⟩ ⟨m, hm⟩
    have := key n m (by rw [hn]; simp) (by rw [hm]; simp)
    rw [hn, hm] at this
    cases this
    exact ⟨rfl, rfl, rfl⟩
  · rintro c s1 c' s1' ⟨n, hn⟩ ⟨m, hm⟩
    have := key n m (by rw [hn]; simp) (by rw [hm]; simp)
    rw [hn, hm] at this
    cases this
    exact ⟨rfl, rfl⟩
  · rintro x c s1 c' s1' ⟨n, hn⟩ ⟨m, hm⟩
    have := key n m (by rw [hn]; simp) (by rw [hm]; simp)
    rw [hn, hm] at this
    cases this

/-- C55: without warnings and error rules, a parse of something that is not a sentence ends, and never with a value. -/
theorem c55_rejects (o : Seeds) (ho : o.Fair) (rules : List (ERule S N T E)) (start : Nat) (hok : (gramE rules start).Ok)
    (hn : (gramE rules start).NoError) (hpr : (gramE rules start).Productive) (p : EParser S N T E) (hp : MakesE o rules start p [])
    (idx : T → Nat) (input : List T) (hs : ¬ (gramE rules start).Sentence (input.map idx)) (s : S) :
    (∃ c s', ParsesE idx p input s (.error .noRecovery) c s') ∨ (∃ e c s', ParsesE idx p input s (.error (.reducer e)) c s') ∨
    ∃ c s', UnwindsE idx p input s c s' := by
  obtain ⟨C, hC⟩ := c54_linear (gramE rules start) hok hn hpr
  obtain ⟨n, _, h⟩ := hC S N T E o ho rules rfl p hp idx input s
  cases hz : runE idx p n (p.init input) s with
  | more c s' => exact absurd hz (h c s')
  | panic => exact absurd ⟨n, hz⟩ (c54_no_panic o ho rules start hok p [] hp idx input (Or.inr hn) s)
  | unwind c s' => exact Or.inr (Or.inr ⟨c, s', n, hz⟩)
  | done x c s' =>
    cases x with
    | ok v => exact absurd (c55_sentence o ho rules start hok hn p [] hp idx input s v c s' ⟨n, hz⟩) hs
    | error e =>
      cases e with
      | noRecovery => exact Or.inl ⟨c, s', n, hz⟩
      | reducer e => exact Or.inr (Or.inl ⟨e, c, s', n, hz⟩)

/-! ## Examples -/

/-- The rules of `gRight`, with callbacks that take numbers from a counter outside.  The second one fails if it is given a five and panics if
it is given a seven. -/
def rCount : List (ERule Nat Nat Nat Nat) :=
  [⟨0, [.tm (.sym 0), .nt 0], fun s _ => .ok s (s + 1)⟩,
   ⟨0, [.tm (.sym 1)], fun s _ => if s = 5 then .error 55 6 else if s = 7 then .panic 8 else .ok s (s + 1)⟩]

def pCount : EParser Nat Nat Nat Nat := ⟨rCount ++ [⟨1, [.nt 0], fun s _ => .panic s⟩], tRight⟩

theorem pCount_makes : MakesE idSeeds rCount 0 pCount [] := ⟨gRight_new, _, rfl⟩

theorem pCount_ok : (gramE rCount 0).Ok := (by decide : gRight.Ok)

theorem pCount_noError : (gramE rCount 0).NoError := (by unfold Gram.NoError; decide : gRight.NoError)

def fCount : Tree Nat := .node 0 [.leaf 0 0, .node 1 [.leaf 1 1]]

theorem fCount_tree : IsTree (rCount.map ERule.plain) 0 id [0, 1] fCount :=
  ⟨.node 0 ⟨0, [.tm (.sym 0), .nt 0]⟩ _ [] [] rfl
    (.leaf 0 0 _ _ rfl (.node 1 ⟨0, [.tm (.sym 1)]⟩ _ [] [] rfl (.leaf 1 1 [] [] rfl .nil) .nil)) .nil, rfl, rfl⟩

-- c55_complete, c55_evaluation: on `a b` the callback of `S → b` is called first and that of `S → a S` second
example : Plays id pCount rCount [0, 1] 3 fCount := by
  refine c55_evaluation idSeeds idSeeds_fair rCount 0 pCount_ok pCount pCount_makes ?_ id [0, 1] fCount fCount_tree 3
  intro hc
  exact gRight_not_cyclic hc

example : fCount.play rCount 3 = ([(1, [.tok 1]), (0, [.tok 0, .nt 3])], .ok (.nt 4) 5) := rfl
example : fCount.play rCount 5 = ([(1, [.tok 1])], .error 55 6) := rfl
example : fCount.play rCount 7 = ([(1, [.tok 1])], .panic 8) := rfl
example : ∃ c, ParsesE id pCount [0, 1] 3 (.ok 4) c 5 := ⟨_, 10, rfl⟩
example : ∃ c, ParsesE id pCount [0, 1] 5 (.error (.reducer 55)) c 6 := ⟨_, 10, rfl⟩
example : ∃ c, UnwindsE id pCount [0, 1] 7 c 8 := ⟨_, 10, rfl⟩

-- c55_calls, c55_contract: a moment with two calls, and a promise that needs the world
example : ∃ c, MomentE id pCount [0, 1] 3 c 5 ∧ c.log = [(0, [.tok 0, .nt 3]), (1, [.tok 1])] := ⟨_, ⟨4, Or.inl rfl⟩, rfl⟩

/-- Callbacks that hand out even numbers only, whatever the counter says. -/
def rEven : List (ERule Nat Nat Nat Nat) :=
  [⟨0, [.tm (.sym 0), .nt 0], fun s args => match args with
    | [_, .nt v] => .ok (v + 2 * s) (s + 1)
    | _ => .panic s⟩,
   ⟨0, [.tm (.sym 1)], fun s _ => .ok (4 * s) (s + 1)⟩]

theorem rEven_keeps : KeepsE id (fun _ v => v % 2 = 0) rEven := by
  intro rule hr s args v s' hf ha
  simp only [rEven, List.mem_cons, List.not_mem_nil, or_false] at hr
  rcases hr with rfl | rfl
  · simp only at ha hf
    split at ha
    · rename_i v'
      cases ha
      have := hf.2 1 _ _ rfl rfl
      simp only [Arg.Fits] at this
      omega
    · cases ha
  · simp only at ha
    cases ha
    omega

def pEven : EParser Nat Nat Nat Nat := ⟨rEven ++ [⟨1, [.nt 0], fun s _ => .panic s⟩], tRight⟩

example : ∀ s v c s', ParsesE id pEven [0, 1] s (.ok v) c s' → v % 2 = 0 := fun s v c s' h =>
  (c55_contract idSeeds idSeeds_fair rEven 0 (by decide : gRight.Ok) pEven [] ⟨gRight_new, _, rfl⟩ id [0, 1] (Or.inl (by simp)) _ rEven_keeps s).2
    v c s' h

-- c54_course, c54_world: other callbacks and other worlds, the same course; the calls lead from the one world to the other
example : pEven.tab = pCount.tab ∧ pEven.rules.map ERule.plain = pCount.rules.map ERule.plain := ⟨rfl, rfl⟩
example : (runE id pCount 4 (pCount.init [0, 1]) 3).seen ≠ .failed ∧ (runE id pEven 4 (pEven.init [0, 1]) 9).seen ≠ .failed :=
  ⟨nofun, nofun⟩
example : Returns rCount [(1, [.tok 1]), (0, [.tok 0, .nt 3])] 3 5 :=
  .call 1 _ _ 3 _ _ 4 _ rfl rfl (.call 0 _ _ 4 _ _ 5 _ rfl rfl (.nil 5))

-- c54_ends, c54_linear
example : pRight.tab = pCount.tab ∧ pRight.rules.map Rule.plain = pCount.rules.map ERule.plain := ⟨rfl, rfl⟩
example : gramE rCount gRight.start = gRight := rfl

-- c55_rejects: `b b` is not a sentence
example : (gramE rCount 0).Productive := gRight_productive
example : ∃ c, ParsesE id pCount [1, 1] 3 (.error .noRecovery) c 3 := ⟨_, 10, rfl⟩

end Verif.Par
