import Verif.Par.EffectsPlay
import Verif.Par.Contract
import Verif.Par.ContractProof
import Verif.Props.ParReject
import Verif.Props.ParLinear

/-!
# Properties C54, C55: callbacks with side effects, and callbacks that panic
-/

namespace Verif.Par

variable {S N T E : Type}

/-! ## Helper lemmas -/

theorem init_pair {N' : Type} (φ : N → N') {p : EParser S N T E} {p' : EParser S N' T E} (h : p'.tab = p.tab) (input : List T) :
    (p.init input).map φ id = p'.init input := by
  simp [EParser.init, Cfg.init, Cfg.map, mapSt, h]

theorem init_free (p : EParser S N T E) (input : List T) : ((pairE p).init input).map Prod.snd id = Cfg.init (free p) input := by
  simp [EParser.init, Cfg.init, Cfg.map, mapSt, free, pairE]

theorem runE_pair (p : EParser S N T E) (idx : T → Nat) (n : Nat) (input : List T) (s : S) :
    runE idx p n (p.init input) s = (runE idx (pairE p) n ((pairE p).init input) s).map Prod.fst := by
  rw [← runE_map (pair_fst p), init_pair Prod.fst (p' := p) rfl]

/-- A round with effects after rounds with effects is one without after rounds without. -/
theorem run_of_pair {p : EParser S N T E} {idx : T → Nat} {input : List T} {s : S} (n : Nat) :
    (∃ c' s', runE idx (pairE p) n ((pairE p).init input) s = .more c' s' ∧
      run idx (free p) n (Cfg.init (free p) input) = .more (c'.map Prod.snd id)) ∨
    (∃ (m : Nat) (c' : Cfg (N × Shape T) T), run idx (free p) m (Cfg.init (free p) input) = .more (c'.map Prod.snd id) ∧
      (runE idx (pairE p) n ((pairE p).init input) s).MimP Prod.snd (run idx (free p) (m + 1) (Cfg.init (free p) input)) ∧
      m < n ∧ (∀ c2 s2, runE idx (pairE p) n ((pairE p).init input) s ≠ .more c2 s2)) := by
  have h := runE_mimP (idx := idx) (pair_snd p) n ((pairE p).init input) s
  rw [init_free] at h
  rcases h with ⟨c', s', h1, h2⟩ | ⟨m, h0, c', s', h1, h2, h3, h4, h5⟩
  · exact Or.inl ⟨c', s', h1, h2⟩
  · refine Or.inr ⟨m, c', h2, ?_, h0, h5⟩
    rw [run_add, h2]
    simp only [run]
    cases hs : step idx (free p) (c'.map Prod.snd id) <;> simp only <;> rw [hs] at h4 <;> exact h4

theorem runE_add {p : EParser S N T E} {idx : T → Nat} (m n : Nat) (c : Cfg N T) (s : S) : runE idx p (m + n) c s =
    match runE idx p m c s with
    | .more c' s' => runE idx p n c' s'
    | r => r := by
  induction m generalizing c s with
  | zero => simp [runE]
  | succ m ih =>
    rw [Nat.succ_add]
    simp only [runE]
    cases stepE idx p c s with
    | more c' s' => exact ih c' s'
    | done r c' s' => rfl
    | unwind c' s' => rfl
    | panic => rfl

/-! ## C54 -/

/-- What can be seen of a call without the values: the rule number, tokens and error slices. -/
def Call.bare {A : Type} (x : Call A T) : Call Unit T := (x.1, x.2.map (Arg.map (fun _ => ()) id))

/-- What can be seen of a parse without the values: how many tokens were pulled and which calls were made so far, and how it ended. -/
inductive Seen (T : Type) where
  | running (pulls : Nat) (calls : List (Call Unit T))
  | value (pulls : Nat) (calls : List (Call Unit T))
  | noRecovery (pulls : Nat) (calls : List (Call Unit T))
  | failed
  | panic

/-- `failed` is a callback that returned an error or panicked. -/
def EStep.seen : EStep S N T E → Seen T
  | .more c _ => .running c.pulls (c.log.map Call.bare)
  | .done (.ok _) c _ => .value c.pulls (c.log.map Call.bare)
  | .done (.error .noRecovery) c _ => .noRecovery c.pulls (c.log.map Call.bare)
  | .done (.error (.reducer _)) _ _ => .failed
  | .unwind _ _ => .failed
  | .panic => .panic

def Step.seen : Step N T E → Seen T
  | .more c => .running c.pulls (c.log.map Call.bare)
  | .done (.ok _) c => .value c.pulls (c.log.map Call.bare)
  | .done (.error .noRecovery) c => .noRecovery c.pulls (c.log.map Call.bare)
  | .done (.error (.reducer _)) _ => .failed
  | .panic => .panic

theorem bare_map {A B : Type} (φ : A → B) (l : List (Call A T)) :
    (l.map (fun x => (x.1, x.2.map (Arg.map φ id)))).map Call.bare = l.map Call.bare := by
  rw [List.map_map]
  apply List.map_congr_left
  rintro ⟨r, args⟩ _
  simp only [Function.comp, Call.bare, List.map_map, Prod.mk.injEq, true_and]
  apply List.map_congr_left
  intro a _
  cases a <;> simp [Arg.map]

theorem EStep.MimP.seen {N' E' : Type} {φ : N → N'} {z : EStep S N T E} {y : Step N' T E'} (h : z.MimP φ y) (hf : z.seen ≠ .failed) :
    z.seen = y.seen := by
  cases z with
  | more c s => simp only [EStep.MimP] at h; subst h; simp only [EStep.seen, Step.seen, Cfg.map, bare_map]
  | panic => simp only [EStep.MimP] at h; subst h; rfl
  | unwind c s => exact absurd rfl hf
  | done x c s =>
    cases x with
    | ok v => simp only [EStep.MimP] at h; subst h; simp only [EStep.seen, Step.seen, Cfg.map, bare_map]
    | error e =>
      cases e with
      | noRecovery => simp only [EStep.MimP] at h; subst h; simp only [EStep.seen, Step.seen, Cfg.map, bare_map]
      | reducer e => exact absurd rfl hf

theorem EStep.seen_map {N' : Type} (φ : N → N') (z : EStep S N T E) : (z.map φ).seen = z.seen := by
  cases z with
  | more c s => simp only [EStep.map, EStep.seen, Cfg.map, bare_map]
  | panic => rfl
  | unwind c s => rfl
  | done x c s =>
    cases x with
    | ok v => simp only [EStep.map, EStep.seen, Cfg.map, bare_map]
    | error e => cases e <;> simp only [EStep.map, EStep.seen, Cfg.map, bare_map]

/-- A run that has not failed in a callback looks like the run without effects. -/
theorem seen_free (p : EParser S N T E) (idx : T → Nat) (input : List T) (s : S) (n : Nat)
    (hf : (runE idx p n (p.init input) s).seen ≠ .failed) :
    (runE idx p n (p.init input) s).seen = (run idx (free p) n (Cfg.init (free p) input)).seen := by
  rw [runE_pair, EStep.seen_map] at hf ⊢
  rcases run_of_pair (p := p) (idx := idx) (input := input) (s := s) n with ⟨c', s', h1, h2⟩ | ⟨m, c', h1, h2, h3, h4⟩
  · rw [h1, h2]
    simp only [EStep.seen, Step.seen, Cfg.map, bare_map]
  · rw [h2.seen hf]
    obtain ⟨k, rfl⟩ : ∃ k, n = m + 1 + k := ⟨n - (m + 1), by omega⟩
    rw [run_add (m + 1) k]
    cases hz : run idx (free p) (m + 1) (Cfg.init (free p) input) with
    | done x d => rfl
    | panic => rfl
    | more d =>
      exfalso
      rw [hz] at h2
      have := h2.seen hf
      cases hy : runE idx (pairE p) (m + 1 + k) ((pairE p).init input) s with
      | more c2 s2 => exact h4 c2 s2 hy
      | unwind c2 s2 => rw [hy] at hf; exact hf rfl
      | panic => rw [hy] at this; cases this
      | done x c2 s2 =>
        rw [hy] at this hf
        cases x with
        | ok v => cases this
        | error e =>
          cases e with
          | noRecovery => cases this
          | reducer e => exact hf rfl

theorem free_congr {S' N' E' : Type} {p : EParser S N T E} {p' : EParser S' N' T E'} (ht : p'.tab = p.tab)
    (hr : p'.rules.map ERule.plain = p.rules.map ERule.plain) : free p' = free p := by
  simp only [free, ht]
  congr 1
  apply List.ext_getElem?
  intro i
  have := congrArg (fun l => l[i]?) hr
  simp only [List.getElem?_map] at this
  simp only [freeRules, List.getElem?_mapIdx]
  cases h1 : p.rules[i]? with
  | none =>
    rw [h1] at this
    cases h2 : p'.rules[i]? with
    | none => rfl
    | some r' => rw [h2] at this; cases this
  | some r =>
    rw [h1] at this
    cases h2 : p'.rules[i]? with
    | none => rw [h2] at this; cases this
    | some r' =>
      rw [h2] at this
      simp only [Option.map_some, ERule.plain, Option.some.injEq, PRule.mk.injEq] at this
      simp only [Option.map_some, this.1, this.2]

/-- C54: the callbacks cannot change the course of a parse.  Two parsers with the same rules and tables, but with different callbacks,
other values and other side effects, look the same after every number of rounds, unless a callback fails in one of them: they have
pulled as many tokens and made the same calls with the same tokens, and they end at the same time, and in the same way. -/
theorem c54_course {S' N' E' : Type} (p : EParser S N T E) (p' : EParser S' N' T E') (ht : p'.tab = p.tab)
    (hr : p'.rules.map ERule.plain = p.rules.map ERule.plain) (idx : T → Nat) (input : List T) (s : S) (s' : S') (n : Nat)
    (h : (runE idx p n (p.init input) s).seen ≠ .failed) (h' : (runE idx p' n (p'.init input) s').seen ≠ .failed) :
    (runE idx p' n (p'.init input) s').seen = (runE idx p n (p.init input) s).seen := by
  rw [seen_free p idx input s n h, seen_free p' idx input s' n h', free_congr ht hr]

/-- The callback of a rule without effects. -/
def Rule.lift (S : Type) (r : Rule N T E) : ERule S N T E :=
  ⟨r.lhs, r.rhs, fun s args => match r.gen args with
    | .ok v => .ok v s
    | .error e => .error e s⟩

/-- C54: with callbacks that neither have effects nor panic this is the parser of C20 to C53. -/
theorem c54_pure (p : Parser N T E) (idx : T → Nat) (input : List T) (s : S) (n : Nat) :
    runE idx (⟨p.rules.map (Rule.lift S), p.tab⟩ : EParser S N T E) n (EParser.init ⟨p.rules.map (Rule.lift S), p.tab⟩ input) s =
      (run idx p n (Cfg.init p input)).still s := by
  have hstep : ∀ c : Cfg N T, stepE idx (⟨p.rules.map (Rule.lift S), p.tab⟩ : EParser S N T E) c s = (step idx p c).still s := by
    intro c
    unfold stepE step
    generalize fill idx c = d
    simp only
    cases d.buffer with
    | nil => rfl
    | cons ai buffer =>
      obtain ⟨a, i⟩ := ai
      simp only
      cases get d.state p.tab.action with
      | none => rfl
      | some acts =>
        simp only
        cases get a acts with
        | none => rfl
        | some act =>
          cases act with
          | shift q => cases a <;> rfl
          | accept =>
            simp only
            cases d.stack with
            | nil => rfl
            | cons sy st =>
              obtain ⟨q, y⟩ := sy
              cases y <;> rfl
          | reduce r =>
            simp only [onReduceE, onReduce, List.getElem?_map]
            cases p.rules[r]? with
            | none => rfl
            | some rule =>
              simp only [Option.map_some, Rule.lift]
              split
              · rfl
              · cases mkArgs d.read 0 ((d.stack.take rule.rhs.length).reverse.map Prod.snd) with
                | none => rfl
                | some args =>
                  simp only
                  cases rule.gen args with
                  | error e => rfl
                  | ok v =>
                    simp only
                    cases (get _ p.tab.goto).bind (get rule.lhs) <;> rfl
  have : ∀ (n : Nat) (c : Cfg N T), runE idx (⟨p.rules.map (Rule.lift S), p.tab⟩ : EParser S N T E) n c s = (run idx p n c).still s := by
    intro n
    induction n with
    | zero => intro c; rfl
    | succ n ih =>
      intro c
      simp only [runE, run, hstep]
      cases step idx p c with
      | more c' => exact ih c'
      | done x c' => rfl
      | panic => rfl
  exact this n _

theorem Returns.snoc {rules : List (ERule S N T E)} {l : List (Call N T)} {s s1 s2 : S} {r rule args v} (h : Returns rules l s s1)
    (hr : rules[r]? = some rule) (ha : rule.act s1 args = .ok v s2) : Returns rules (l ++ [(r, args)]) s s2 := by
  induction h with
  | nil s => exact .call r rule args v [] s s2 s2 hr ha (.nil _)
  | call r' rule' args' v' l s s1' s2' h1 h2 _ ih => exact .call r' rule' args' v' _ s s1' _ h1 h2 (ih ha)

/-- What the calls so far did to the world outside. -/
def EStep.World (rules : List (ERule S N T E)) (s0 : S) : EStep S N T E → Prop
  | .more c s => Returns rules c.log.reverse s0 s
  | .done (.ok _) c s => Returns rules c.log.reverse s0 s
  | .done (.error .noRecovery) c s => Returns rules c.log.reverse s0 s
  | .done (.error (.reducer e)) c s => ∃ r rule args l s1, c.log.reverse = l ++ [(r, args)] ∧ Returns rules l s0 s1 ∧
      rules[r]? = some rule ∧ rule.act s1 args = .error e s
  | .unwind c s => ∃ r rule args l s1, c.log.reverse = l ++ [(r, args)] ∧ Returns rules l s0 s1 ∧
      rules[r]? = some rule ∧ rule.act s1 args = .panic s
  | .panic => True

/-- C54: the world outside is only touched by the calls, one after the other in the order in which they are logged: every call finds the
world as the one before left it.  All calls but the last returned a value; if the last one returned an error or panicked then `parse` ends
with this error or panic, without a further call. -/
theorem c54_world (p : EParser S N T E) (idx : T → Nat) (input : List T) (s : S) (n : Nat) :
    (runE idx p n (p.init input) s).World p.rules s := by
  have hstep : ∀ (c : Cfg N T) (t : S), Returns p.rules c.log.reverse s t → (stepE idx p c t).World p.rules s := by
    intro c t h
    have hv := stepE_view (idx := idx) (p := p) c t
    rw [← (fill_stack (idx := idx) c).2] at h
    generalize fill idx c = d at hv h
    revert hv
    generalize stepE idx p c t = z
    intro hv
    cases hv with
    | tok => exact h
    | eoi => exact h
    | accept => exact h
    | panic => trivial
    | error a i =>
      rcases onError_view (idx := idx) (p := (⟨[], p.tab⟩ : Parser N T E)) (c := d) (a := a) (i := i)
        with h' | h' | ⟨q, state, lo, hi, stack, buffer, recov, h', hs⟩
      · rw [h']; trivial
      · rw [h']; exact h
      · rw [h']; exact h
    | reduce r =>
      have hv := onReduceE_view (p := p) d t r
      revert hv
      generalize onReduceE p d t r = z
      intro hv
      cases hv with
      | panic => trivial
      | call rule args x k1 k2 k3 k4 =>
        cases hact : rule.act t args with
        | panic s' => rw [hact] at k4; simp only at k4; subst k4; exact ⟨r, rule, args, _, t, by simp, h, k1, hact⟩
        | error e s' => rw [hact] at k4; simp only at k4; subst k4; exact ⟨r, rule, args, _, t, by simp, h, k1, hact⟩
        | ok v s' =>
          rw [hact] at k4
          rcases k4 with rfl | ⟨q, q0, i, rec, rfl⟩
          · trivial
          · simp only [EStep.World, List.reverse_cons]
            exact h.snoc k1 hact
  have : ∀ (n : Nat) (c : Cfg N T) (t : S), Returns p.rules c.log.reverse s t → (runE idx p n c t).World p.rules s := by
    intro n
    induction n with
    | zero => intro c t h; exact h
    | succ n ih =>
      intro c t h
      have := hstep c t h
      simp only [runE]
      cases hz : stepE idx p c t with
      | more c' t' => rw [hz] at this; exact ih c' t' this
      | done x c' t' => rw [hz] at this; exact this
      | unwind c' t' => rw [hz] at this; exact this
      | panic => trivial
  exact this n _ s (.nil s)

/-- C54: `parse` itself does not panic, whatever the callbacks do. -/
theorem c54_no_panic (o : Seeds) (ho : o.Fair) (rules : List (ERule S N T E)) (start : Nat) (hok : (gramE rules start).Ok)
    (p : EParser S N T E) (ws : List Warning) (hp : MakesE o rules start p ws) (idx : T → Nat) (input : List T)
    (h : input ≠ [] ∨ (gramE rules start).NoError) (s : S) : ¬ PanicsE idx p input s := by
  rintro ⟨n, hn⟩
  refine c29_no_panic o ho (freeRules rules) start (by rw [free_gram]; exact hok) (free p) ws (makes_free hp) idx input
    (by rw [free_gram]; exact h) ⟨n, ?_⟩
  have := seen_free p idx input s n (by rw [hn]; simp [EStep.seen])
  rw [hn] at this
  cases hz : run idx (free p) n (Cfg.init (free p) input) with
  | panic => rfl
  | more c => rw [hz] at this; cases this
  | done x c => rw [hz] at this; cases x with
    | ok v => cases this
    | error e => cases e <;> cases this

/-- C54: a parse with effects ends whenever one with other callbacks, without effects, that never fail ends, and at the latest then. -/
theorem c54_ends {N' E' : Type} (p : EParser S N T E) (q : Parser N' T E') (ht : q.tab = p.tab)
    (hr : q.rules.map Rule.plain = p.rules.map ERule.plain) (hq : ∀ r ∈ q.rules, ∀ l, ∃ v, r.gen l = .ok v) (idx : T → Nat) (input : List T)
    (n : Nat) (h : ∀ c, run idx q n (Cfg.init q input) ≠ .more c) (s : S) (c : Cfg N T) (s' : S) :
    runE idx p n (p.init input) s ≠ .more c s' := by
  intro hc
  have h1 := c54_course p (⟨q.rules.map (Rule.lift S), q.tab⟩ : EParser S N' T E') ht
    (by rw [List.map_map, ← hr]; rfl) idx input s s n (by rw [hc]; simp [EStep.seen])
  rw [c54_pure, hc] at h1
  cases hz : run idx q n (Cfg.init q input) with
  | more c' => exact h c' hz
  | panic => rw [hz] at h1; cases h1 (by simp [Step.still, EStep.seen])
  | done x c' =>
    cases x with
    | ok v => rw [hz] at h1; cases h1 (by simp [Step.still, EStep.seen])
    | error e =>
      cases e with
      | noRecovery => rw [hz] at h1; cases h1 (by simp [Step.still, EStep.seen])
      | reducer e =>
        obtain ⟨m, c1, hm1, hm2⟩ : ∃ m c1, run idx q m (Cfg.init q input) = .more c1 ∧ step idx q c1 = .done (.error (.reducer e)) c' := by
          clear h h1 hc
          generalize Cfg.init q input = c0 at hz
          induction n generalizing c0 with
          | zero => cases hz
          | succ n ih =>
            simp only [run] at hz
            cases hs : step idx q c0 with
            | more c1 =>
              rw [hs] at hz
              obtain ⟨m, c2, k1, k2⟩ := ih c1 hz
              exact ⟨m + 1, c2, by simp only [run, hs]; exact k1, k2⟩
            | panic => rw [hs] at hz; cases hz
            | done x c1 => rw [hs] at hz; exact ⟨0, c0, rfl, by rw [hs]; exact hz⟩
        clear hz hm1
        unfold step at hm2
        generalize fill idx c1 = d at hm2
        simp only at hm2
        repeat' split at hm2
        all_goals first
          | (cases hm2; done)
          | skip
        · unfold onReduce at hm2
          split at hm2
          · cases hm2
          · rename_i rule hrule
            split at hm2
            · cases hm2
            · simp only at hm2
              split at hm2
              · cases hm2
              · rename_i args _
                obtain ⟨v, hv⟩ := hq rule (List.mem_of_getElem? hrule) args
                rw [hv] at hm2
                simp only at hm2
                split at hm2 <;> cases hm2
        · exact onError_no_call hm2

/-- C54: linear time with side effects.  For every grammar without error rules, in which every non-terminal that can be reached derives some
token string, there is a constant `C` such that every parser made from it without warnings ends after at most `C * (n + 1)` rounds on every
input of `n` tokens, whatever the callbacks do. -/
theorem c54_linear (g : Gram) (hok : g.Ok) (hn : g.NoError) (hp : g.Productive) :
    ∃ C, ∀ (S N T E : Type) (o : Seeds) (_ : o.Fair) (rules : List (ERule S N T E)) (_ : gramE rules g.start = g) (p : EParser S N T E)
      (_ : MakesE o rules g.start p []) (idx : T → Nat) (input : List T) (s : S),
      ∃ n, n ≤ C * (input.length + 1) ∧ ∀ c s', runE idx p n (p.init input) s ≠ .more c s' := by
  obtain ⟨C, hC⟩ := c52_linear g hok hn hp
  refine ⟨C, ?_⟩
  intro S N T E o ho rules hr p hm idx input s
  obtain ⟨n, x, c, h1, h2, _⟩ := hC (Shape T) T Unit o ho (freeRules rules) (by rw [free_gram]; exact hr) (free p) (makes_free hm) idx input
  refine ⟨n, h1, ?_⟩
  intro c' s' h
  have := seen_free p idx input s n (by rw [h]; simp [EStep.seen])
  rw [h, h2] at this
  cases x with
  | ok v => cases this
  | error e => cases e <;> cases this

end Verif.Par
