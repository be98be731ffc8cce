import Verif.Par.BisimProof
import Verif.Props.ParReject

/-!
# Hash seeds and endless error recovery: C32, C35, C38
-/

namespace Verif.Par

variable {N T E : Type}

/-! ## C32 -/

/-- C32: parsers built from the same rules under different iteration orders of the hash maps behave the same on every
input: same result, same calls of callbacks with the same arguments in the same order, same number of pulls; the same
panics and endless runs. -/
theorem c32_same_outcome (o o' : Seeds) (ho : o.Fair) (ho' : o'.Fair) (rules : List (Rule N T E)) (start : Nat)
    (hok : (gram rules start).Ok) (p p' : Parser N T E) (ws ws' : List Warning) (hp : MakesParser o rules start p ws)
    (hp' : MakesParser o' rules start p' ws') (idx : T → Nat) (input : List T) :
    (∀ x l n, (∃ c, ParsesTo idx p input x c ∧ c.log = l ∧ c.pulls = n) ↔ ∃ c, ParsesTo idx p' input x c ∧ c.log = l ∧ c.pulls = n) ∧
    (ParsePanics idx p input ↔ ParsePanics idx p' input) ∧ (ParseDiverges idx p input ↔ ParseDiverges idx p' input) := by
  have key : ∀ {o o' : Seeds} {p p' : Parser N T E} {ws ws' : List Warning}, o.Fair → o'.Fair → MakesParser o rules start p ws →
      MakesParser o' rules start p' ws' → (∀ x l n, (∃ c, ParsesTo idx p input x c ∧ c.log = l ∧ c.pulls = n) →
        ∃ c, ParsesTo idx p' input x c ∧ c.log = l ∧ c.pulls = n) ∧
      (ParsePanics idx p input → ParsePanics idx p' input) ∧ (ParseDiverges idx p input → ParseDiverges idx p' input) := by
    intro o o' p p' ws ws' ho ho' hp hp'
    obtain ⟨⟨fuel, hp1, _⟩, d, hp2⟩ := hp
    obtain ⟨⟨fuel', hp1', _⟩, d', hp2'⟩ := hp'
    have ha := ((new_spec ho hok fuel).1 _ _ hp1).1
    have hb := ((new_spec ho' hok fuel').1 _ _ hp1').1
    obtain ⟨h1, h2, h3⟩ := same_outcome (p := p) (p' := p') ha hb (by
      intro r rule hr hs
      have hl := (List.getElem?_eq_some_iff.1 hr).1
      rw [rules'_length] at hl
      have : r < rules.length := by
        simp only [gram, List.length_map] at hl hs
        omega
      rw [hp2, hp2', List.getElem?_append_left this, List.getElem?_append_left this]) idx input
    refine ⟨?_, h2, h3⟩
    rintro x l n ⟨c, k1, k2, k3⟩
    obtain ⟨c', k4, k5, k6⟩ := h1 x c k1
    exact ⟨c', k4, k5.trans k2, k6.trans k3⟩
  have h1 := key ho ho' hp hp'
  have h2 := key ho' ho hp' hp
  exact ⟨fun x l n => ⟨h1.1 x l n, h2.1 x l n⟩, ⟨h1.2.1, h2.2.1⟩, ⟨h1.2.2, h2.2.2⟩⟩

/-- C32: the warnings are the same for all iteration orders of the hash maps up to their order, each as often. -/
theorem c32_warnings_perm (o o' : Seeds) (ho : o.Fair) (ho' : o'.Fair) (g : Gram) (hg : g.Ok) (T T' : Tables) (ws ws' : List Warning)
    (h : NewGives o g (.ok (T, ws))) (h' : NewGives o' g (.ok (T', ws'))) : ws.Perm ws' := by
  obtain ⟨f, h, _⟩ := h
  obtain ⟨f', h', _⟩ := h'
  exact (new_one_each ho hg h).perm (new_one_each ho' hg h')

/-- C32: whether `new` panics, and which warnings it gives, does not depend on the iteration order of the hash maps. -/
theorem c32_same_warnings (o o' : Seeds) (ho : o.Fair) (ho' : o'.Fair) (g : Gram) (hg : g.Ok) :
    (NewGives o g .panic ↔ NewGives o' g .panic) ∧
    ∀ T ws T' ws', NewGives o g (.ok (T, ws)) → NewGives o' g (.ok (T', ws')) → ∀ w, w ∈ ws ↔ w ∈ ws' := by
  refine ⟨?_, ?_⟩
  · have key : ∀ {o o' : Seeds}, o.Fair → o'.Fair → NewGives o g .panic → NewGives o' g .panic := by
      rintro o o' ho ho' ⟨f, h, _⟩
      obtain ⟨r, ⟨f', h1, h2⟩, _⟩ := c20_new_terminates o' ho' g hg
      cases r with
      | fuel => exact absurd rfl h2
      | panic => exact ⟨f', h1, h2⟩
      | ok x => exact absurd ((new_spec ho hg f).2.1 h) ((new_spec ho' hg f').1 _ _ h1).2.2
    exact ⟨key ho ho', key ho' ho⟩
  · rintro T ws T' ws' ⟨f, h, _⟩ ⟨f', h', _⟩ w
    have h1 := ((new_spec ho hg f).1 _ _ h).2.1
    have h2 := ((new_spec ho' hg f').1 _ _ h').2.1
    cases w with
    | shiftReduce S S' r => rw [h1.shiftReduce, h2.shiftReduce]
    | reduceReduce S r r' => rw [h1.reduceReduce, h2.reduceReduce]

/-- Iteration against the order of the list. -/
def revSeeds : Seeds := ⟨fun _ l => l.reverse, List.reverse, List.reverse⟩

theorem revSeeds_fair : revSeeds.Fair := ⟨fun _ l => l.reverse_perm, fun l => l.reverse_perm, fun l => l.reverse_perm⟩

/-- The parser of `gOver` under another iteration order: the states have other numbers. -/
def pOver' : Parser Nat Nat Nat :=
  ⟨plainRules gOver ++ [⟨1, [.nt 0], fun _ => .error 0⟩],
   { action := [(0, [(.eoi, .reduce 0)]), (1, [(.eoi, .reduce 1)]), (2, [(.sym 2, .shift 0)]), (3, [(.sym 3, .shift 1)]),
       (4, [(.sym 1, .shift 2)]), (5, [(.sym 1, .shift 3)]), (6, [(.eoi, .accept)]), (7, [(.sym 0, .shift 4), (.err, .shift 5)])]
     goto := [(7, [(0, 6)])]
     errors := [(7, [1])]
     start := 7 }⟩

example : MakesParser revSeeds (plainRules gOver) 0 pOver' [] ∧ MakesParser idSeeds (plainRules gOver) 0 pOver [] ∧
    pOver'.tab ≠ pOver.tab ∧ (gram (plainRules gOver) 0).Ok :=
  ⟨⟨⟨10, by decide, by simp⟩, _, rfl⟩, pOver_makes, by decide, by decide⟩

/-! ## C35 -/

/-- `A → error A | x` -/
def gSpin : Gram := ⟨[⟨0, [.tm .err, .nt 0]⟩, ⟨0, [.tm (.sym 0)]⟩], 0⟩

def pSpin : Parser Nat Nat Nat :=
  ⟨plainRules gSpin ++ [⟨1, [.nt 0], fun _ => .error 0⟩],
   { action := [(0, [(.err, .shift 1), (.sym 0, .shift 2)]), (1, [(.err, .shift 1), (.sym 0, .shift 2)]), (2, [(.eoi, .reduce 1)]),
       (3, [(.eoi, .accept)]), (4, [(.eoi, .reduce 0)])]
     goto := [(0, [(0, 3)]), (1, [(0, 4)])]
     errors := [(0, [0]), (1, [0])]
     start := 0 }⟩

theorem pSpin_makes : MakesParser idSeeds (plainRules gSpin) 0 pSpin [] := ⟨⟨10, by decide, by simp⟩, _, rfl⟩

/-- A run that keeps an invariant never ends. -/
theorem diverges_of {idx : T → Nat} {p : Parser N T E} {input : List T} (I : Cfg N T → Prop) (h0 : I (Cfg.init p input))
    (hs : ∀ c, I c → ∃ c', step idx p c = .more c' ∧ I c') : ParseDiverges idx p input := by
  have key : ∀ n c, I c → ∃ c', run idx p n c = .more c' := by
    intro n
    induction n with
    | zero => intro c _; exact ⟨c, rfl⟩
    | succ n ih =>
      intro c hc
      obtain ⟨c', h1, h2⟩ := hs c hc
      simp only [run, h1]
      exact ih c' h2
  exact fun n => key n _ h0

/-- C35: error recovery need not terminate, although there are no warnings: with the rules `A → error A | x`, `parse` runs
for ever (pushing `error`s) on every input whose first token is not `x`. -/
theorem c35_recovery_diverges : MakesParser idSeeds (plainRules gSpin) 0 pSpin [] ∧
    ∀ t rest, t ≠ 0 → ParseDiverges id pSpin (t :: rest) := by
  refine ⟨pSpin_makes, fun t rest ht => ?_⟩
  refine diverges_of (fun c => (c.state = 0 ∨ c.state = 1) ∧ (c.recov = [] ∨ c.recov = [0]) ∧
    ((c.buffer = [] ∧ c.src = t :: rest ∧ c.read = []) ∨ (c.buffer = [(.sym t, 0)] ∧ c.src = rest ∧ c.read = [t])))
    ⟨Or.inl rfl, Or.inl rfl, Or.inl ⟨rfl, rfl, rfl⟩⟩ ?_
  rintro ⟨state, read, src, buffer, stack, recov, log, pulls⟩ ⟨h1, h2, h3⟩
  have h0 : (Term.sym 0 == Term.sym t) = false := by simp; omega
  have hb : ∀ stack : List (Nat × SSym Nat), ∀ state recov i, (state = 0 ∨ state = 1) → (recov = [] ∨ recov = [0]) →
      recover pSpin.tab.errors (Term.sym t == Term.eoi) recov stack state i i false = some (state, stack, [0], i, i, false) := by
    rintro stack state recov i (rfl | rfl) (rfl | rfl) <;> cases stack <;> rfl
  have ha : ∀ state, (state = 0 ∨ state = 1) → get state pSpin.tab.action = some [(.err, .shift 1), (.sym 0, .shift 2)] := by
    rintro state (rfl | rfl) <;> rfl
  have hg : get (Term.sym t) [(Term.err, Action.shift 1), (Term.sym 0, Action.shift 2)] = none := by
    simp [get]; omega
  simp only at h1 h2 h3
  rcases h3 with ⟨rfl, rfl, rfl⟩ | ⟨rfl, rfl, rfl⟩
  · refine ⟨⟨1, [t], rest, [(.sym t, 0)], (state, .err 0 0) :: stack, [0], log, pulls + 1⟩, ?_, Or.inr rfl, Or.inr rfl, Or.inr ⟨rfl, rfl, rfl⟩⟩
    simp [step, fill, ha _ h1, hg, onError, hb _ _ _ _ h1 h2, repush, allSome]
    rfl
  · refine ⟨⟨1, [t], src, [(.sym t, 0)], (state, .err 0 0) :: stack, [0], log, pulls⟩, ?_, Or.inr rfl, Or.inr rfl, Or.inr ⟨rfl, rfl, rfl⟩⟩
    simp [step, fill, ha _ h1, hg, onError, hb _ _ _ _ h1 h2, repush, allSome]
    rfl

/-- `S → A S x | B; A → ε; B → ε`: `A` and `B` conflict before `x`. -/
def gEmpty : Gram := ⟨[⟨0, [.nt 1, .nt 0, .tm (.sym 0)]⟩, ⟨0, [.nt 2]⟩, ⟨1, []⟩, ⟨2, []⟩], 0⟩

def pEmpty : Parser Nat Nat Nat :=
  ⟨plainRules gEmpty ++ [⟨3, [.nt 0], fun _ => .error 0⟩],
   { action := [(0, [(.sym 0, .reduce 2), (.eoi, .reduce 3)]), (1, [(.sym 0, .reduce 2)]), (2, [(.eoi, .reduce 1)]), (3, [(.eoi, .accept)]),
       (4, [(.sym 0, .reduce 2)]), (5, [(.sym 0, .shift 8)]), (6, [(.sym 0, .reduce 1)]), (7, [(.sym 0, .shift 9)]), (8, [(.eoi, .reduce 0)]),
       (9, [(.sym 0, .reduce 0)])]
     goto := [(0, [(1, 1), (2, 2), (0, 3)]), (1, [(1, 4), (0, 5), (2, 6)]), (4, [(1, 4), (0, 7), (2, 6)])]
     errors := []
     start := 0 }⟩

theorem Derives.mem {R : List PRule} {u v : List Sym} (h : Derives R u v) : ∀ X ∈ v, X ∈ u ∨ ∃ r ∈ R, X ∈ r.rhs := by
  induction h with
  | refl => exact fun X hX => Or.inl hX
  | step x y r _ hr ih =>
    intro X hX
    simp only [List.mem_append] at hX
    rcases hX with (hX | hX) | hX
    · exact ih X (by simp [hX])
    · exact Or.inr ⟨r, hr, hX⟩
    · exact ih X (by simp [hX])

/-- C35: without error rules too, if there are warnings: with the rules `S → A S x | B; A → ε; B → ε` (a reduce-reduce
conflict; all non-terminals are productive), `parse` runs for ever on every input that begins with `x`, although `x` is a
sentence. -/
theorem c35_conflict_diverges : (∃ ws, MakesParser idSeeds (plainRules gEmpty) 0 pEmpty ws) ∧ gEmpty.Productive ∧ gEmpty.Sentence [0] ∧
    ∀ rest, ParseDiverges id pEmpty (0 :: rest) := by
  have hA : Gen gEmpty.rules [.nt 1] [] := Gen.rule (r := ⟨1, []⟩) (by simp [gEmpty])
  have hB : Gen gEmpty.rules [.nt 2] [] := Gen.rule (r := ⟨2, []⟩) (by simp [gEmpty])
  have hS : Gen gEmpty.rules [.nt 0] [] := (Gen.rule (r := ⟨0, [.nt 2]⟩) (by simp [gEmpty])).trans hB
  refine ⟨⟨[.reduceReduce [⟨0, 0, .sym 0⟩, ⟨0, 1, .eoi⟩, ⟨1, 0, .sym 0⟩, ⟨2, 0, .sym 0⟩, ⟨3, 0, .sym 0⟩] 2 3,
      .reduceReduce [⟨0, 0, .sym 0⟩, ⟨0, 1, .sym 0⟩, ⟨1, 0, .sym 0⟩, ⟨2, 0, .sym 0⟩, ⟨3, 0, .sym 0⟩] 2 3],
    ⟨20, by decide, by simp⟩, _, rfl⟩, ?_, ?_, ?_⟩
  · intro x n y h
    refine ⟨[], ?_⟩
    have := h.mem (.nt n) (by simp)
    simp [gEmpty] at this
    rcases this with rfl | (rfl | rfl) | rfl
    · exact gen_iff.1 hS
    · exact gen_iff.1 hA
    · exact gen_iff.1 hS
    · exact gen_iff.1 hB
  · exact gen_iff.1 ((Gen.rule (r := ⟨0, [.nt 1, .nt 0, .tm (.sym 0)]⟩) (by simp [gEmpty])).trans (hA.append (hS.append (Gen.refl [.tm (.sym 0)]))))
  · intro rest
    refine diverges_of (fun c => (c.state = 0 ∨ c.state = 1 ∨ c.state = 4) ∧
      ((c.buffer = [] ∧ c.src = 0 :: rest ∧ c.read = []) ∨ (c.buffer = [(.sym 0, 0)] ∧ c.src = rest ∧ c.read = [0])))
      ⟨Or.inl rfl, Or.inl ⟨rfl, rfl, rfl⟩⟩ ?_
    rintro ⟨state, read, src, buffer, stack, recov, log, pulls⟩ ⟨h1, h3⟩
    simp only at h1 h3
    rcases h3 with ⟨rfl, rfl, rfl⟩ | ⟨rfl, rfl, rfl⟩
    · rcases h1 with rfl | rfl | rfl
      · exact ⟨_, rfl, Or.inr (Or.inl rfl), Or.inr ⟨rfl, rfl, rfl⟩⟩
      · exact ⟨_, rfl, Or.inr (Or.inr rfl), Or.inr ⟨rfl, rfl, rfl⟩⟩
      · exact ⟨_, rfl, Or.inr (Or.inr rfl), Or.inr ⟨rfl, rfl, rfl⟩⟩
    · rcases h1 with rfl | rfl | rfl
      · exact ⟨_, rfl, Or.inr (Or.inl rfl), Or.inr ⟨rfl, rfl, rfl⟩⟩
      · exact ⟨_, rfl, Or.inr (Or.inr rfl), Or.inr ⟨rfl, rfl, rfl⟩⟩
      · exact ⟨_, rfl, Or.inr (Or.inr rfl), Or.inr ⟨rfl, rfl, rfl⟩⟩

/-- `S → A S x | Y U; A → ε; Y → a; U → U b`: no conflict, but `U` derives nothing. -/
def gUnprod : Gram :=
  ⟨[⟨0, [.nt 1, .nt 0, .tm (.sym 0)]⟩, ⟨0, [.nt 2, .nt 3]⟩, ⟨1, []⟩, ⟨2, [.tm (.sym 1)]⟩, ⟨3, [.nt 3, .tm (.sym 2)]⟩], 0⟩

def pUnprod : Parser Nat Nat Nat :=
  ⟨plainRules gUnprod ++ [⟨4, [.nt 0], fun _ => .error 0⟩],
   { action := [(0, [(.sym 1, .reduce 2)]), (1, [(.sym 1, .reduce 2)]), (2, []), (3, [(.eoi, .accept)]), (4, [(.sym 1, .reduce 2)]),
       (5, [(.sym 0, .shift 9)]), (6, []), (7, [(.sym 2, .shift 11), (.eoi, .reduce 1)]), (8, [(.sym 0, .shift 12)]), (9, [(.eoi, .reduce 0)]),
       (10, [(.sym 2, .shift 13), (.sym 0, .reduce 1)]), (11, [(.sym 2, .reduce 4), (.eoi, .reduce 4)]), (12, [(.sym 0, .reduce 0)]),
       (13, [(.sym 0, .reduce 4), (.sym 2, .reduce 4)])]
     goto := [(0, [(1, 1), (2, 2), (0, 3)]), (1, [(1, 4), (0, 5), (2, 6)]), (2, [(3, 7)]), (4, [(1, 4), (0, 8), (2, 6)]), (6, [(3, 10)])]
     errors := []
     start := 0 }⟩

/-- C35: without error rules and without warnings too, if a non-terminal in use derives no string: with the rules
`S → A S x | Y U; A → ε; Y → a; U → U b`, `parse` runs for ever on every input that begins with `a`. -/
theorem c35_unproductive_diverges : MakesParser idSeeds (plainRules gUnprod) 0 pUnprod [] ∧ gUnprod.NoError ∧ gUnprod.Closed ∧
    ∀ rest, ParseDiverges id pUnprod (1 :: rest) := by
  refine ⟨⟨⟨20, by decide, by simp⟩, _, rfl⟩, ?_, ?_, ?_⟩
  · simp [Gram.NoError, gUnprod]
  · simp [Gram.Closed, gUnprod]
  · intro rest
    refine diverges_of (fun c => (c.state = 0 ∨ c.state = 1 ∨ c.state = 4) ∧
      ((c.buffer = [] ∧ c.src = 1 :: rest ∧ c.read = []) ∨ (c.buffer = [(.sym 1, 0)] ∧ c.src = rest ∧ c.read = [1])))
      ⟨Or.inl rfl, Or.inl ⟨rfl, rfl, rfl⟩⟩ ?_
    rintro ⟨state, read, src, buffer, stack, recov, log, pulls⟩ ⟨h1, h3⟩
    simp only at h1 h3
    rcases h3 with ⟨rfl, rfl, rfl⟩ | ⟨rfl, rfl, rfl⟩
    · rcases h1 with rfl | rfl | rfl
      · exact ⟨_, rfl, Or.inr (Or.inl rfl), Or.inr ⟨rfl, rfl, rfl⟩⟩
      · exact ⟨_, rfl, Or.inr (Or.inr rfl), Or.inr ⟨rfl, rfl, rfl⟩⟩
      · exact ⟨_, rfl, Or.inr (Or.inr rfl), Or.inr ⟨rfl, rfl, rfl⟩⟩
    · rcases h1 with rfl | rfl | rfl
      · exact ⟨_, rfl, Or.inr (Or.inl rfl), Or.inr ⟨rfl, rfl, rfl⟩⟩
      · exact ⟨_, rfl, Or.inr (Or.inr rfl), Or.inr ⟨rfl, rfl, rfl⟩⟩
      · exact ⟨_, rfl, Or.inr (Or.inr rfl), Or.inr ⟨rfl, rfl, rfl⟩⟩

/-! ## C38 -/

/-- All smaller numbers are in use. -/
theorem freshSym_least (g : Gram) : ∀ n, n < freshSym g.rules → g.Used n := by
  intro n hn
  unfold freshSym at hn
  cases hf : (List.range (symBound g.rules + 1)).find? fun n => g.rules.all fun r => decide (r.lhs ≠ n) && r.rhs.all fun X => decide (X ≠ .nt n) with
  | none => rw [hf] at hn; simp at hn
  | some m =>
    rw [hf] at hn
    rw [List.find?_range_eq_some] at hf
    have := hf.2.2 n hn
    simp only [Bool.not_eq_true', List.all_eq_false, Bool.and_eq_true, decide_eq_true_eq, List.all_eq_true] at this
    obtain ⟨r, hr, h⟩ := this
    refine ⟨r, hr, ?_⟩
    by_cases h1 : r.lhs = n
    · exact Or.inl h1
    · right
      apply Classical.byContradiction
      intro h2
      exact h ⟨h1, fun X hX h3 => h2 (h3 ▸ hX)⟩

/-- C38: `new` panics if the start symbol has no rule, unless the start symbol is the first number not in use. -/
theorem c38_no_start_rule_panics (o : Seeds) (ho : o.Fair) (g : Gram) (hg : g.Ok) (hs : ∀ r ∈ g.rules, r.lhs ≠ g.start)
    (hu : g.Used g.start ∨ ∃ n, n < g.start ∧ ¬ g.Used n) : NewGives o g .panic := by
  have hf : freshSym g.rules ≠ g.start := by
    intro h
    rcases hu with hu | ⟨n, h1, h2⟩
    · exact freshSym_unused g (h ▸ hu)
    · exact h2 (freshSym_least g n (h ▸ h1))
  obtain ⟨x, ⟨fuel, h1, h2⟩, _⟩ := c20_new_terminates o ho g hg
  cases x with
  | fuel => exact absurd rfl h2
  | panic => exact ⟨fuel, h1, h2⟩
  | ok x =>
    refine absurd ⟨[], _, .start, Or.inr ⟨⟨freshSym g.rules, [.nt g.start]⟩, g.start, .eoi, [], rules'_start g, rfl, ?_, ?_⟩⟩
      ((new_spec ho hg fuel).1 x.1 x.2 h1).2.2
    · intro r hr
      rcases List.mem_append.1 hr with hr | hr
      · exact hs r hr
      · simp at hr
        subst hr
        exact hf
    · exact Gen.refl _

/-- If the start symbol is the appended one, only the start rule is ever in use. -/
theorem only_start {g : Gram} (hu : ¬ g.Used g.start) (hl : ∀ n, n < g.start → g.Used n) :
    freshSym g.rules = g.start ∧ ∀ γ i, Valid g.rules' g.rules.length γ i → i.rule = g.rules.length := by
  have hf : freshSym g.rules = g.start := by
    rcases Nat.lt_trichotomy (freshSym g.rules) g.start with h | h | h
    · exact absurd (hl _ h) (freshSym_unused g)
    · exact h
    · exact absurd (freshSym_least g _ h) hu
  refine ⟨hf, fun γ i h => ?_⟩
  induction h with
  | start => rfl
  | advance γ i r X _ _ _ ih => exact ih
  | expand γ i r B j r' b ρ _ h1 h2 h3 h4 _ ih =>
    rw [ih, rules'_start] at h1
    cases h1
    have hB := List.mem_of_getElem? h2
    simp at hB
    subst hB
    rcases Nat.lt_or_ge j g.rules.length with hj | hj
    · exfalso
      have : r' ∈ g.rules := by
        rw [Gram.rules', Gram.aug, List.getElem?_append_left hj] at h3
        exact List.mem_of_getElem? h3
      exact hu ⟨r', this, Or.inl h4⟩
    · have := (List.getElem?_eq_some_iff.1 h3).1
      rw [rules'_length] at this
      simp only
      omega

/-- C38: otherwise `new` gives a parser without warnings that rejects every input: after pulling one token (or the end) it
returns `RecoveryRuleNotFound` without calling any callback. -/
theorem c38_no_start_rule_rejects (o : Seeds) (ho : o.Fair) (rules : List (Rule N T E)) (start : Nat) (hok : (gram rules start).Ok)
    (hu : ¬ (gram rules start).Used start) (hl : ∀ n, n < start → (gram rules start).Used n) :
    (∃ T, NewGives o (gram rules start) (.ok (T, []))) ∧
    ∀ (p : Parser N T E) ws, MakesParser o rules start p ws → ∀ idx input,
      ∃ c, ParsesTo idx p input (.error .noRecovery) c ∧ c.log = [] ∧ c.pulls = 1 := by
  obtain ⟨hf, hv⟩ := only_start hu hl
  have hrule : ∀ {γ i r}, Valid (gram rules start).rules' (gram rules start).rules.length γ i → (gram rules start).rules'[i.rule]? = some r →
      r = ⟨start, [.nt start]⟩ := by
    intro γ i r h hr
    rw [hv γ i h, rules'_start, hf] at hr
    cases hr
    rfl
  refine ⟨?_, ?_⟩
  · obtain ⟨x, ⟨fuel, h1, h2⟩, _⟩ := c20_new_terminates o ho (gram rules start) hok
    cases x with
    | fuel => exact absurd rfl h2
    | panic =>
      exfalso
      obtain ⟨γ, i, k1, k2⟩ := (new_spec ho hok fuel).2.1 h1
      rcases k2 with k2 | ⟨r, B, b, ρ, k2, k3, k4, _⟩
      · rw [hv γ i k1, rules'_start] at k2
        cases k2
      · cases hrule k1 k2
        have := List.mem_of_getElem? k3
        simp at this
        subst this
        exact k4 _ (List.mem_of_getElem? k2) rfl
    | ok x =>
      have hw := ((new_spec ho hok fuel).1 x.1 x.2 h1).2.1
      have : x.2 = [] := by
        rw [List.eq_nil_iff_forall_not_mem]
        intro w hm
        cases w with
        | shiftReduce S S' r =>
          obtain ⟨γ, a, _, _, k1, ⟨rule, _, k2⟩, _⟩ := (hw.shiftReduce S S' r).1 hm
          exact k1 (hv _ _ k2)
        | reduceReduce S r r' =>
          obtain ⟨γ, a, _, k1, _, _, ⟨rule, _, k2⟩, _⟩ := (hw.reduceReduce S r r').1 hm
          exact k1 (hv _ _ k2)
      exact ⟨x.1, fuel, by rw [h1, ← this], by simp⟩
  · rintro p ws ⟨⟨fuel, h1, _⟩, _⟩ idx input
    have hc := ((new_spec ho hok fuel).1 _ _ h1).1
    have hw : p.tab.walk [] = some p.tab.start := rfl
    obtain ⟨row, hrow⟩ := hc.row [] _ hw
    have hex : ∀ {X}, Expects (gram rules start).rules' (gram rules start).rules.length [] X → X = .nt start := by
      rintro X ⟨i, r, k1, k2, k3⟩
      cases hrule k1 k2
      have := List.mem_of_getElem? k3
      simpa using this
    have hact : ∀ a, get a row = none := by
      intro a
      have e : p.tab.act p.tab.start a = get a row := by simp [Tables.act, hrow]
      rw [← e]
      cases h : p.tab.act p.tab.start a with
      | none => rfl
      | some x =>
        exfalso
        cases x with
        | shift q => cases hex ((hc.goes [] _ (.tm a) hw).1 ⟨q, act_shift.2 h⟩)
        | reduce r =>
          obtain ⟨k1, ⟨rule, _, k2⟩, _⟩ := (hc.reduce [] _ a r hw).1 h
          exact k1 (hv _ _ k2)
        | accept =>
          obtain ⟨_, b, rule, k1, k2⟩ := (hc.accept [] _ a hw).1 h
          have := (Valid.split k2 ⟨_, rules'_start _⟩)
          obtain ⟨γ0, r', k3, k4, _⟩ := this
          cases hrule k2 k3
          cases hrule k2 k1
          simp at k4
    have herr : get p.tab.start p.tab.errors = none := by
      cases h : get p.tab.start p.tab.errors with
      | none => rfl
      | some l =>
        exfalso
        refine hc.errors_ne _ _ h (List.eq_nil_iff_forall_not_mem.2 fun r hr => ?_)
        obtain ⟨i, rule, k1, k2, k3, k4⟩ := (hc.errors [] _ r hw).1 (by rw [h]; exact hr)
        cases hex ⟨i, rule, k1, k2 ▸ k3, k4⟩
    refine ⟨{ fill idx (Cfg.init p input) with stack := [] }, ⟨1, ?_⟩, by cases input <;> rfl, by cases input <;> rfl⟩
    cases input <;> simp [run, step, fill, Cfg.init, hrow, hact, onError, recover, recovRules, herr]

/-- The start symbol has no rule and is used. -/
example : NewGives idSeeds ⟨[⟨0, [.nt 1]⟩], 1⟩ .panic := ⟨10, by decide, by simp⟩

/-- The start symbol has no rule and is the first number not in use. -/
example : ∃ T, NewGives idSeeds ⟨[⟨0, [.tm (.sym 0)]⟩], 1⟩ (.ok (T, [])) ∧ ¬ Gram.Used ⟨[⟨0, [.tm (.sym 0)]⟩], 1⟩ 1 :=
  ⟨{ action := [(0, []), (1, [(.eoi, .accept)])], goto := [(0, [(1, 1)])], errors := [], start := 0 }, ⟨10, by decide, by simp⟩,
   by simp [Gram.Used]⟩

end Verif.Par
