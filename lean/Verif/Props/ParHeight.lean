import Verif.Par.HeightProof
import Verif.Props.ParComplete

/-!
# C68: how much memory `parse` takes
-/

namespace Verif.Par

variable {N T E : Type}

/-- C68: for grammars without error rules (with or without conflicts), a parse that gives a value gives that of a
derivation tree of the input, and the stack gets exactly as high as building this tree takes. -/
theorem c68_stack (o : Seeds) (ho : o.Fair) (rules : List (Rule N T E)) (start : Nat) (hok : (gram rules start).Ok)
    (hne : (gram rules start).NoError) (p : Parser N T E) (ws : List Warning) (hp : MakesParser o rules start p ws)
    (idx : T → Nat) (input : List T) (v : N) (c : Cfg N T) (h : ParsesTo idx p input (.ok v) c) :
    ∃ f, IsTree (rules.map Rule.plain) start idx input f ∧ Evals rules [f] c.log.reverse (.ok [.nt v]) ∧
      (∀ m c', run idx p m (Cfg.init p input) = .more c' → c'.stack.length ≤ f.high) ∧
      (∃ m c', run idx p m (Cfg.init p input) = .more c' ∧ c'.stack.length = f.high) := by
  obtain ⟨fresh, hx⟩ := ctx_of_makes ho hok hp
  obtain ⟨n, hn⟩ := h
  obtain ⟨f, h1, h2, h3, h4, _⟩ := peak_ok hx hne hn
  exact ⟨f, h1, h2, h3, h4⟩

/-- C68: where the input has only one tree, this is the tree meant in `c68_stack`. -/
theorem c68_tree (o : Seeds) (ho : o.Fair) (rules : List (Rule N T E)) (start : Nat) (hok : (gram rules start).Ok)
    (hne : (gram rules start).NoError) (hc : ¬ (gram rules start).Cyclic) (p : Parser N T E) (hp : MakesParser o rules start p [])
    (idx : T → Nat) (input : List T) (v : N) (c : Cfg N T) (h : ParsesTo idx p input (.ok v) c) (f : Tree T)
    (hf : IsTree (rules.map Rule.plain) start idx input f) :
    (∀ m c', run idx p m (Cfg.init p input) = .more c' → c'.stack.length ≤ f.high) ∧
    (∃ m c', run idx p m (Cfg.init p input) = .more c' ∧ c'.stack.length = f.high) := by
  obtain ⟨f', h1, _, h3, h4⟩ := c68_stack o ho rules start hok hne p [] hp idx input v c h
  rw [c25_unambiguous o ho (gram rules start) hok p.tab hp.1 hc idx input f f' hf h1]
  exact ⟨h3, h4⟩

/-- C68: the height is the depth of nesting, up to the length of the longest right-hand side. -/
theorem c68_nesting (R : List PRule) (start k : Nat) (hk : Width R k) (idx : T → Nat) (input : List T) (f : Tree T)
    (hf : IsTree R start idx input f) : 1 + f.nesting ≤ f.high ∧ f.high ≤ 1 + (k - 1) * f.nesting :=
  ⟨nesting_lt f, (hf.1.slim hk).high f List.mem_cons_self⟩

/-- C68: if no non-terminal contains itself other than at its left edge, the stack stays below a bound that depends on the
grammar only, at every round of every parse: for inputs of any length, with and without errors in them, with error rules,
with conflicts. -/
theorem c68_flat (o : Seeds) (ho : o.Fair) (rules : List (Rule N T E)) (start : Nat) (hok : (gram rules start).Ok)
    (p : Parser N T E) (ws : List Warning) (hp : MakesParser o rules start p ws) (k : Nat) (hk : Width (rules.map Rule.plain) k)
    (hk1 : 1 ≤ k) (hn : ¬ Nests (gram rules start)) (idx : T → Nat) (input : List T) (m : Nat) (c : Cfg N T)
    (h : run idx p m (Cfg.init p input) = .more c) : c.stack.length ≤ k + (k - 1) * rules.length := by
  obtain ⟨fresh, hx⟩ := ctx_of_makes ho hok hp
  rcases Reach.run (idx := idx) hx (Reach.init (input := input)) m with ⟨c', h1, h2⟩ | h1
  · rw [h] at h1
    cases h1
    obtain ⟨j, γ, fs, lg, as, hi, _⟩ := h2
    exact hi.flat hx hk hk1 hn
  · rw [h] at h1
    cases h1

/-- C68: otherwise there is no bound. -/
theorem c68_nests (o : Seeds) (ho : o.Fair) (rules : List (Rule N T E)) (start : Nat) (hok : (gram rules start).Ok)
    (hne : (gram rules start).NoError) (hc : ¬ (gram rules start).Cyclic) (hg : ∀ r ∈ rules, ∀ l, ∃ v, r.gen l = .ok v)
    (p : Parser N T E) (hp : MakesParser o rules start p []) (idx : T → Nat) (hu : Useful (rules.map Rule.plain) idx)
    (hn : Nests (gram rules start)) (n : Nat) :
    ∃ (input : List T) (v : N) (c : Cfg N T), ParsesTo idx p input (.ok v) c ∧
      ∃ m c', run idx p m (Cfg.init p input) = .more c' ∧ n ≤ c'.stack.length := by
  obtain ⟨l, hl⟩ := hn.tall (idx := idx) hu n
  obtain ⟨f, k1, k2, k3, k4⟩ := hl [] []
  have hf : IsTree (rules.map Rule.plain) start idx l f := ⟨by simpa [gram] using k1, k2, by simpa using k3⟩
  obtain ⟨v, c, h1⟩ := c24_accepts o ho rules start hok hg p hp idx l (sentence_iff.2 ⟨f, hf⟩)
  obtain ⟨_, m, c', h2, h3⟩ := c68_tree o ho rules start hok hne hc p hp idx l v c h1 f hf
  have := nesting_lt f
  exact ⟨l, v, c, h1, m, c', h2, by omega⟩

/-- C68: without empty rules and error rules there are never more stack entries than tokens read, and at most one token is
waiting in the buffer. -/
theorem c68_tokens (o : Seeds) (ho : o.Fair) (rules : List (Rule N T E)) (start : Nat) (hok : (gram rules start).Ok)
    (hne : (gram rules start).NoError) (hr : ∀ r ∈ rules, r.rhs ≠ []) (p : Parser N T E) (ws : List Warning)
    (hp : MakesParser o rules start p ws) (idx : T → Nat) (input : List T) (m : Nat) (c : Cfg N T)
    (h : run idx p m (Cfg.init p input) = .more c) : c.stack.length ≤ c.pulls ∧ c.buffer.length ≤ 1 := by
  obtain ⟨fresh, hx⟩ := ctx_of_makes ho hok hp
  obtain ⟨j, γ, fs, lg, as, hi, he, _⟩ := peak_run hx hne m c h
  constructor
  · rw [hi.stack_length he]
    have h1 := (hi.built he).leaves_ge (by
      intro r hr'
      obtain ⟨r0, h1, rfl⟩ := List.mem_map.1 hr'
      exact hr r0 h1) he
    rw [hi.leaves_length he] at h1
    have h2 := hi.jle
    have h3 := hi.pulls
    omega
  · rcases hi.buf with h1 | h1
    · rw [h1]
      have := (hi.clean he).2.2.2
      simp only [bufOf, List.length_map, List.length_zipIdx, List.length_drop]
      omega
    · rw [h1.1]
      simp

/-- C68: all tokens are kept until the end: at every round the tokens taken from the source so far are all in memory,
whatever has become of them, also for flat grammars. -/
theorem c68_keeps (o : Seeds) (ho : o.Fair) (rules : List (Rule N T E)) (start : Nat) (hok : (gram rules start).Ok)
    (p : Parser N T E) (ws : List Warning) (hp : MakesParser o rules start p ws) (idx : T → Nat) (input : List T) :
    (∀ m c, run idx p m (Cfg.init p input) = .more c → c.read = input.take c.pulls) ∧
    (∀ v c, ParsesTo idx p input (.ok v) c → c.read = input) := by
  obtain ⟨fresh, hx⟩ := ctx_of_makes ho hok hp
  constructor
  · intro m c h
    rcases Reach.run (idx := idx) hx (Reach.init (input := input)) m with ⟨c', h1, h2⟩ | h1
    · rw [h] at h1
      cases h1
      obtain ⟨j, γ, fs, lg, as, hi, _⟩ := h2
      have h1 := hi.read
      have h2 := hi.pulls
      split at h2
      · next hb =>
        rcases hi.buf with h3 | h3
        · rw [hb] at h3
          have : (Term.eoi, 0) ∈ bufOf idx c.read j := by rw [← h3]; simp
          simp [bufOf] at this
        · rw [h3.2.1, List.append_nil] at h1
          rw [h1, h2, h1, List.take_of_length_le (by omega)]
      · rw [h2, ← h1]
        simp
    · rw [h] at h1
      cases h1
  · intro v c h
    obtain ⟨n, hn⟩ := h
    rcases Reach.run (idx := idx) hx (Reach.init (input := input)) n with ⟨c', h1, _⟩ | h1
    · rw [h1] at hn; cases hn
    · rw [hn] at h1
      cases h1 with
      | ok c v f lg h2 h3 h4 =>
        have h5 := h2.read
        have h6 := h2.jle
        have := congrArg List.length h5
        rw [List.length_append] at this
        have h7 : c.src = [] := List.eq_nil_of_length_eq_zero (by omega)
        rw [h7, List.append_nil] at h5
        exact h5

/-! ## Two ways to write a list -/

/-- `L → L a | b` -/
def gLeft : Gram := ⟨[⟨0, [.nt 0, .tm (.sym 0)]⟩, ⟨0, [.tm (.sym 1)]⟩], 0⟩

def tLeft : Tables :=
  { action := [(0, [(.sym 1, .shift 2)]), (1, [(.sym 0, .shift 3), (.eoi, .accept)]), (2, [(.sym 0, .reduce 1), (.eoi, .reduce 1)]),
      (3, [(.sym 0, .reduce 0), (.eoi, .reduce 0)])]
    goto := [(0, [(0, 1)])]
    errors := []
    start := 0 }

def pLeft : Parser Nat Nat Nat := ⟨plainRules gLeft ++ [⟨1, [.nt 0], fun _ => .error 0⟩], tLeft⟩

theorem pLeft_makes : MakesParser idSeeds (plainRules gLeft) 0 pLeft [] := ⟨⟨10, by decide, by simp⟩, _, rfl⟩

theorem gLeft_flat : ¬ Nests (gram (plainRules gLeft) 0) := by
  have h : ∀ A B d, Leads (gram (plainRules gLeft) 0).rules A B d → d = 0 := by
    intro A B d h
    induction h with
    | refl => rfl
    | front _ _ _ _ _ _ ih => exact ih
    | inner B d r i _ h1 h2 _ =>
      simp only [gram, plainRules, gLeft, List.map_cons, List.map_nil, Rule.plain, List.mem_cons, List.not_mem_nil, or_false] at h1
      rcases h1 with rfl | rfl
      · cases i with
        | zero => simp at h2
        | succ i => simp at h2
      · simp at h2
  rintro ⟨A, c, d, _, h2⟩
  have := h _ _ _ h2
  omega

/-- The left-recursive list takes at most four stack entries, however long the input. -/
theorem c68_left (input : List Nat) (m : Nat) (c : Cfg Nat Nat) (h : run id pLeft m (Cfg.init pLeft input) = .more c) :
    c.stack.length ≤ 4 :=
  c68_flat idSeeds idSeeds_fair (plainRules gLeft) 0 (by decide) pLeft [] pLeft_makes 2 (by unfold Width; decide) (by omega) gLeft_flat id input m c h

def pRec : Parser Nat Nat Nat := ⟨plainRules gRight ++ [⟨1, [.nt 0], fun _ => .error 0⟩], tRight⟩

theorem gRight_useful : Useful ((plainRules gRight).map Rule.plain) (id : Nat → Nat) := by
  intro r hr
  simp only [plainRules, gRight, List.map_cons, List.map_nil, Rule.plain, List.mem_cons, List.not_mem_nil, or_false] at hr
  rcases hr with rfl | rfl
  · refine ⟨[0, 1], ?_⟩
    exact Derives.step _ [.tm (.sym 0)] [] ⟨0, [.tm (.sym 1)]⟩ (.refl _) (by simp [plainRules, gRight, Rule.plain])
  · exact ⟨[1], .refl _⟩

/-- The right-recursive list `S → a S | b` has no bound. -/
theorem c68_right (n : Nat) : ∃ (input : List Nat) (v : Nat) (c : Cfg Nat Nat), ParsesTo id pRec input (.ok v) c ∧
    ∃ m c', run id pRec m (Cfg.init pRec input) = .more c' ∧ n ≤ c'.stack.length :=
  c68_nests idSeeds idSeeds_fair (plainRules gRight) 0 (by decide) (by unfold Gram.NoError; decide)
    (gRight_not_cyclic) (by
      intro r hr l
      simp only [plainRules, List.mem_map] at hr
      obtain ⟨_, _, rfl⟩ := hr
      exact ⟨_, rfl⟩) pRec ⟨gRight_new, _, rfl⟩ id gRight_useful
    ⟨0, 0, 0, .refl, .inner 0 0 ⟨0, [.tm (.sym 0), .nt 0]⟩ 0 .refl (by simp [gram, plainRules, gRight, Rule.plain]) rfl⟩ n

example : ∃ c, ParsesTo id pLeft [1, 0, 0, 0] (.ok 2) c ∧ c.read = [1, 0, 0, 0] := ⟨_, ⟨20, rfl⟩, rfl⟩
example : (Tree.node 0 [.leaf 0 0, .node 0 [.leaf 1 0, .node 1 [.leaf 2 1]]] : Tree Nat).high = 3 := by decide
example : (Tree.node 0 [.node 0 [.node 1 [.leaf 0 1], .leaf 1 0], .leaf 2 0] : Tree Nat).high = 2 := by decide
example : ∃ c, run id pRec 3 (Cfg.init pRec [0, 0, 1]) = .more c ∧ c.stack.length = 3 := ⟨_, rfl, rfl⟩
example : ∀ r ∈ rRight, r.rhs ≠ [] := by decide

end Verif.Par
