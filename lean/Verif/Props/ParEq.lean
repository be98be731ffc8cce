import Verif.Par.EqNew
import Verif.Props.ParSeeds

/-!
# C80: what `==` of syntaxes and parsers says
-/

namespace Verif.Par

variable {N T E : Type}

/-- C80: parsers that are `==` and have the same callbacks cannot be told apart by parsing: same results, same calls of
the callbacks, same number of tokens taken from the source, same panics and same endless runs.  This is so for any
parsers, also those whose (public) tables were not made by `new`; `Keys` says that the tables are hash maps. -/
theorem c80_equal_same (p q : Parser N T E) (hp : p.tab.Keys) (hq : q.tab.Keys) (h : p.eq q = true)
    (hg : p.rules.map Rule.gen = q.rules.map Rule.gen) (idx : T → Nat) (input : List T) :
    (∀ x l n, (∃ c, ParsesTo idx p input x c ∧ c.log = l ∧ c.pulls = n) ↔ ∃ c, ParsesTo idx q input x c ∧ c.log = l ∧ c.pulls = n) ∧
    (ParsePanics idx p input ↔ ParsePanics idx q input) ∧ (ParseDiverges idx p input ↔ ParseDiverges idx q input) := by
  unfold Parser.eq at h
  rw [Bool.and_eq_true, rulesEq_iff, Tables.eq_iff hp hq] at h
  have hr : p.rules = q.rules := by
    have h1 := h.1
    clear h hp hq
    generalize p.rules = l at *
    generalize q.rules = l' at *
    induction l generalizing l' with
    | nil => cases l' with
      | nil => rfl
      | cons => cases h1
    | cons r l ih =>
      cases l' with
      | nil => cases h1
      | cons r' l' =>
        simp only [List.map_cons, List.cons.injEq] at h1 hg
        rw [ih l' hg.2 h1.2]
        obtain ⟨a, b, c⟩ := r
        obtain ⟨a', b', c'⟩ := r'
        have h3 := h1.1
        have h4 := hg.1
        simp only [Rule.plain, PRule.mk.injEq] at h3 h4
        obtain ⟨rfl, rfl⟩ := h3
        subst h4
        rfl
  obtain ⟨a1, a2, a3⟩ := eq_outcome h.2 hr idx input
  obtain ⟨b1, b2, b3⟩ := eq_outcome h.2.symm hr.symm idx input
  refine ⟨fun x l n => ⟨?_, ?_⟩, ⟨a2, b2⟩, ⟨a3, b3⟩⟩
  · rintro ⟨c, h1, rfl, rfl⟩
    exact a1 x c h1
  · rintro ⟨c, h1, rfl, rfl⟩
    exact b1 x c h1

/-- C80: `==` is an equivalence. -/
theorem c80_equivalence (p q r : Parser N T E) (hp : p.tab.Keys) (hq : q.tab.Keys) (hr : r.tab.Keys) :
    p.eq p = true ∧ (p.eq q = true → q.eq p = true) ∧ (p.eq q = true → q.eq r = true → p.eq r = true) := by
  unfold Parser.eq
  simp only [Bool.and_eq_true, rulesEq_iff, Tables.eq_iff hp hp, Tables.eq_iff hp hq, Tables.eq_iff hq hp, Tables.eq_iff hq hr, Tables.eq_iff hp hr]
  exact ⟨⟨trivial, .refl _⟩, fun h => ⟨h.1.symm, h.2.symm⟩, fun h h' => ⟨h.1.trans h'.1, h.2.trans h'.2⟩⟩

/-- C80: the callbacks do not matter for `==`, neither of parsers nor of syntaxes. -/
theorem c80_callbacks (p : Parser N T E) (hp : p.tab.Keys) (start : Nat) (f : Rule N T E → List (Arg N T) → Except E N) :
    p.eq { p with rules := p.rules.map fun r => { r with gen := f r } } = true ∧
    syntaxEq (p.rules, start) (p.rules.map (fun r => { r with gen := f r }), start) = true := by
  have h : rulesEq p.rules (p.rules.map fun r => { r with gen := f r }) = true := by
    rw [rulesEq_iff, List.map_map]
    rfl
  refine ⟨?_, ?_⟩
  · unfold Parser.eq
    rw [Bool.and_eq_true, Tables.eq_iff hp hp]
    exact ⟨h, .refl _⟩
  · unfold syntaxEq
    rw [Bool.and_eq_true]
    exact ⟨h, by simp⟩

/-- C80: parsers made by `new` are `==` exactly if the syntaxes are `==` and the same sequences of symbols lead to states
with the same numbers. -/
theorem c80_new (o o' : Seeds) (ho : o.Fair) (ho' : o'.Fair) (rules rules' : List (Rule N T E)) (start start' : Nat)
    (hok : (gram rules start).Ok) (hok' : (gram rules' start').Ok) (p q : Parser N T E) (ws ws' : List Warning)
    (hp : MakesParser o rules start p ws) (hq : MakesParser o' rules' start' q ws') :
    p.eq q = true ↔ syntaxEq (rules, start) (rules', start') = true ∧ ∀ γ, p.tab.walk γ = q.tab.walk γ := by
  obtain ⟨⟨f, h1, _⟩, d, h2⟩ := hp
  obtain ⟨⟨f', h1', _⟩, d', h2'⟩ := hq
  unfold Parser.eq syntaxEq
  rw [Bool.and_eq_true, Bool.and_eq_true, rulesEq_iff, rulesEq_iff, Tables.eq_iff (newTables_keys ho h1) (newTables_keys ho' h1'), beq_iff_eq]
  simp only [h2, h2', List.map_append, List.map_cons, List.map_nil, Rule.plain]
  constructor
  · rintro ⟨k1, k2⟩
    have k3 := List.append_inj k1 (by have := congrArg List.length k1; simpa using this)
    simp at k3
    exact ⟨⟨k3.1, k3.2.2⟩, k2.walk⟩
  · rintro ⟨⟨k1, rfl⟩, k2⟩
    have hg : gram rules start = gram rules' start := by simp only [gram, k1]
    have hfr : freshSym (rules.map Rule.plain) = freshSym (rules'.map Rule.plain) := by rw [k1]
    refine ⟨by rw [k1], ?_⟩
    have c1 := ((new_spec ho hok f).1 _ _ h1).1
    have c2 := ((new_spec ho' hok' f').1 _ _ h1').1
    have s1 := new_syms ho hok h1
    have s2 := new_syms ho' hok' h1'
    rw [hg] at c1 s1
    exact same_of_walk c1 c2 s1 s2 (new_more ho h1) (new_more ho' h1') k2

/-- C80: with the same iteration order of the hash maps, syntaxes that are `==` give parsers that are `==`, and the same
warnings. -/
theorem c80_same_order (o : Seeds) (ho : o.Fair) (rules rules' : List (Rule N T E)) (start start' : Nat)
    (h : syntaxEq (rules, start) (rules', start') = true) (p q : Parser N T E) (ws ws' : List Warning)
    (hp : MakesParser o rules start p ws) (hq : MakesParser o rules' start' q ws') : p.eq q = true ∧ ws = ws' := by
  unfold syntaxEq at h
  rw [Bool.and_eq_true, rulesEq_iff, beq_iff_eq] at h
  obtain ⟨h, rfl⟩ := h
  simp only at h
  have hg : gram rules start = gram rules' start := by simp only [gram, h]
  have hp1 := hp.1
  rw [hg] at hp1
  have hu := newGives_unique hp1 hq.1
  simp only [Res.ok.injEq, Prod.mk.injEq] at hu
  obtain ⟨_, d, h2⟩ := hp
  obtain ⟨⟨f, h1, _⟩, d', h2'⟩ := hq
  refine ⟨?_, hu.2⟩
  have hk := newTables_keys ho h1
  unfold Parser.eq
  rw [Bool.and_eq_true, rulesEq_iff, hu.1, Tables.eq_iff hk hk]
  exact ⟨by simp [h2, h2', h, Rule.plain], .refl _⟩

/-- C80: for every grammar, another iteration order gives a parser that is not `==`, although the rules and the warnings
are the same and parsing cannot tell the two apart. -/
theorem c80_not_equal (o : Seeds) (ho : o.Fair) (rules : List (Rule N T E)) (start : Nat) (hok : (gram rules start).Ok)
    (p : Parser N T E) (ws : List Warning) (hp : MakesParser o rules start p ws) :
    ∃ o' q, o'.Fair ∧ MakesParser o' rules start q ws ∧ q.rules = p.rules ∧ p.eq q = false ∧
      ∀ (idx : T → Nat) input, (∀ x, (∃ c, ParsesTo idx p input x c) ↔ ∃ c, ParsesTo idx q input x c) ∧
        (ParsePanics idx p input ↔ ParsePanics idx q input) ∧ (ParseDiverges idx p input ↔ ParseDiverges idx q input) := by
  have hp' := hp
  obtain ⟨⟨f, h1, h2⟩, d, h3⟩ := hp
  obtain ⟨T', k1, k2⟩ := turn_start ho h1
  have hq : MakesParser o.turn rules start ⟨p.rules, T'⟩ ws := ⟨⟨f, k1, by simp⟩, d, h3⟩
  refine ⟨o.turn, ⟨p.rules, T'⟩, Seeds.turn_fair ho, hq, rfl, ?_, ?_⟩
  · rw [Bool.eq_false_iff]
    intro he
    unfold Parser.eq Tables.eq at he
    simp only [Bool.and_eq_true, beq_iff_eq] at he
    exact k2 he.2.2.symm
  · intro idx input
    obtain ⟨a, b, c⟩ := c32_same_outcome o o.turn ho (Seeds.turn_fair ho) rules start hok p _ ws ws hp' hq idx input
    refine ⟨fun x => ⟨?_, ?_⟩, b, c⟩
    · rintro ⟨c, hc⟩
      obtain ⟨c', hc', _⟩ := (a x c.log c.pulls).1 ⟨c, hc, rfl, rfl⟩
      exact ⟨c', hc'⟩
    · rintro ⟨c, hc⟩
      obtain ⟨c', hc', _⟩ := (a x c.log c.pulls).2 ⟨c, hc, rfl, rfl⟩
      exact ⟨c', hc'⟩

/-! ## Examples -/

/-- The parser of `gOver` with its tables written down in another order: the hash maps are the same. -/
def pOverBack : Parser Nat Nat Nat :=
  ⟨pOver.rules, { pOver.tab with action := (pOver.tab.action.map fun x => (x.1, x.2.reverse)).reverse }⟩

theorem pOver_keys : pOver.tab.Keys ∧ pOverBack.tab.Keys := by
  refine ⟨⟨?_, ?_, ?_, ?_, ?_⟩, ⟨?_, ?_, ?_, ?_, ?_⟩⟩ <;> decide

/-- The hypotheses of `c80_equal_same` hold for tables that are not the same lists. -/
example : pOver.eq pOverBack = true ∧ pOver.tab ≠ pOverBack.tab ∧ pOver.rules.map Rule.gen = pOverBack.rules.map Rule.gen :=
  ⟨by decide, by decide, rfl⟩

/-- Two iteration orders, two parsers that are not `==`. -/
example : pOver.eq pOver' = false ∧ pOver.tab.walk [.nt 0] ≠ pOver'.tab.walk [.nt 0] := by decide

/-- Parsers that are `==` with other callbacks give other values. -/
def pOverNine : Parser Nat Nat Nat := { pOver with rules := pOver.rules.map fun r => { r with gen := fun _ => .ok 9 } }

example : pOver.eq pOverNine = true ∧ (∃ c, ParsesTo id pOver [0, 1, 2] (.ok 3) c) ∧ ∃ c, ParsesTo id pOverNine [0, 1, 2] (.ok 9) c :=
  ⟨by decide, ⟨_, 20, rfl⟩, ⟨_, 20, rfl⟩⟩

/-- A change of a single rule is seen. -/
example : syntaxEq (plainRules gOver, 0) (plainRules gSpin, 0) = false ∧ syntaxEq (plainRules gOver, 0) (plainRules gOver, 1) = false ∧
    syntaxEq (plainRules gOver, 0) ((plainRules gOver).map fun r => { r with gen := fun _ => .ok 9 }, 0) = true := by decide

end Verif.Par
