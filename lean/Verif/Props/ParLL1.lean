import Verif.Par.LL1Check
import Verif.Props.ParReject

/-!
# LL(1) grammars

C71: for every grammar that can be parsed top-down by looking at one token, `LR1Parser::new` returns no warning and `parse`
gives the value of the only derivation tree.
-/

namespace Verif.Par

theorem Gram.Productive.fruitful {g : Gram} (h : g.Productive) : g.Fruitful := by
  intro x n y hd
  obtain ⟨w, hw⟩ := h x n y hd
  exact ⟨w.map .sym, by simpa [tms, Function.comp_def] using hw⟩

theorem Gram.Fruitful.productive {g : Gram} (h : g.Fruitful) (hok : g.Ok) (hn : g.NoError) : g.Productive := by
  have key : ∀ {l w : List Sym}, Gen g.rules l w → (∀ t, Sym.tm t ∈ l → ∃ k, t = .sym k) → ∀ t, Sym.tm t ∈ w → ∃ k, t = .sym k := by
    intro l w hg
    induction hg with
    | nil => exact fun h => h
    | keep X l w _ ih =>
      intro hl t ht
      rcases List.mem_cons.1 ht with rfl | ht
      · exact hl t List.mem_cons_self
      · exact ih (fun t ht => hl t (List.mem_cons_of_mem _ ht)) t ht
    | expand r l u v hr _ _ ih1 ih2 =>
      intro hl t ht
      rcases List.mem_append.1 ht with ht | ht
      · refine ih1 (fun t ht => ?_) t ht
        cases t with
        | sym k => exact ⟨k, rfl⟩
        | err => exact absurd ht (hn r hr)
        | eoi => exact absurd ht (hok r hr)
      · exact ih2 (fun t ht => hl t (List.mem_cons_of_mem _ ht)) t ht
  intro x n y hd
  obtain ⟨w, hw⟩ := h x n y hd
  have hs := key (gen_iff.2 hw) (by simp)
  clear hd
  suffices ∃ v : List Nat, w = v.map .sym by
    obtain ⟨v, rfl⟩ := this
    exact ⟨v, by simpa [tms, Function.comp_def] using hw⟩
  clear hw
  induction w with
  | nil => exact ⟨[], rfl⟩
  | cons t w ih =>
    obtain ⟨k, rfl⟩ := hs t (by simp)
    obtain ⟨v, rfl⟩ := ih fun t ht => hs t (by simp [tms] at ht ⊢; exact .inr ht)
    exact ⟨k :: v, rfl⟩

/-- C71: for LL(1) grammars in which every reachable non-terminal derives some string of terminals, the warnings are empty. -/
theorem c71_no_warnings (o : Seeds) (ho : o.Fair) (g : Gram) (hok : g.Ok) (hfr : g.Fruitful) (hll : g.LL1) (tab : Tables) (ws : List Warning)
    (h : NewGives o g (.ok (tab, ws))) : ws = [] := by
  obtain ⟨fuel, h1, _⟩ := h
  exact (warn_iff (rules'_start g) ((new_spec ho hok fuel).1 tab ws h1).2.1).2 (hll.no_clash hfr (freshSym_unused g))

/-- C71: for LL(1) grammars in which every reachable non-terminal derives some string of terminals, `LR1Parser::new` gives
tables and no warning. -/
theorem c71_builds (o : Seeds) (ho : o.Fair) (g : Gram) (hok : g.Ok) (hfr : g.Fruitful) (hll : g.LL1) :
    ∃ tab, NewGives o g (.ok (tab, [])) := by
  obtain ⟨r, ⟨fuel, h1, h2⟩, _⟩ := c20_new_terminates o ho g hok
  cases r with
  | fuel => exact absurd rfl h2
  | panic => exact absurd ((new_spec ho hok fuel).2.1 h1) (hfr.not_bad (freshSym_unused g))
  | ok x =>
    obtain ⟨tab, ws⟩ := x
    obtain rfl := c71_no_warnings o ho g hok hfr hll tab ws ⟨fuel, h1, h2⟩
    exact ⟨tab, fuel, h1, h2⟩

/-- C71: LL(1) grammars are unambiguous. -/
theorem c71_unambiguous (g : Gram) (hok : g.Ok) (hfr : g.Fruitful) (hll : g.LL1) (idx : T → Nat) (input : List T) (f f' : Tree T)
    (hf : IsTree g.rules g.start idx input f) (hf' : IsTree g.rules g.start idx input f') : f = f' := by
  obtain ⟨tab, h⟩ := c71_builds idSeeds idSeeds_fair g hok hfr hll
  exact c25_unambiguous idSeeds idSeeds_fair g hok tab h (hll.not_cyclic hfr) idx input f f' hf hf'

/-- C71: `LR1Parser::new` and `parse` for an LL(1) grammar without error rules.  There is no warning; a sentence has exactly
one derivation tree, and its value (or the error of its callbacks) is the result; anything else gives an error. -/
theorem c71_parse (o : Seeds) (ho : o.Fair) (rules : List (Rule N T E)) (start : Nat) (hok : (gram rules start).Ok)
    (hn : (gram rules start).NoError) (hp : (gram rules start).Productive) (hll : (gram rules start).LL1)
    (p : Parser N T E) (ws : List Warning) (hm : MakesParser o rules start p ws) (idx : T → Nat) (input : List T) :
    ws = [] ∧
    ((gram rules start).Sentence (input.map idx) → ∃ f, IsTree (rules.map Rule.plain) start idx input f ∧
      (∀ f', IsTree (rules.map Rule.plain) start idx input f' → f' = f) ∧
      ∀ calls, (∀ v, Evals rules [f] calls (.ok [.nt v]) ↔ ∃ c, ParsesTo idx p input (.ok v) c ∧ c.log.reverse = calls) ∧
        (∀ e, Evals rules [f] calls (.error e) ↔ ∃ c, ParsesTo idx p input (.error (.reducer e)) c ∧ c.log.reverse = calls)) ∧
    (¬ (gram rules start).Sentence (input.map idx) →
      (∃ c, ParsesTo idx p input (.error .noRecovery) c) ∨ ∃ e c, ParsesTo idx p input (.error (.reducer e)) c) := by
  have hfr := Gram.Productive.fruitful hp
  have hws : ws = [] := c71_no_warnings o ho _ hok hfr hll p.tab ws hm.1
  subst hws
  refine ⟨rfl, fun hs => ?_, fun hs => c26_rejects o ho rules start hok hn hp _ hm idx input hs⟩
  obtain ⟨f, hf⟩ := sentence_iff.1 hs
  exact ⟨f, hf, fun f' hf' => c71_unambiguous (gram rules start) hok hfr hll idx input f' f hf' hf,
    fun calls => c30_evaluation o ho rules start hok _ hm (hll.not_cyclic hfr) idx input f hf calls⟩

/-- C71: the usual check with nullable, FIRST and FOLLOW sets shows that a grammar is LL(1). -/
theorem c71_check (g : Gram) (c : LLSets) (h : c.check g = true) : g.LL1 := LLSets.check_ll1 h

/-- C71: ranks show that all reachable non-terminals derive strings of terminals. -/
theorem c71_ranked (g : Gram) (rank : Nat → Nat) (h : g.ranked rank = true) : g.Fruitful := Gram.ranked_fruitful h

/-! ## Examples -/

/-- `E → T E'; E' → + T E' | ε; T → F T'; T' → * F T' | ε; F → ( E ) | n`, with `E, E', T, T', F = 0, …, 4` and
`+, *, (, ), n = 0, …, 4`. -/
def gTopDown : Gram :=
  { start := 0
    rules := [⟨0, [.nt 2, .nt 1]⟩, ⟨1, [.tm (.sym 0), .nt 2, .nt 1]⟩, ⟨1, []⟩, ⟨2, [.nt 4, .nt 3]⟩, ⟨3, [.tm (.sym 1), .nt 4, .nt 3]⟩,
      ⟨3, []⟩, ⟨4, [.tm (.sym 2), .nt 0, .tm (.sym 3)]⟩, ⟨4, [.tm (.sym 4)]⟩] }

def cTopDown : LLSets :=
  { null := fun n => n == 1 || n == 3
    first := fun n => if n == 1 then [.sym 0] else if n == 3 then [.sym 1] else [.sym 2, .sym 4]
    follow := fun n => if n ≤ 1 then [.sym 3, .eoi] else if n ≤ 3 then [.sym 0, .sym 3, .eoi] else [.sym 0, .sym 1, .sym 3, .eoi] }

theorem gTopDown_ll1 : gTopDown.LL1 := c71_check _ cTopDown (by decide)

theorem gTopDown_fruitful : gTopDown.Fruitful := c71_ranked _ (fun n => if n == 0 then 3 else if n == 2 then 2 else if n == 4 then 1 else 0) (by decide)

example (o : Seeds) (ho : o.Fair) : ∃ tab, NewGives o gTopDown (.ok (tab, [])) := c71_builds o ho _ (by decide) gTopDown_fruitful gTopDown_ll1

/-- `n + n` is a sentence, so it has a value. -/
example (o : Seeds) (ho : o.Fair) (p : Parser Nat Nat Nat) (ws : List Warning) (hm : MakesParser o (plainRules gTopDown) 0 p ws) :
    ∃ f : Tree Nat, IsTree gTopDown.rules 0 id [4, 0, 4] f ∧ ∀ f', IsTree gTopDown.rules 0 id [4, 0, 4] f' → f' = f := by
  have h := c71_parse o ho (plainRules gTopDown) 0 (by decide) (by unfold Gram.NoError; decide)
    (Gram.Fruitful.productive gTopDown_fruitful (by decide) (by unfold Gram.NoError; decide)) gTopDown_ll1 p ws hm id [4, 0, 4]
  obtain ⟨f, h1, h2, _⟩ := h.2.1 (by
    refine sentence_iff.2 ⟨Tree.node 0 [.node 3 [.node 7 [.leaf 0 4], .node 5 []],
      .node 1 [.leaf 1 0, .node 3 [.node 7 [.leaf 2 4], .node 5 []], .node 2 []]], ?_, by decide, by decide⟩
    exact .node 0 ⟨0, [.nt 2, .nt 1]⟩ _ _ _ rfl (.node 3 ⟨2, [.nt 4, .nt 3]⟩ _ _ _ rfl (.node 7 ⟨4, [.tm (.sym 4)]⟩ _ _ _ rfl (.leaf 0 4 _ _ rfl .nil) (.node 5 ⟨3, []⟩ _ _ _ rfl .nil .nil))
      (.node 1 ⟨1, [.tm (.sym 0), .nt 2, .nt 1]⟩ _ _ _ rfl (.leaf 1 0 _ _ rfl (.node 3 ⟨2, [.nt 4, .nt 3]⟩ _ _ _ rfl
        (.node 7 ⟨4, [.tm (.sym 4)]⟩ _ _ _ rfl (.leaf 2 4 _ _ rfl .nil) (.node 5 ⟨3, []⟩ _ _ _ rfl .nil .nil)) (.node 2 ⟨1, []⟩ _ _ _ rfl .nil .nil))) .nil)) .nil)
  exact ⟨f, h1, h2⟩

/-- With error rules: `L → x ; L | error ; L | ε`. -/
def gTopErr : Gram :=
  { start := 0, rules := [⟨0, [.tm (.sym 0), .tm (.sym 1), .nt 0]⟩, ⟨0, [.tm .err, .tm (.sym 1), .nt 0]⟩, ⟨0, []⟩] }

example (o : Seeds) (ho : o.Fair) : ∃ tab, NewGives o gTopErr (.ok (tab, [])) :=
  c71_builds o ho _ (by decide) (c71_ranked _ (fun _ => 0) (by decide))
    (c71_check _ { null := fun _ => true, first := fun _ => [.sym 0, .err], follow := fun _ => [.eoi] } (by decide))

/-- `S → a | U; U → U`: no terminal selects the rules for or with `U`. -/
def gFruitless : Gram := { start := 0, rules := [⟨0, [.tm (.sym 0)]⟩, ⟨0, [.nt 1]⟩, ⟨1, [.nt 1]⟩] }

/-- C71, the side condition: with a non-terminal that derives no string of terminals, there can be warnings. -/
theorem c71_fruitless : gFruitless.Ok ∧ gFruitless.LL1 ∧ ∃ tab w ws, NewGives idSeeds gFruitless (.ok (tab, w :: ws)) := by
  refine ⟨by decide, c71_check _ { null := fun _ => false, first := fun n => if n == 0 then [.sym 0] else [], follow := fun _ => [.eoi] } (by decide),
    _, _, _, ⟨20, rfl, by simp⟩⟩

def gFlat : Gram := ⟨[⟨0, [.nt 0, .tm (.sym 0)]⟩, ⟨0, [.tm (.sym 0)]⟩], 0⟩

/-- C71, the converse fails: `S → S a | a` has no warnings, but is not LL(1). -/
theorem c71_converse : (∃ tab, NewGives idSeeds gFlat (.ok (tab, []))) ∧ gFlat.Fruitful ∧ ¬ gFlat.LL1 := by
  refine ⟨⟨_, 20, rfl, by simp⟩, c71_ranked _ (fun _ => 0) (by decide), fun h => ?_⟩
  have h0 : gFlat.Selects 0 (.sym 0) := ⟨_, [], [], [.tm (.sym 0), .tm .eoi], rfl, .refl _,
    .step _ [] [.tm (.sym 0), .tm .eoi] ⟨0, [.tm (.sym 0)]⟩ (.refl _) (by decide)⟩
  have h1 : gFlat.Selects 1 (.sym 0) := ⟨_, [], [], [.tm .eoi], rfl, .refl _, .refl _⟩
  exact absurd (h 0 1 _ _ _ rfl rfl rfl h0 h1) (by decide)

end Verif.Par
