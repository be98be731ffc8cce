import Verif.Par.FamilyCheck
import Verif.Props.ParLL1

/-!
# Grammars for other generators

C79: grammars that are LR(0), SLR(1) or LALR(1), as other generators of bottom-up parsers want them, give no warnings; neither do
some that yacc and bison complain of.  For grammars in which everything derives tokens, being LR(1) is the same as having no
warnings and a start symbol that does not derive itself.
-/

namespace Verif.Par

/-- C79: LR(0) grammars are SLR(1), these are LALR(1), these are LR(1). -/
theorem c79_family (g : Gram) (hst : ∃ r ∈ g.rules, r.lhs = g.start) :
    (g.LR0 → g.SLR1) ∧ (g.SLR1 → g.LALR1) ∧ (g.LALR1 → g.LR1) := ⟨Gram.LR0.slr1, Gram.SLR1.lalr1 hst, Gram.LALR1.lr1⟩

/-- C79: for LR(1) grammars there are no warnings. -/
theorem c79_no_warnings (o : Seeds) (ho : o.Fair) (g : Gram) (hok : g.Ok) (hl : g.LR1) (tab : Tables) (ws : List Warning)
    (h : NewGives o g (.ok (tab, ws))) : ws = [] := by
  obtain ⟨fuel, h1, _⟩ := h
  exact (warn_iff (rules'_start g) ((new_spec ho hok fuel).1 tab ws h1).2.1).2 hl.no_clash

/-- C79: for LR(1) grammars in which everything derives terminals `LR1Parser::new` gives tables, without warnings. -/
theorem c79_builds (o : Seeds) (ho : o.Fair) (g : Gram) (hok : g.Ok) (hfr : g.Fruitful) (hl : g.LR1) : ∃ tab, NewGives o g (.ok (tab, [])) := by
  obtain ⟨r, ⟨fuel, h1, h2⟩, _⟩ := c20_new_terminates o ho g hok
  cases r with
  | fuel => exact absurd rfl h2
  | panic => exact absurd ((new_spec ho hok fuel).2.1 h1) (hfr.not_bad (freshSym_unused g))
  | ok x =>
    obtain ⟨tab, ws⟩ := x
    obtain rfl := c79_no_warnings o ho g hok hl tab ws ⟨fuel, h1, h2⟩
    exact ⟨tab, fuel, h1, h2⟩

/-- C79: no warnings are given exactly for the LR(1) grammars, but for a start symbol that derives itself. -/
theorem c79_lr1 (o : Seeds) (ho : o.Fair) (g : Gram) (hok : g.Ok) (hp : g.Productive) (tab : Tables) (ws : List Warning)
    (h : NewGives o g (.ok (tab, ws))) : g.LR1 ↔ ws = [] ∧ ¬ g.Cyclic := by
  constructor
  · intro hl
    obtain rfl := c79_no_warnings o ho g hok hl tab ws h
    exact ⟨rfl, hl.not_cyclic ho hok h hp⟩
  · rintro ⟨rfl, hcy⟩
    obtain ⟨fuel, h1, _⟩ := h
    have hnc := (warn_iff (rules'_start g) ((new_spec ho hok fuel).1 tab [] h1).2.1).1 rfl
    rintro ⟨γ, a, r, k1, k2, k3⟩
    rcases k3 with k3 | ⟨rfl, k3⟩ | k3
    · exact hnc ⟨γ, a, r, k1, k2, .inl k3⟩
    · rw [Gram.full, accepts_iff (freshSym_unused g)] at k3
      subst k3
      exact hcy (cyclic_of_complete ho hok ⟨fuel, h1, by simp⟩ hp.fruitful k1 k2)
    · exact hnc ⟨γ, a, r, k1, k2, .inr k3⟩

/-- C79: `LR1Parser::new` and `parse` for an LR(1) grammar (so for an LALR(1) one) without error rules.  There is no warning; a
sentence has exactly one derivation tree, and its value (or the error of its callbacks) is the result; anything else gives an
error. -/
theorem c79_parse (o : Seeds) (ho : o.Fair) (rules : List (Rule N T E)) (start : Nat) (hok : (gram rules start).Ok)
    (hn : (gram rules start).NoError) (hp : (gram rules start).Productive) (hl : (gram rules start).LR1)
    (p : Parser N T E) (ws : List Warning) (hm : MakesParser o rules start p ws) (idx : T → Nat) (input : List T) :
    ws = [] ∧
    ((gram rules start).Sentence (input.map idx) → ∃ f, IsTree (rules.map Rule.plain) start idx input f ∧
      (∀ f', IsTree (rules.map Rule.plain) start idx input f' → f' = f) ∧
      ∀ calls, (∀ v, Evals rules [f] calls (.ok [.nt v]) ↔ ∃ c, ParsesTo idx p input (.ok v) c ∧ c.log.reverse = calls) ∧
        (∀ e, Evals rules [f] calls (.error e) ↔ ∃ c, ParsesTo idx p input (.error (.reducer e)) c ∧ c.log.reverse = calls)) ∧
    (¬ (gram rules start).Sentence (input.map idx) →
      (∃ c, ParsesTo idx p input (.error .noRecovery) c) ∨ ∃ e c, ParsesTo idx p input (.error (.reducer e)) c) := by
  obtain ⟨rfl, hcy⟩ := (c79_lr1 o ho _ hok hp p.tab ws hm.1).1 hl
  refine ⟨rfl, fun hs => ?_, fun hs => c26_rejects o ho rules start hok hn hp _ hm idx input hs⟩
  obtain ⟨f, hf⟩ := sentence_iff.1 hs
  exact ⟨f, hf, fun f' hf' => c25_unambiguous o ho (gram rules start) hok _ hm.1 hcy idx input f' f hf' hf,
    fun calls => c30_evaluation o ho rules start hok _ hm hcy idx input f hf calls⟩

/-- C79: an automaton that passes the check shows that a grammar is LR(0), SLR(1), LALR(1) or LR(1). -/
theorem c79_check (g : Gram) (c : Automaton) : (c.checkLR0 g = true → g.LR0) ∧ (c.checkSLR1 g = true → g.SLR1) ∧
    (c.checkLALR1 g = true → g.LALR1) ∧ (c.checkLR1 g = true → g.LR1) :=
  ⟨Automaton.checkLR0_spec, Automaton.checkSLR1_spec, Automaton.checkLALR1_spec, Automaton.checkLR1_spec⟩

/-! ## Examples -/

/-- `S → ( S ) | a`. -/
def gBrackets : Gram :=
  { start := 0
    rules := [⟨0, [.tm (.sym 0), .nt 0, .tm (.sym 1)]⟩, ⟨0, [.tm (.sym 2)]⟩] }

def cBrackets : Automaton :=
  { states := [
      [⟨2, 0, [.eoi]⟩, ⟨0, 0, [.eoi]⟩, ⟨1, 0, [.eoi]⟩],
      [⟨2, 1, [.eoi]⟩],
      [⟨0, 1, [.sym 1, .eoi]⟩, ⟨0, 0, [.sym 1]⟩, ⟨1, 0, [.sym 1]⟩],
      [⟨1, 1, [.sym 1, .eoi]⟩],
      [⟨0, 2, [.sym 1, .eoi]⟩],
      [⟨0, 3, [.sym 1, .eoi]⟩]]
    edges := [(0, .nt 0, 1), (0, .tm (.sym 0), 2), (0, .tm (.sym 2), 3), (2, .nt 0, 4), (2, .tm (.sym 0), 2), (2, .tm (.sym 2), 3),
      (4, .tm (.sym 1), 5)]
    sets := { null := fun _ => false
              first := fun _ => [.sym 0, .sym 2]
              follow := fun _ => [.sym 1, .eoi] } }

/-- `E → T + E | T; T → a`. -/
def gSums : Gram :=
  { start := 0
    rules := [⟨0, [.nt 1, .tm (.sym 0), .nt 0]⟩, ⟨0, [.nt 1]⟩, ⟨1, [.tm (.sym 1)]⟩] }

def cSums : Automaton :=
  { states := [
      [⟨3, 0, [.eoi]⟩, ⟨0, 0, [.eoi]⟩, ⟨1, 0, [.eoi]⟩, ⟨2, 0, [.sym 0, .eoi]⟩],
      [⟨3, 1, [.eoi]⟩],
      [⟨0, 1, [.eoi]⟩, ⟨1, 1, [.eoi]⟩],
      [⟨2, 1, [.sym 0, .eoi]⟩],
      [⟨0, 2, [.eoi]⟩, ⟨0, 0, [.eoi]⟩, ⟨1, 0, [.eoi]⟩, ⟨2, 0, [.sym 0, .eoi]⟩],
      [⟨0, 3, [.eoi]⟩]]
    edges := [(0, .nt 0, 1), (0, .nt 1, 2), (0, .tm (.sym 1), 3), (2, .tm (.sym 0), 4), (4, .nt 0, 5), (4, .nt 1, 2),
      (4, .tm (.sym 1), 3)]
    sets := { null := fun _ => false
              first := fun _ => [.sym 1]
              follow := fun n => if n == 0 then [.eoi] else [.sym 0, .eoi] } }

/-- `S → L = R | R; L → * R | a; R → L`. -/
def gAssign : Gram :=
  { start := 0
    rules := [⟨0, [.nt 1, .tm (.sym 0), .nt 2]⟩, ⟨0, [.nt 2]⟩, ⟨1, [.tm (.sym 1), .nt 2]⟩, ⟨1, [.tm (.sym 2)]⟩, ⟨2, [.nt 1]⟩] }

def cAssign : Automaton :=
  { states := [
      [⟨5, 0, [.eoi]⟩, ⟨0, 0, [.eoi]⟩, ⟨1, 0, [.eoi]⟩, ⟨2, 0, [.sym 0, .eoi]⟩, ⟨3, 0, [.sym 0, .eoi]⟩, ⟨4, 0, [.eoi]⟩],
      [⟨5, 1, [.eoi]⟩],
      [⟨0, 1, [.eoi]⟩, ⟨4, 1, [.eoi]⟩],
      [⟨1, 1, [.eoi]⟩],
      [⟨2, 1, [.sym 0, .eoi]⟩, ⟨4, 0, [.sym 0, .eoi]⟩, ⟨2, 0, [.sym 0, .eoi]⟩, ⟨3, 0, [.sym 0, .eoi]⟩],
      [⟨3, 1, [.sym 0, .eoi]⟩],
      [⟨0, 2, [.eoi]⟩, ⟨4, 0, [.eoi]⟩, ⟨2, 0, [.eoi]⟩, ⟨3, 0, [.eoi]⟩],
      [⟨2, 2, [.sym 0, .eoi]⟩],
      [⟨4, 1, [.sym 0, .eoi]⟩],
      [⟨0, 3, [.eoi]⟩]]
    edges := [(0, .nt 0, 1), (0, .nt 1, 2), (0, .nt 2, 3), (0, .tm (.sym 1), 4), (0, .tm (.sym 2), 5), (2, .tm (.sym 0), 6),
      (4, .nt 2, 7), (4, .nt 1, 8), (4, .tm (.sym 1), 4), (4, .tm (.sym 2), 5), (6, .nt 2, 9), (6, .nt 1, 8),
      (6, .tm (.sym 1), 4), (6, .tm (.sym 2), 5)]
    sets := { null := fun _ => false
              first := fun _ => [.sym 1, .sym 2]
              follow := fun n => if n == 0 then [.eoi] else [.sym 0, .eoi] } }

/-- `S → a E a | b E b | a F b | b F a; E → e; F → e`. -/
def gMirror : Gram :=
  { start := 0
    rules := [⟨0, [.tm (.sym 0), .nt 1, .tm (.sym 0)]⟩, ⟨0, [.tm (.sym 1), .nt 1, .tm (.sym 1)]⟩,
      ⟨0, [.tm (.sym 0), .nt 2, .tm (.sym 1)]⟩, ⟨0, [.tm (.sym 1), .nt 2, .tm (.sym 0)]⟩, ⟨1, [.tm (.sym 2)]⟩, ⟨2, [.tm (.sym 2)]⟩] }

def cMirror : Automaton :=
  { states := [
      [⟨6, 0, [.eoi]⟩, ⟨0, 0, [.eoi]⟩, ⟨1, 0, [.eoi]⟩, ⟨2, 0, [.eoi]⟩, ⟨3, 0, [.eoi]⟩],
      [⟨6, 1, [.eoi]⟩],
      [⟨0, 1, [.eoi]⟩, ⟨2, 1, [.eoi]⟩, ⟨4, 0, [.sym 0]⟩, ⟨5, 0, [.sym 1]⟩],
      [⟨1, 1, [.eoi]⟩, ⟨3, 1, [.eoi]⟩, ⟨4, 0, [.sym 1]⟩, ⟨5, 0, [.sym 0]⟩],
      [⟨0, 2, [.eoi]⟩],
      [⟨2, 2, [.eoi]⟩],
      [⟨4, 1, [.sym 0]⟩, ⟨5, 1, [.sym 1]⟩],
      [⟨1, 2, [.eoi]⟩],
      [⟨3, 2, [.eoi]⟩],
      [⟨4, 1, [.sym 1]⟩, ⟨5, 1, [.sym 0]⟩],
      [⟨0, 3, [.eoi]⟩],
      [⟨2, 3, [.eoi]⟩],
      [⟨1, 3, [.eoi]⟩],
      [⟨3, 3, [.eoi]⟩]]
    edges := [(0, .nt 0, 1), (0, .tm (.sym 0), 2), (0, .tm (.sym 1), 3), (2, .nt 1, 4), (2, .nt 2, 5), (2, .tm (.sym 2), 6),
      (3, .nt 1, 7), (3, .nt 2, 8), (3, .tm (.sym 2), 9), (4, .tm (.sym 0), 10), (5, .tm (.sym 1), 11), (7, .tm (.sym 1), 12),
      (8, .tm (.sym 0), 13)]
    sets := { null := fun _ => false
              first := fun n => if n == 0 then [.sym 0, .sym 1] else [.sym 2]
              follow := fun n => if n == 0 then [.eoi] else [.sym 0, .sym 1] } }

/-- The LR(0) automaton of `gMirror`. -/
def mMirror : Automaton :=
  { states := [
      [⟨6, 0, [.eoi]⟩, ⟨0, 0, [.eoi]⟩, ⟨1, 0, [.eoi]⟩, ⟨2, 0, [.eoi]⟩, ⟨3, 0, [.eoi]⟩],
      [⟨6, 1, [.eoi]⟩],
      [⟨0, 1, [.eoi]⟩, ⟨2, 1, [.eoi]⟩, ⟨4, 0, [.sym 0]⟩, ⟨5, 0, [.sym 1]⟩],
      [⟨1, 1, [.eoi]⟩, ⟨3, 1, [.eoi]⟩, ⟨4, 0, [.sym 1]⟩, ⟨5, 0, [.sym 0]⟩],
      [⟨0, 2, [.eoi]⟩],
      [⟨2, 2, [.eoi]⟩],
      [⟨4, 1, [.sym 0, .sym 1]⟩, ⟨5, 1, [.sym 0, .sym 1]⟩],
      [⟨1, 2, [.eoi]⟩],
      [⟨3, 2, [.eoi]⟩],
      [⟨0, 3, [.eoi]⟩],
      [⟨2, 3, [.eoi]⟩],
      [⟨1, 3, [.eoi]⟩],
      [⟨3, 3, [.eoi]⟩]]
    edges := [(0, .nt 0, 1), (0, .tm (.sym 0), 2), (0, .tm (.sym 1), 3), (2, .nt 1, 4), (2, .nt 2, 5), (2, .tm (.sym 2), 6),
      (3, .nt 1, 7), (3, .nt 2, 8), (3, .tm (.sym 2), 6), (4, .tm (.sym 0), 9), (5, .tm (.sym 1), 10), (7, .tm (.sym 1), 11),
      (8, .tm (.sym 0), 12)]
    sets := { null := fun _ => false
              first := fun n => if n == 0 then [.sym 0, .sym 1] else [.sym 2]
              follow := fun n => if n == 0 then [.eoi] else [.sym 0, .sym 1] } }

theorem gMirror_same : SameDots gMirror.full gMirror.rules.length [.tm (.sym 0), .tm (.sym 2)] [.tm (.sym 1), .tm (.sym 2)] :=
  Automaton.same_dots (c := mMirror) (q := 6) (by decide +kernel) (by decide +kernel) (by decide +kernel) (by decide +kernel)

/-- C79: each of the families is larger than the one before: `E → T + E | T; T → a` is SLR(1), but not LR(0); `S → L = R | R;
L → * R | a; R → L` is LALR(1), but not SLR(1); `S → a E a | b E b | a F b | b F a; E → e; F → e` is LR(1), but not LALR(1). -/
theorem c79_strict : (gSums.SLR1 ∧ ¬ gSums.LR0) ∧ (gAssign.LALR1 ∧ ¬ gAssign.SLR1) ∧ gMirror.LR1 ∧ ¬ gMirror.LALR1 := by
  refine ⟨⟨(c79_check _ cSums).2.1 (by decide +kernel), fun h => h ?_⟩, ⟨(c79_check _ cAssign).2.2.1 (by decide +kernel), fun h => h ?_⟩,
    (c79_check _ cMirror).2.2.2 (by decide +kernel), fun h => h ?_⟩
  · have h0 : Dots gSums.full 3 [] 3 0 := .start
    have h1 : Dots gSums.full 3 [.nt 1] 0 1 := .advance [] 0 0 _ _ (.expand _ _ _ _ 0 0 _ h0 rfl rfl rfl rfl) rfl rfl
    have h2 : Dots gSums.full 3 [.nt 1] 1 1 := .advance [] 1 0 _ _ (.expand _ _ _ _ 0 1 _ h0 rfl rfl rfl rfl) rfl rfl
    exact ⟨[.nt 1], .sym 0, 1, by decide, ⟨_, rfl, h2⟩, trivial, .inl (.inl ⟨0, 1, _, h1, rfl, rfl⟩)⟩
  · have h0 : Dots gAssign.full 5 [] 5 0 := .start
    have h1 : Dots gAssign.full 5 [.nt 1] 0 1 := .advance [] 0 0 _ _ (.expand _ _ _ _ 0 0 _ h0 rfl rfl rfl rfl) rfl rfl
    have h2 : Dots gAssign.full 5 [.nt 1] 4 1 :=
      .advance [] 4 0 _ _ (.expand _ _ _ _ 2 4 _ (.expand _ _ _ _ 0 1 _ h0 rfl rfl rfl rfl) rfl rfl rfl rfl) rfl rfl
    refine ⟨[.nt 1], .sym 0, 4, by decide, ⟨_, rfl, h2⟩, ⟨_, rfl, [.tm (.sym 1)], [.tm (.sym 0), .nt 2], _, ?_, .refl _⟩,
      .inl (.inl ⟨0, 1, _, h1, rfl, rfl⟩)⟩
    exact .step _ [] [.tm (.sym 0), .nt 2] ⟨1, [.tm (.sym 1), .nt 2]⟩ (.step _ [] [] ⟨0, [.nt 1, .tm (.sym 0), .nt 2]⟩ (.refl _) (by decide)) (by decide)
  · have h0 : Valid gMirror.full 6 [] ⟨6, 0, .eoi⟩ := .start
    have h1 : Valid gMirror.full 6 [.tm (.sym 0), .tm (.sym 2)] ⟨4, 1, .sym 0⟩ :=
      .advance [.tm (.sym 0)] ⟨4, 0, .sym 0⟩ _ _ (.expand _ ⟨0, 1, .eoi⟩ _ 1 4 _ (.sym 0) [.tm .eoi]
        (.advance [] ⟨0, 0, .eoi⟩ _ _ (.expand _ _ _ 0 0 _ .eoi [] h0 rfl rfl rfl rfl (.refl _)) rfl rfl) rfl rfl rfl rfl (.refl _)) rfl rfl
    have h2 : Valid gMirror.full 6 [.tm (.sym 1), .tm (.sym 2)] ⟨5, 1, .sym 0⟩ :=
      .advance [.tm (.sym 1)] ⟨5, 0, .sym 0⟩ _ _ (.expand _ ⟨3, 1, .eoi⟩ _ 2 5 _ (.sym 0) [.tm .eoi]
        (.advance [] ⟨3, 0, .eoi⟩ _ _ (.expand _ _ _ 0 3 _ .eoi [] h0 rfl rfl rfl rfl (.refl _)) rfl rfl) rfl rfl rfl rfl (.refl _)) rfl rfl
    have c1 : Complete gMirror.full 6 [.tm (.sym 0), .tm (.sym 2)] 4 (.sym 0) := ⟨_, rfl, h1⟩
    have c2 : Complete gMirror.full 6 [.tm (.sym 1), .tm (.sym 2)] 5 (.sym 0) := ⟨_, rfl, h2⟩
    refine ⟨[.tm (.sym 0), .tm (.sym 2)], .sym 0, 4, by decide, c1.ends, ⟨_, fun _ _ => Iff.rfl, c1⟩,
      .inr ⟨5, by decide, by decide, ?_, _, gMirror_same, c2⟩⟩
    exact ⟨_, rfl, (gMirror_same 5 1).2 h2.dots⟩

example : gBrackets.LR0 := (c79_check _ cBrackets).1 (by decide +kernel)

example : (∃ r ∈ gSums.rules, r.lhs = gSums.start) ∧ (∃ r ∈ gAssign.rules, r.lhs = gAssign.start) := by decide

theorem gMirror_fruitful : gMirror.Fruitful := c71_ranked _ (fun n => if n == 0 then 1 else 0) (by decide)

example : gMirror.Ok ∧ gMirror.NoError ∧ gMirror.Productive ∧ gMirror.LR1 :=
  ⟨by decide, by unfold Gram.NoError; decide, gMirror_fruitful.productive (by decide) (by unfold Gram.NoError; decide), c79_strict.2.2.1⟩

/-- `LR1Parser::new` does not complain of the grammar that is not LALR(1). -/
example : ∃ tab, NewGives idSeeds gMirror (.ok (tab, [])) :=
  c79_builds idSeeds idSeeds_fair gMirror (by decide) gMirror_fruitful c79_strict.2.2.1

/-- A small language: `P → P S | ε; S → x = E ; | if ( E ) B | if ( E ) B else B | while ( E ) B | B | error ;; B → { P };
E → E + T | T; T → T * F | F; F → ( E ) | x | 1 | x ( A ); A → ε | L; L → E | L , E`, with
`x, =, ;, if, (, ), else, while, {, }, +, *, 1, ‘,’ = 0, …, 13`. -/
def gLang : Gram :=
  { start := 0
    rules := [⟨0, [.nt 0, .nt 1]⟩, ⟨0, []⟩, ⟨1, [.tm (.sym 0), .tm (.sym 1), .nt 3, .tm (.sym 2)]⟩,
      ⟨1, [.tm (.sym 3), .tm (.sym 4), .nt 3, .tm (.sym 5), .nt 2]⟩,
      ⟨1, [.tm (.sym 3), .tm (.sym 4), .nt 3, .tm (.sym 5), .nt 2, .tm (.sym 6), .nt 2]⟩,
      ⟨1, [.tm (.sym 7), .tm (.sym 4), .nt 3, .tm (.sym 5), .nt 2]⟩, ⟨1, [.nt 2]⟩, ⟨1, [.tm .err, .tm (.sym 2)]⟩,
      ⟨2, [.tm (.sym 8), .nt 0, .tm (.sym 9)]⟩, ⟨3, [.nt 3, .tm (.sym 10), .nt 4]⟩, ⟨3, [.nt 4]⟩,
      ⟨4, [.nt 4, .tm (.sym 11), .nt 5]⟩, ⟨4, [.nt 5]⟩, ⟨5, [.tm (.sym 4), .nt 3, .tm (.sym 5)]⟩, ⟨5, [.tm (.sym 0)]⟩,
      ⟨5, [.tm (.sym 12)]⟩, ⟨5, [.tm (.sym 0), .tm (.sym 4), .nt 6, .tm (.sym 5)]⟩, ⟨6, []⟩, ⟨6, [.nt 7]⟩, ⟨7, [.nt 3]⟩,
      ⟨7, [.nt 7, .tm (.sym 13), .nt 3]⟩] }

def cLang : Automaton :=
  { states := [
      [⟨21, 0, [.eoi]⟩, ⟨0, 0, [.sym 0, .sym 3, .sym 7, .sym 8, .err, .eoi]⟩, ⟨1, 0, [.sym 0, .sym 3, .sym 7, .sym 8, .err, .eoi]⟩],
      [⟨21, 1, [.eoi]⟩, ⟨0, 1, [.sym 0, .sym 3, .sym 7, .sym 8, .err, .eoi]⟩, ⟨2, 0, [.sym 0, .sym 3, .sym 7, .sym 8, .err, .eoi]⟩,
        ⟨3, 0, [.sym 0, .sym 3, .sym 7, .sym 8, .err, .eoi]⟩, ⟨4, 0, [.sym 0, .sym 3, .sym 7, .sym 8, .err, .eoi]⟩,
        ⟨5, 0, [.sym 0, .sym 3, .sym 7, .sym 8, .err, .eoi]⟩, ⟨6, 0, [.sym 0, .sym 3, .sym 7, .sym 8, .err, .eoi]⟩,
        ⟨7, 0, [.sym 0, .sym 3, .sym 7, .sym 8, .err, .eoi]⟩, ⟨8, 0, [.sym 0, .sym 3, .sym 7, .sym 8, .err, .eoi]⟩],
      [⟨0, 2, [.sym 0, .sym 3, .sym 7, .sym 8, .sym 9, .err, .eoi]⟩],
      [⟨2, 1, [.sym 0, .sym 3, .sym 7, .sym 8, .sym 9, .err, .eoi]⟩],
      [⟨3, 1, [.sym 0, .sym 3, .sym 7, .sym 8, .sym 9, .err, .eoi]⟩, ⟨4, 1, [.sym 0, .sym 3, .sym 7, .sym 8, .sym 9, .err, .eoi]⟩],
      [⟨5, 1, [.sym 0, .sym 3, .sym 7, .sym 8, .sym 9, .err, .eoi]⟩],
      [⟨6, 1, [.sym 0, .sym 3, .sym 7, .sym 8, .sym 9, .err, .eoi]⟩],
      [⟨7, 1, [.sym 0, .sym 3, .sym 7, .sym 8, .sym 9, .err, .eoi]⟩],
      [⟨8, 1, [.sym 0, .sym 3, .sym 6, .sym 7, .sym 8, .sym 9, .err, .eoi]⟩, ⟨0, 0, [.sym 0, .sym 3, .sym 7, .sym 8, .sym 9, .err]⟩,
        ⟨1, 0, [.sym 0, .sym 3, .sym 7, .sym 8, .sym 9, .err]⟩],
      [⟨2, 2, [.sym 0, .sym 3, .sym 7, .sym 8, .sym 9, .err, .eoi]⟩, ⟨9, 0, [.sym 2, .sym 10]⟩, ⟨10, 0, [.sym 2, .sym 10]⟩,
        ⟨11, 0, [.sym 2, .sym 10, .sym 11]⟩, ⟨12, 0, [.sym 2, .sym 10, .sym 11]⟩, ⟨13, 0, [.sym 2, .sym 10, .sym 11]⟩,
        ⟨14, 0, [.sym 2, .sym 10, .sym 11]⟩, ⟨15, 0, [.sym 2, .sym 10, .sym 11]⟩, ⟨16, 0, [.sym 2, .sym 10, .sym 11]⟩],
      [⟨3, 2, [.sym 0, .sym 3, .sym 7, .sym 8, .sym 9, .err, .eoi]⟩, ⟨4, 2, [.sym 0, .sym 3, .sym 7, .sym 8, .sym 9, .err, .eoi]⟩,
        ⟨9, 0, [.sym 5, .sym 10]⟩, ⟨10, 0, [.sym 5, .sym 10]⟩, ⟨11, 0, [.sym 5, .sym 10, .sym 11]⟩, ⟨12, 0, [.sym 5, .sym 10, .sym 11]⟩,
        ⟨13, 0, [.sym 5, .sym 10, .sym 11]⟩, ⟨14, 0, [.sym 5, .sym 10, .sym 11]⟩, ⟨15, 0, [.sym 5, .sym 10, .sym 11]⟩,
        ⟨16, 0, [.sym 5, .sym 10, .sym 11]⟩],
      [⟨5, 2, [.sym 0, .sym 3, .sym 7, .sym 8, .sym 9, .err, .eoi]⟩, ⟨9, 0, [.sym 5, .sym 10]⟩, ⟨10, 0, [.sym 5, .sym 10]⟩,
        ⟨11, 0, [.sym 5, .sym 10, .sym 11]⟩, ⟨12, 0, [.sym 5, .sym 10, .sym 11]⟩, ⟨13, 0, [.sym 5, .sym 10, .sym 11]⟩,
        ⟨14, 0, [.sym 5, .sym 10, .sym 11]⟩, ⟨15, 0, [.sym 5, .sym 10, .sym 11]⟩, ⟨16, 0, [.sym 5, .sym 10, .sym 11]⟩],
      [⟨7, 2, [.sym 0, .sym 3, .sym 7, .sym 8, .sym 9, .err, .eoi]⟩],
      [⟨8, 2, [.sym 0, .sym 3, .sym 6, .sym 7, .sym 8, .sym 9, .err, .eoi]⟩, ⟨0, 1, [.sym 0, .sym 3, .sym 7, .sym 8, .sym 9, .err]⟩,
        ⟨2, 0, [.sym 0, .sym 3, .sym 7, .sym 8, .sym 9, .err]⟩, ⟨3, 0, [.sym 0, .sym 3, .sym 7, .sym 8, .sym 9, .err]⟩,
        ⟨4, 0, [.sym 0, .sym 3, .sym 7, .sym 8, .sym 9, .err]⟩, ⟨5, 0, [.sym 0, .sym 3, .sym 7, .sym 8, .sym 9, .err]⟩,
        ⟨6, 0, [.sym 0, .sym 3, .sym 7, .sym 8, .sym 9, .err]⟩, ⟨7, 0, [.sym 0, .sym 3, .sym 7, .sym 8, .sym 9, .err]⟩,
        ⟨8, 0, [.sym 0, .sym 3, .sym 7, .sym 8, .sym 9, .err]⟩],
      [⟨2, 3, [.sym 0, .sym 3, .sym 7, .sym 8, .sym 9, .err, .eoi]⟩, ⟨9, 1, [.sym 2, .sym 10]⟩],
      [⟨10, 1, [.sym 2, .sym 5, .sym 10, .sym 13]⟩, ⟨11, 1, [.sym 2, .sym 5, .sym 10, .sym 11, .sym 13]⟩],
      [⟨12, 1, [.sym 2, .sym 5, .sym 10, .sym 11, .sym 13]⟩],
      [⟨13, 1, [.sym 2, .sym 5, .sym 10, .sym 11, .sym 13]⟩, ⟨9, 0, [.sym 5, .sym 10]⟩, ⟨10, 0, [.sym 5, .sym 10]⟩,
        ⟨11, 0, [.sym 5, .sym 10, .sym 11]⟩, ⟨12, 0, [.sym 5, .sym 10, .sym 11]⟩, ⟨13, 0, [.sym 5, .sym 10, .sym 11]⟩,
        ⟨14, 0, [.sym 5, .sym 10, .sym 11]⟩, ⟨15, 0, [.sym 5, .sym 10, .sym 11]⟩, ⟨16, 0, [.sym 5, .sym 10, .sym 11]⟩],
      [⟨14, 1, [.sym 2, .sym 5, .sym 10, .sym 11, .sym 13]⟩, ⟨16, 1, [.sym 2, .sym 5, .sym 10, .sym 11, .sym 13]⟩],
      [⟨15, 1, [.sym 2, .sym 5, .sym 10, .sym 11, .sym 13]⟩],
      [⟨3, 3, [.sym 0, .sym 3, .sym 7, .sym 8, .sym 9, .err, .eoi]⟩, ⟨4, 3, [.sym 0, .sym 3, .sym 7, .sym 8, .sym 9, .err, .eoi]⟩,
        ⟨9, 1, [.sym 5, .sym 10]⟩],
      [⟨5, 3, [.sym 0, .sym 3, .sym 7, .sym 8, .sym 9, .err, .eoi]⟩, ⟨9, 1, [.sym 5, .sym 10]⟩],
      [⟨8, 3, [.sym 0, .sym 3, .sym 6, .sym 7, .sym 8, .sym 9, .err, .eoi]⟩],
      [⟨2, 4, [.sym 0, .sym 3, .sym 7, .sym 8, .sym 9, .err, .eoi]⟩],
      [⟨9, 2, [.sym 2, .sym 5, .sym 10, .sym 13]⟩, ⟨11, 0, [.sym 2, .sym 5, .sym 10, .sym 11, .sym 13]⟩,
        ⟨12, 0, [.sym 2, .sym 5, .sym 10, .sym 11, .sym 13]⟩, ⟨13, 0, [.sym 2, .sym 5, .sym 10, .sym 11, .sym 13]⟩,
        ⟨14, 0, [.sym 2, .sym 5, .sym 10, .sym 11, .sym 13]⟩, ⟨15, 0, [.sym 2, .sym 5, .sym 10, .sym 11, .sym 13]⟩,
        ⟨16, 0, [.sym 2, .sym 5, .sym 10, .sym 11, .sym 13]⟩],
      [⟨11, 2, [.sym 2, .sym 5, .sym 10, .sym 11, .sym 13]⟩, ⟨13, 0, [.sym 2, .sym 5, .sym 10, .sym 11, .sym 13]⟩,
        ⟨14, 0, [.sym 2, .sym 5, .sym 10, .sym 11, .sym 13]⟩, ⟨15, 0, [.sym 2, .sym 5, .sym 10, .sym 11, .sym 13]⟩,
        ⟨16, 0, [.sym 2, .sym 5, .sym 10, .sym 11, .sym 13]⟩],
      [⟨13, 2, [.sym 2, .sym 5, .sym 10, .sym 11, .sym 13]⟩, ⟨9, 1, [.sym 5, .sym 10]⟩],
      [⟨16, 2, [.sym 2, .sym 5, .sym 10, .sym 11, .sym 13]⟩, ⟨17, 0, [.sym 5]⟩, ⟨18, 0, [.sym 5]⟩, ⟨19, 0, [.sym 5, .sym 13]⟩,
        ⟨20, 0, [.sym 5, .sym 13]⟩, ⟨9, 0, [.sym 5, .sym 10, .sym 13]⟩, ⟨10, 0, [.sym 5, .sym 10, .sym 13]⟩,
        ⟨11, 0, [.sym 5, .sym 10, .sym 11, .sym 13]⟩, ⟨12, 0, [.sym 5, .sym 10, .sym 11, .sym 13]⟩,
        ⟨13, 0, [.sym 5, .sym 10, .sym 11, .sym 13]⟩, ⟨14, 0, [.sym 5, .sym 10, .sym 11, .sym 13]⟩,
        ⟨15, 0, [.sym 5, .sym 10, .sym 11, .sym 13]⟩, ⟨16, 0, [.sym 5, .sym 10, .sym 11, .sym 13]⟩],
      [⟨3, 4, [.sym 0, .sym 3, .sym 7, .sym 8, .sym 9, .err, .eoi]⟩, ⟨4, 4, [.sym 0, .sym 3, .sym 7, .sym 8, .sym 9, .err, .eoi]⟩,
        ⟨8, 0, [.sym 0, .sym 3, .sym 6, .sym 7, .sym 8, .sym 9, .err, .eoi]⟩],
      [⟨5, 4, [.sym 0, .sym 3, .sym 7, .sym 8, .sym 9, .err, .eoi]⟩, ⟨8, 0, [.sym 0, .sym 3, .sym 7, .sym 8, .sym 9, .err, .eoi]⟩],
      [⟨9, 3, [.sym 2, .sym 5, .sym 10, .sym 13]⟩, ⟨11, 1, [.sym 2, .sym 5, .sym 10, .sym 11, .sym 13]⟩],
      [⟨11, 3, [.sym 2, .sym 5, .sym 10, .sym 11, .sym 13]⟩],
      [⟨13, 3, [.sym 2, .sym 5, .sym 10, .sym 11, .sym 13]⟩],
      [⟨16, 3, [.sym 2, .sym 5, .sym 10, .sym 11, .sym 13]⟩],
      [⟨18, 1, [.sym 5]⟩, ⟨20, 1, [.sym 5, .sym 13]⟩],
      [⟨19, 1, [.sym 5, .sym 13]⟩, ⟨9, 1, [.sym 5, .sym 10, .sym 13]⟩],
      [⟨3, 5, [.sym 0, .sym 3, .sym 7, .sym 8, .sym 9, .err, .eoi]⟩, ⟨4, 5, [.sym 0, .sym 3, .sym 7, .sym 8, .sym 9, .err, .eoi]⟩],
      [⟨5, 5, [.sym 0, .sym 3, .sym 7, .sym 8, .sym 9, .err, .eoi]⟩],
      [⟨16, 4, [.sym 2, .sym 5, .sym 10, .sym 11, .sym 13]⟩],
      [⟨20, 2, [.sym 5, .sym 13]⟩, ⟨9, 0, [.sym 5, .sym 10, .sym 13]⟩, ⟨10, 0, [.sym 5, .sym 10, .sym 13]⟩,
        ⟨11, 0, [.sym 5, .sym 10, .sym 11, .sym 13]⟩, ⟨12, 0, [.sym 5, .sym 10, .sym 11, .sym 13]⟩,
        ⟨13, 0, [.sym 5, .sym 10, .sym 11, .sym 13]⟩, ⟨14, 0, [.sym 5, .sym 10, .sym 11, .sym 13]⟩,
        ⟨15, 0, [.sym 5, .sym 10, .sym 11, .sym 13]⟩, ⟨16, 0, [.sym 5, .sym 10, .sym 11, .sym 13]⟩],
      [⟨4, 6, [.sym 0, .sym 3, .sym 7, .sym 8, .sym 9, .err, .eoi]⟩, ⟨8, 0, [.sym 0, .sym 3, .sym 7, .sym 8, .sym 9, .err, .eoi]⟩],
      [⟨20, 3, [.sym 5, .sym 13]⟩, ⟨9, 1, [.sym 5, .sym 10, .sym 13]⟩],
      [⟨4, 7, [.sym 0, .sym 3, .sym 7, .sym 8, .sym 9, .err, .eoi]⟩]]
    edges := [(0, .nt 0, 1), (1, .nt 1, 2), (1, .tm (.sym 0), 3), (1, .tm (.sym 3), 4), (1, .tm (.sym 7), 5), (1, .nt 2, 6),
      (1, .tm .err, 7), (1, .tm (.sym 8), 8), (3, .tm (.sym 1), 9), (4, .tm (.sym 4), 10), (5, .tm (.sym 4), 11),
      (7, .tm (.sym 2), 12), (8, .nt 0, 13), (9, .nt 3, 14), (9, .nt 4, 15), (9, .nt 5, 16), (9, .tm (.sym 4), 17),
      (9, .tm (.sym 0), 18), (9, .tm (.sym 12), 19), (10, .nt 3, 20), (10, .nt 4, 15), (10, .nt 5, 16), (10, .tm (.sym 4), 17),
      (10, .tm (.sym 0), 18), (10, .tm (.sym 12), 19), (11, .nt 3, 21), (11, .nt 4, 15), (11, .nt 5, 16),
      (11, .tm (.sym 4), 17), (11, .tm (.sym 0), 18), (11, .tm (.sym 12), 19), (13, .tm (.sym 9), 22), (13, .nt 1, 2),
      (13, .tm (.sym 0), 3), (13, .tm (.sym 3), 4), (13, .tm (.sym 7), 5), (13, .nt 2, 6), (13, .tm .err, 7),
      (13, .tm (.sym 8), 8), (14, .tm (.sym 2), 23), (14, .tm (.sym 10), 24), (15, .tm (.sym 11), 25), (17, .nt 3, 26),
      (17, .nt 4, 15), (17, .nt 5, 16), (17, .tm (.sym 4), 17), (17, .tm (.sym 0), 18), (17, .tm (.sym 12), 19),
      (18, .tm (.sym 4), 27), (20, .tm (.sym 5), 28), (20, .tm (.sym 10), 24), (21, .tm (.sym 5), 29), (21, .tm (.sym 10), 24),
      (24, .nt 4, 30), (24, .nt 5, 16), (24, .tm (.sym 4), 17), (24, .tm (.sym 0), 18), (24, .tm (.sym 12), 19),
      (25, .nt 5, 31), (25, .tm (.sym 4), 17), (25, .tm (.sym 0), 18), (25, .tm (.sym 12), 19), (26, .tm (.sym 5), 32),
      (26, .tm (.sym 10), 24), (27, .nt 6, 33), (27, .nt 7, 34), (27, .nt 3, 35), (27, .nt 4, 15), (27, .nt 5, 16),
      (27, .tm (.sym 4), 17), (27, .tm (.sym 0), 18), (27, .tm (.sym 12), 19), (28, .nt 2, 36), (28, .tm (.sym 8), 8),
      (29, .nt 2, 37), (29, .tm (.sym 8), 8), (30, .tm (.sym 11), 25), (33, .tm (.sym 5), 38), (34, .tm (.sym 13), 39),
      (35, .tm (.sym 10), 24), (36, .tm (.sym 6), 40), (39, .nt 3, 41), (39, .nt 4, 15), (39, .nt 5, 16),
      (39, .tm (.sym 4), 17), (39, .tm (.sym 0), 18), (39, .tm (.sym 12), 19), (40, .nt 2, 42), (40, .tm (.sym 8), 8),
      (41, .tm (.sym 10), 24)]
    sets := { null := fun n => n == 0 || n == 6
              first := fun n => if n == 2 then [.sym 8] else if n == 0 || n == 1 then [.sym 0, .sym 3, .sym 7, .sym 8, .err] else [.sym 0, .sym 4, .sym 12]
              follow := fun n => if n == 2 then [.sym 0, .sym 3, .sym 6, .sym 7, .sym 8, .sym 9, .err, .eoi]
                else if n == 3 then [.sym 2, .sym 5, .sym 10, .sym 13] else if n == 6 then [.sym 5] else if n == 7 then [.sym 5, .sym 13]
                else if n == 0 || n == 1 then [.sym 0, .sym 3, .sym 7, .sym 8, .sym 9, .err, .eoi] else [.sym 2, .sym 5, .sym 10, .sym 11, .sym 13] } }

theorem gLang_lalr1 : gLang.LALR1 := (c79_check _ cLang).2.2.1 (by decide +kernel)

/-- No warnings for the small language, which has an empty rule, an error rule and optional parts. -/
example : ∃ tab, NewGives idSeeds gLang (.ok (tab, [])) :=
  c79_builds idSeeds idSeeds_fair gLang (by decide)
    (c71_ranked _ (fun n => [0, 1, 1, 3, 2, 1, 0, 4].getD n 0) (by decide +kernel)) gLang_lalr1.lr1

end Verif.Par
