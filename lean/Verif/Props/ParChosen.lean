import Verif.Par.ChosenProof
import Verif.Props.ParComplete
import Verif.Props.ParSeeds

/-!
# Which tree is taken where the grammar has conflicts: C63
-/

namespace Verif.Par

variable {N T E : Type}

/-- C63: whatever warnings there are, if a derivation tree of the input has only preferred reductions (shifting was not possible, nor an
earlier rule), `parse` evaluates this tree: it makes exactly its calls, in order, and returns its value or its first callback error. -/
theorem c63_takes (o : Seeds) (ho : o.Fair) (rules : List (Rule N T E)) (start : Nat) (hok : (gram rules start).Ok)
    (hfr : (gram rules start).Fruitful) (p : Parser N T E) (ws : List Warning) (hp : MakesParser o rules start p ws) (idx : T → Nat) (input : List T)
    (f : Tree T) (hf : (gram rules start).Chosen idx input f) (calls : List (Call N T)) :
    (∀ v, Evals rules [f] calls (.ok [.nt v]) → ∃ c, ParsesTo idx p input (.ok v) c ∧ c.log.reverse = calls) ∧
    (∀ e, Evals rules [f] calls (.error e) → ∃ c, ParsesTo idx p input (.error (.reducer e)) c ∧ c.log.reverse = calls) := by
  obtain ⟨fresh, hx⟩ := ctx_of_makes ho hok hp
  constructor
  · intro v hev
    rcases follow_chosen hx hfr hf hev with ⟨v', c, h1, h2, h3⟩ | ⟨e, c, h1, _⟩
    · cases h1
      exact ⟨c, h2, h3⟩
    · cases h1
  · intro e hev
    rcases follow_chosen hx hfr hf hev with ⟨v', c, h1, h2, h3⟩ | ⟨e', c, h1, h2, h3⟩
    · cases h1
    · cases h1
      exact ⟨c, h2, h3⟩

/-- C63: without error rules, `parse` returns a value exactly if the input has such a tree, which it evaluates. -/
theorem c63_exact (o : Seeds) (ho : o.Fair) (rules : List (Rule N T E)) (start : Nat) (hok : (gram rules start).Ok)
    (hfr : (gram rules start).Fruitful) (hn : (gram rules start).NoError) (p : Parser N T E) (ws : List Warning) (hp : MakesParser o rules start p ws)
    (idx : T → Nat) (input : List T) (v : N) (calls : List (Call N T)) :
    (∃ c, ParsesTo idx p input (.ok v) c ∧ c.log.reverse = calls) ↔
      ∃ f, (gram rules start).Chosen idx input f ∧ Evals rules [f] calls (.ok [.nt v]) := by
  constructor
  · rintro ⟨c, h, rfl⟩
    obtain ⟨fresh, hx⟩ := ctx_of_makes ho hok hp
    exact chosen_of_parses hx hfr hn h
  · rintro ⟨f, hf, hev⟩
    exact (c63_takes o ho rules start hok hfr p ws hp idx input f hf calls).1 v hev

/-- C63: there is at most one such tree. -/
theorem c63_unique (o : Seeds) (ho : o.Fair) (g : Gram) (hok : g.Ok) (hfr : g.Fruitful) (tab : Tables) (ws : List Warning)
    (h : NewGives o g (.ok (tab, ws))) (idx : T → Nat) (input : List T) (f f' : Tree T) (hf : g.Chosen idx input f) (hf' : g.Chosen idx input f') :
    f = f' :=
  chosen_unique ho hok hfr h hf hf'

/-- C63: without warnings and if the start symbol does not derive itself, every derivation tree is such a tree. -/
theorem c63_no_conflict (o : Seeds) (ho : o.Fair) (g : Gram) (hok : g.Ok) (hfr : g.Fruitful) (hn : g.NoError) (tab : Tables)
    (h : NewGives o g (.ok (tab, []))) (hc : ¬ g.Cyclic) (idx : T → Nat) (input : List T) (f : Tree T) :
    g.Chosen idx input f ↔ IsTree g.rules g.start idx input f := by
  refine ⟨fun h => h.1, fun hf => ?_⟩
  obtain ⟨lg, as, k1, k2⟩ := hf.1.treeEvals
  have hc30 := c30_evaluation o ho (treeRules (T := T) g.rules) g.start (by rw [treeGram]; exact hok) _ (treeParser_makes h) (by rw [treeGram]; exact hc)
    idx input f (by rw [treeRules_plain]; exact hf) lg
  obtain ⟨v, rfl⟩ : ∃ v, as = [.nt v] := by
    obtain ⟨r, cs, rule, rfl, _⟩ := hf.1.head_rule
    cases k1 with
    | node _ _ _ _ _ v _ _ _ _ _ _ k => cases k; exact ⟨v, rfl⟩
  obtain ⟨c, h1, _⟩ := (hc30.1 v).1 k1
  obtain ⟨f', h2, _⟩ := treeParser_taken ho hok hfr hn h h1
  rw [c25_unambiguous o ho g hok tab h hc idx input f f' hf h2.1]
  exact h2

/-! ## Examples -/

/-- `E → E + E | a`. -/
def gSum : Gram := ⟨[⟨0, [.nt 0, .tm (.sym 1), .nt 0]⟩, ⟨0, [.tm (.sym 0)]⟩], 0⟩

theorem gSum_fruitful : gSum.Fruitful := by
  have h0 : Gen gSum.rules [.nt 0] (tms [.sym 0]) := Gen.rule (r := ⟨0, [.tm (.sym 0)]⟩) (by simp [gSum])
  intro x n y h
  refine ⟨[.sym 0], gen_iff.1 ?_⟩
  have := h.mem (.nt n) (by simp)
  simp [gSum] at this
  subst this
  exact h0

/-- The tables `new` makes of it, with a warning. -/
def tSum : Tables :=
  { action := [(0, [(.sym 0, .shift 2)]), (1, [(.sym 1, .shift 3), (.eoi, .accept)]), (2, [(.sym 1, .reduce 1), (.eoi, .reduce 1)]),
      (3, [(.sym 0, .shift 2)]), (4, [(.sym 1, .shift 3), (.eoi, .reduce 0)])]
    goto := [(0, [(0, 1)]), (3, [(0, 4)])], errors := [], start := 0 }

theorem tSum_gives : ∃ w, NewGives idSeeds gSum (.ok (tSum, [w])) :=
  ⟨.shiftReduce [⟨0, 1, .sym 1⟩, ⟨0, 1, .eoi⟩, ⟨0, 3, .sym 1⟩, ⟨0, 3, .eoi⟩]
    [⟨0, 0, .sym 1⟩, ⟨0, 0, .eoi⟩, ⟨0, 2, .sym 1⟩, ⟨0, 2, .eoi⟩, ⟨1, 0, .sym 1⟩, ⟨1, 0, .eoi⟩] 0, 100, by decide +kernel, by simp⟩

/-- `a + (a + a)`. -/
def fRight : Tree Nat := .node 0 [.node 1 [.leaf 0 0], .leaf 1 1, .node 0 [.node 1 [.leaf 2 0], .leaf 3 1, .node 1 [.leaf 4 0]]]

/-- `(a + a) + a`. -/
def fLeft : Tree Nat := .node 0 [.node 0 [.node 1 [.leaf 0 0], .leaf 1 1, .node 1 [.leaf 2 0]], .leaf 3 1, .node 1 [.leaf 4 0]]

theorem fAtom (i : Nat) (h : [0, 1, 0, 1, 0][i]? = some 0) : Built gSum.rules id [0, 1, 0, 1, 0] [.nt 0] [.node 1 [.leaf i 0]] :=
  .node 1 ⟨0, [.tm (.sym 0)]⟩ _ _ _ rfl (.leaf _ _ _ _ h .nil) .nil

theorem fSum {f f' : Tree Nat} (i : Nat) (h : [0, 1, 0, 1, 0][i]? = some 1) (h1 : Built gSum.rules id [0, 1, 0, 1, 0] [.nt 0] [f])
    (h2 : Built gSum.rules id [0, 1, 0, 1, 0] [.nt 0] [f']) : Built gSum.rules id [0, 1, 0, 1, 0] [.nt 0] [.node 0 [f, .leaf i 1, f']] :=
  .node 0 ⟨0, [.nt 0, .tm (.sym 1), .nt 0]⟩ _ _ _ rfl (h1.append (.leaf _ _ _ _ h h2)) .nil

/-- For `E → E + E | a`, `a + a + a` has two derivation trees; the one for `a + (a + a)` is taken. -/
theorem c63_example : IsTree gSum.rules 0 id [0, 1, 0, 1, 0] fRight ∧ IsTree gSum.rules 0 id [0, 1, 0, 1, 0] fLeft ∧
    gSum.Chosen id [0, 1, 0, 1, 0] fRight ∧ ¬ gSum.Chosen id [0, 1, 0, 1, 0] fLeft := by
  have hr : IsTree gSum.rules 0 id [0, 1, 0, 1, 0] fRight := ⟨fSum 1 rfl (fAtom 0 rfl) (fSum 3 rfl (fAtom 2 rfl) (fAtom 4 rfl)), rfl, rfl⟩
  have hl : IsTree gSum.rules 0 id [0, 1, 0, 1, 0] fLeft := ⟨fSum 3 rfl (fSum 1 rfl (fAtom 0 rfl) (fAtom 2 rfl)) (fAtom 4 rfl), rfl, rfl⟩
  obtain ⟨w, hw⟩ := tSum_gives
  have hc : gSum.Chosen id [0, 1, 0, 1, 0] fRight := by
    have hp : ∃ c, ParsesTo id (treeParser Nat gSum tSum) [0, 1, 0, 1, 0] (.ok fRight.erase) c := ⟨_, 20, rfl⟩
    obtain ⟨c, hp⟩ := hp
    obtain ⟨f, h1, h2⟩ := treeParser_taken idSeeds_fair (by decide) gSum_fruitful (by unfold Gram.NoError; decide) hw hp
    have := erases_inj [fRight] [f] (by simp [erases, h2]) (by rw [h1.1.2.2, hr.2.2]) hr.2.1
    simp at this
    rw [this]
    exact h1
  refine ⟨hr, hl, hc, fun h => ?_⟩
  have := c63_unique idSeeds idSeeds_fair gSum (by decide) gSum_fruitful tSum _ hw id _ _ _ hc h
  simp [fRight, fLeft] at this

end Verif.Par
