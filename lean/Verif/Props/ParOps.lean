import Verif.Par.OpsRot
import Verif.Props.ParEnds

/-!
# Ambiguous grammars of expressions: C65
-/

namespace Verif.Par

variable {N T E : Type}

theorem Ops.gram {o : Ops} {g : Gram} (h : g.rules.Perm (o.rules g.start)) : OpGram o g := fun r => by
  rw [h.mem_iff, Ops.mem_rules]

theorem OpGram.ok {o : Ops} {g : Gram} (hg : OpGram o g) : g.Ok := by
  intro r hr hm
  have := ((hg r).1 hr).2
  generalize r.rhs = rhs at this hm
  cases this <;> simp at hm

theorem OpGram.not_empty {o : Ops} {g : Gram} (hg : OpGram o g) : ∀ r ∈ g.rules, r.rhs ≠ [] := by
  intro r hr
  have := ((hg r).1 hr).2
  generalize r.rhs = rhs at this
  cases this <;> simp

theorem OpGram.no_unit {o : Ops} {g : Gram} (hg : OpGram o g) {a b : Nat} : (⟨a, [.nt b]⟩ : PRule) ∉ g.rules := by
  intro h
  have := ((hg _).1 h).2
  simp only at this
  cases this

theorem OpGram.no_chain {o : Ops} {g : Gram} (hg : OpGram o g) (a : Nat) : ¬ g.Chain a a := by
  intro h
  cases h with
  | one h => exact hg.no_unit h
  | more h _ => exact hg.no_unit h

theorem op_makes {o : Ops} (ho : o.Ok) {g : Gram} (hg : OpGram o g) : ∃ tab ws, NewGives idSeeds g (.ok (tab, ws)) := by
  refine c20_new_no_panic idSeeds idSeeds_fair g hg.ok ?_
  obtain ⟨a, ha⟩ := List.exists_mem_of_ne_nil _ ho.some
  have h0 : ∃ r ∈ g.rules, r.lhs = g.start := ⟨⟨g.start, [tk a]⟩, (hg _).2 ⟨rfl, .atom _ ha⟩, rfl⟩
  refine ⟨h0, ?_⟩
  intro r hr n hn
  have := ((hg r).1 hr).2
  generalize r.rhs = rhs at this hn
  have : n = g.start := by cases this <;> simp_all
  rw [this]
  exact h0

/-- C65: for a grammar `E → a | p E | E q | E o E | ( E ) | if E | if E else E` with any number of atoms, operators, brackets and
conditionals, in any order, `parse` evaluates the tree that is grouped to the right. -/
theorem c65_takes (s : Seeds) (hs : s.Fair) (o : Ops) (ho : o.Ok) (rules : List (Rule N T E)) (start : Nat)
    (hr : (rules.map Rule.plain).Perm (o.rules start)) (p : Parser N T E) (ws : List Warning) (hp : MakesParser s rules start p ws)
    (idx : T → Nat) (input : List T) (f : Tree T) (hf : IsTree (rules.map Rule.plain) start idx input f) (hgr : RightGrouped o.ites idx f)
    (calls : List (Call N T)) :
    (∀ v, Evals rules [f] calls (.ok [.nt v]) → ∃ c, ParsesTo idx p input (.ok v) c ∧ c.log.reverse = calls) ∧
    (∀ e, Evals rules [f] calls (.error e) → ∃ c, ParsesTo idx p input (.error (.reducer e)) c ∧ c.log.reverse = calls) := by
  have hg : OpGram o (gram rules start) := Ops.gram hr
  obtain ⟨fresh, hx⟩ := ctx_of_makes hs hg.ok hp
  have hnd : (gram rules start).rules.Nodup := hr.nodup_iff.2 (ho.nodup start)
  constructor
  · intro v hev
    rcases op_follow hx hg ho.apart hnd hf hgr hev with ⟨v', c, h1, h2, h3⟩ | ⟨e, c, h1, _⟩
    · cases h1
      exact ⟨c, h2, h3⟩
    · cases h1
  · intro e hev
    rcases op_follow hx hg ho.apart hnd hf hgr hev with ⟨v', c, h1, h2, h3⟩ | ⟨e', c, h1, h2, h3⟩
    · cases h1
    · cases h1
      exact ⟨c, h2, h3⟩

/-- C65: every sentence has exactly one tree that is grouped to the right. -/
theorem c65_one_tree (o : Ops) (ho : o.Ok) (g : Gram) (hr : g.rules.Perm (o.rules g.start)) (idx : T → Nat) (input : List T)
    (hs : g.Sentence (input.map idx)) :
    ∃ f, (IsTree g.rules g.start idx input f ∧ RightGrouped o.ites idx f) ∧
      ∀ f', IsTree g.rules g.start idx input f' → RightGrouped o.ites idx f' → f' = f := by
  have hg : OpGram o g := Ops.gram hr
  obtain ⟨f0, hf0⟩ := (sentence_iff (idx := idx) (input := input)).1 hs
  obtain ⟨f, hf, hgr⟩ := op_exists hg hf0
  refine ⟨f, ⟨hf, hgr⟩, fun f' hf' hgr' => ?_⟩
  obtain ⟨tab, ws, hnew⟩ := op_makes ho hg
  have key : ∀ f : Tree T, IsTree g.rules g.start idx input f → RightGrouped o.ites idx f → ∃ c, ParsesTo idx (treeParser T g tab) input (.ok f.erase) c := by
    intro f hf hgr
    obtain ⟨lg, as, k1, k2⟩ := hf.1.treeEvals
    obtain ⟨v, rfl⟩ : ∃ v, as = [.nt v] := by
      obtain ⟨r, cs, rule, rfl, _⟩ := hf.1.head_rule
      cases k1 with
      | node _ _ _ _ _ v _ _ _ _ _ _ k => cases k; exact ⟨v, rfl⟩
    obtain ⟨c, h1, _⟩ := (c65_takes idSeeds idSeeds_fair o ho (treeRules (T := T) g.rules) g.start (by rw [treeRules_plain]; exact hr) _ ws
      (treeParser_makes hnew) idx input f (by rw [treeRules_plain]; exact hf) hgr lg).1 v k1
    have : v = f.erase := by simpa [erases, Arg.tree] using k2
    rw [← this]
    exact ⟨c, h1⟩
  obtain ⟨c, h1⟩ := key f hf hgr
  obtain ⟨c', h2⟩ := key f' hf' hgr'
  have h3 := (h2.unique h1).1
  injection h3 with h3
  have := erases_inj [f'] [f] (by simp [erases, h3]) (by rw [hf.2.2, hf'.2.2]) hf'.2.1
  simpa using this

/-- C65: `parse` decides the language in spite of the conflicts: if callbacks do not fail it returns the value of this tree for every
sentence and `RecoveryRuleNotFound` for everything else. -/
theorem c65_decides (s : Seeds) (hs : s.Fair) (o : Ops) (ho : o.Ok) (rules : List (Rule N T E)) (start : Nat)
    (hr : (rules.map Rule.plain).Perm (o.rules start)) (hgen : ∀ r ∈ rules, ∀ l, ∃ v, r.gen l = .ok v) (p : Parser N T E) (ws : List Warning)
    (hp : MakesParser s rules start p ws) (idx : T → Nat) (input : List T) :
    ((gram rules start).Sentence (input.map idx) ∧ ∃ v c f, ParsesTo idx p input (.ok v) c ∧ IsTree (rules.map Rule.plain) start idx input f ∧
      RightGrouped o.ites idx f ∧ Evals rules [f] c.log.reverse (.ok [.nt v])) ∨
    (¬ (gram rules start).Sentence (input.map idx) ∧ ∃ c, ParsesTo idx p input (.error .noRecovery) c) := by
  have hg : OpGram o (gram rules start) := Ops.gram hr
  by_cases hse : (gram rules start).Sentence (input.map idx)
  · left
    refine ⟨hse, ?_⟩
    obtain ⟨f, ⟨hf, hgr⟩, _⟩ := c65_one_tree o ho (gram rules start) hr idx input hse
    obtain ⟨lg, x, hev⟩ := Built.evals (rules := rules) hf.1
    have := c65_takes s hs o ho rules start hr p ws hp idx input f hf hgr lg
    cases x with
    | error e =>
      obtain ⟨c, h, _⟩ := this.2 e hev
      obtain ⟨r, args, rest, rule, _, k1, k2, _⟩ := (c30_first_failure s hs rules start hg.ok p ws hp idx input _ c h).1 e rfl
      obtain ⟨v, hv⟩ := hgen rule (List.mem_of_getElem? k1) args
      rw [hv] at k2
      cases k2
    | ok as =>
      obtain ⟨v, rfl⟩ : ∃ v, as = [.nt v] := by
        obtain ⟨r, cs, rule, rfl, _⟩ := hf.1.head_rule
        cases hev with
        | node _ _ _ _ _ v _ _ _ _ _ _ k => cases k; exact ⟨v, rfl⟩
      obtain ⟨c, h, rfl⟩ := this.1 v hev
      exact ⟨v, c, f, h, hf, hgr, hev⟩
  · right
    refine ⟨hse, ?_⟩
    rcases c64_rejects s hs rules start hg.ok hg.noError (by
      intro r hr
      exact hg.not_empty r.plain (List.mem_map.2 ⟨r, hr, rfl⟩)) hg.no_chain p ws hp idx input hse with h | ⟨e, c, h⟩
    · exact h
    · obtain ⟨r, args, rest, rule, _, k1, k2, _⟩ := (c30_first_failure s hs rules start hg.ok p ws hp idx input _ c h).1 e rfl
      obtain ⟨v, hv⟩ := hgen rule (List.mem_of_getElem? k1) args
      rw [hv] at k2
      cases k2

/-! ## Examples -/

/-- `a`, `-` (in front and between), `!` (behind), `( )`, `if else`. -/
def oAll : Ops := ⟨[0], [1], [2], [1], [(3, 4)], [(5, 6)]⟩

theorem oAll_ok : oAll.Ok := ⟨by decide, by decide, by decide, by decide, by decide⟩

def gAll : Gram := ⟨oAll.rules 0, 0⟩

example : gAll.rules = [⟨0, [tk 0]⟩, ⟨0, [tk 1, .nt 0]⟩, ⟨0, [.nt 0, tk 2]⟩, ⟨0, [.nt 0, tk 1, .nt 0]⟩, ⟨0, [tk 3, .nt 0, tk 4]⟩, ⟨0, [tk 5, .nt 0]⟩,
    ⟨0, [tk 5, .nt 0, tk 6, .nt 0]⟩] := rfl

/-- The atom at `i`. -/
def fA (i : Nat) : Tree Nat := .node 0 [.leaf i 0]

theorem fA_tree {input : List Nat} {i : Nat} (h : input[i]? = some 0) : Built gAll.rules id input [.nt 0] [fA i] :=
  .node 0 ⟨0, [tk 0]⟩ _ _ _ rfl (.leaf _ _ _ _ h .nil) .nil

theorem fA_closed (i : Nat) : (fA i).Closed := ⟨0, [], i, 0, rfl⟩

/-- `a - a - a` is `a - (a - a)`. -/
example : let f := Tree.node 3 [fA 0, .leaf 1 1, .node 3 [fA 2, .leaf 3 1, fA 4]]
    IsTree gAll.rules 0 id [0, 1, 0, 1, 0] f ∧ RightGrouped oAll.ites id f :=
  ⟨⟨.node 3 ⟨0, [.nt 0, tk 1, .nt 0]⟩ _ _ _ rfl ((fA_tree rfl).append (.leaf _ _ _ _ rfl
      (.node 3 ⟨0, [.nt 0, tk 1, .nt 0]⟩ _ _ _ rfl ((fA_tree rfl).append (.leaf _ _ _ _ rfl (fA_tree rfl))) .nil))) .nil, rfl, rfl⟩,
    .bin _ _ _ _ _ (.atom _ _ _) (fA_closed _) (.bin _ _ _ _ _ (.atom _ _ _) (fA_closed _) (.atom _ _ _))⟩

/-- `- a - a !` is `- (a - (a !))`. -/
example : let f := Tree.node 1 [.leaf 0 1, .node 3 [fA 1, .leaf 2 1, .node 2 [fA 3, .leaf 4 2]]]
    IsTree gAll.rules 0 id [1, 0, 1, 0, 2] f ∧ RightGrouped oAll.ites id f :=
  ⟨⟨.node 1 ⟨0, [tk 1, .nt 0]⟩ _ _ _ rfl (.leaf _ _ _ _ rfl
      (.node 3 ⟨0, [.nt 0, tk 1, .nt 0]⟩ _ _ _ rfl ((fA_tree rfl).append (.leaf _ _ _ _ rfl
        (.node 2 ⟨0, [.nt 0, tk 2]⟩ _ _ _ rfl ((fA_tree rfl).append (.leaf _ _ _ _ rfl .nil)) .nil))) .nil)) .nil, rfl, rfl⟩,
    .pre _ _ _ _ (.bin _ _ _ _ _ (.atom _ _ _) (fA_closed _) (.post _ _ _ _ (.atom _ _ _) (fA_closed _)))⟩

/-- In `if if a else a` the `else` belongs to the second `if`; the other tree is not grouped to the right. -/
example : let f := Tree.node 5 [.leaf 0 5, .node 6 [.leaf 1 5, fA 2, .leaf 3 6, fA 4]]
    let f' := Tree.node 6 [.leaf 0 5, .node 5 [.leaf 1 5, fA 2], .leaf 3 6, fA 4]
    IsTree gAll.rules 0 id [5, 5, 0, 6, 0] f ∧ RightGrouped oAll.ites id f ∧ IsTree gAll.rules 0 id [5, 5, 0, 6, 0] f' ∧ ¬ RightGrouped oAll.ites id f' := by
  have h1 : IsTree gAll.rules 0 id [5, 5, 0, 6, 0] (.node 5 [.leaf 0 5, .node 6 [.leaf 1 5, fA 2, .leaf 3 6, fA 4]]) :=
    ⟨.node 5 ⟨0, [tk 5, .nt 0]⟩ _ _ _ rfl (.leaf _ _ _ _ rfl (.node 6 ⟨0, [tk 5, .nt 0, tk 6, .nt 0]⟩ _ _ _ rfl
      (.leaf _ _ _ _ rfl ((fA_tree rfl).append (.leaf _ _ _ _ rfl (fA_tree rfl)))) .nil)) .nil, rfl, rfl⟩
  have h3 : IsTree gAll.rules 0 id [5, 5, 0, 6, 0] (.node 6 [.leaf 0 5, .node 5 [.leaf 1 5, fA 2], .leaf 3 6, fA 4]) :=
    ⟨.node 6 ⟨0, [tk 5, .nt 0, tk 6, .nt 0]⟩ _ _ _ rfl (.leaf _ _ _ _ rfl
      (.node 5 ⟨0, [tk 5, .nt 0]⟩ _ _ _ rfl (.leaf _ _ _ _ rfl (fA_tree rfl)) (.leaf _ _ _ _ rfl (fA_tree rfl)))) .nil, rfl, rfl⟩
  refine ⟨h1, .pre _ _ _ _ (.ite _ _ _ _ _ _ _ (.atom _ _ _) ?_ (.atom _ _ _)), h3, ?_⟩
  · exact (RightGrouped.atom 0 2 0).closed_not (fA_closed 2)
  · intro h
    cases h with
    | ite _ _ _ _ _ _ _ _ h _ => exact h (.here _ _ _ _ (by decide))

/-- The theorems apply to this grammar: there is a parser, it has warnings, and it decides the language. -/
example : ∃ p ws, MakesParser idSeeds (treeRules (T := Nat) gAll.rules) 0 p ws ∧ ∀ input,
    (gAll.Sentence (input.map id) ∧ ∃ v c, ParsesTo id p input (.ok v) c) ∨ (¬ gAll.Sentence (input.map id) ∧ ∃ c, ParsesTo id p input (.error .noRecovery) c) := by
  obtain ⟨tab, ws, h⟩ := op_makes oAll_ok (Ops.gram (g := gAll) (List.Perm.refl _))
  refine ⟨_, ws, treeParser_makes h, fun input => ?_⟩
  have := c65_decides idSeeds idSeeds_fair oAll oAll_ok (treeRules (T := Nat) gAll.rules) 0 (by rw [treeRules_plain]; exact List.Perm.refl _) (by
    intro r hr l
    simp only [treeRules, List.mem_map] at hr
    obtain ⟨x, _, rfl⟩ := hr
    exact ⟨_, rfl⟩) _ ws (treeParser_makes h) id input
  have e : gram (treeRules (T := Nat) gAll.rules) 0 = gAll := treeGram gAll
  rw [e] at this
  rcases this with ⟨h1, v, c, f, h2, _⟩ | h
  · exact .inl ⟨h1, v, c, h2⟩
  · exact .inr h

end Verif.Par
