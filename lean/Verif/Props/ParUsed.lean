import Verif.Par.UsedProof
import Verif.Props.ParComplete
import Verif.Props.ParReject
import Verif.Props.ParLL1

/-!
# Nothing in the tables is for nothing (C73)
-/

namespace Verif.Par

variable {N T E : Type}

theorem newGives_syms {o : Seeds} (ho : o.Fair) {g : Gram} (hok : g.Ok) {tab : Tables} {ws : List Warning} (h : NewGives o g (.ok (tab, ws))) :
    TabSyms g.rules' tab := by
  obtain ⟨fuel, h, _⟩ := h
  exact new_syms ho hok h

/-- C73, states: the states of the tables are numbered `0, …, k - 1`, and every one of them is reached in the parse of some
sentence. -/
theorem c73_states (o : Seeds) (ho : o.Fair) (rules : List (Rule N T E)) (start : Nat) (hok : (gram rules start).Ok)
    (hn : (gram rules start).NoError) (hp : (gram rules start).Productive) (hc : ¬ (gram rules start).Cyclic)
    (hg : ∀ r ∈ rules, ∀ l, ∃ v, r.gen l = .ok v) (idx : T → Nat) (ht : Typed idx (gram rules start)) (p : Parser N T E)
    (hm : MakesParser o rules start p []) :
    ∃ k, ∀ q, ((∃ row, get q p.tab.action = some row) ↔ q < k) ∧
      (q < k → ∃ input : List T, (gram rules start).Sentence (input.map idx) ∧ Visits idx p input q) := by
  have hsy := newGives_syms ho hok hm.1
  obtain ⟨fresh, hx, hnw⟩ := noConflict_of_makes ho hok hm
  obtain ⟨k, hk⟩ := hsy.numbers
  refine ⟨k, fun q => ⟨hk q, fun hq => ?_⟩⟩
  obtain ⟨row, hrow⟩ := (hk q).2 hq
  obtain ⟨γ, hw⟩ := hsy.rows q row hrow
  obtain ⟨i, hi⟩ := (hx.canon.walk_iff γ).1 ⟨q, hw⟩
  obtain ⟨input, h1, n, c, j, fs, lg, as, h2, h3, _⟩ := visit_state (idx := idx) hx hnw hn hp hc hg ht hi
  exact ⟨input, h1, n, c, h2, Option.some.inj (h3.seg.walk.symm.trans hw)⟩

/-- C73, actions: without any one of its actions, the parser rejects a sentence, which it accepts with it. -/
theorem c73_actions (o : Seeds) (ho : o.Fair) (rules : List (Rule N T E)) (start : Nat) (hok : (gram rules start).Ok)
    (hn : (gram rules start).NoError) (hp : (gram rules start).Productive) (hc : ¬ (gram rules start).Cyclic)
    (hg : ∀ r ∈ rules, ∀ l, ∃ v, r.gen l = .ok v) (idx : T → Nat) (ht : Typed idx (gram rules start)) (p : Parser N T E)
    (hm : MakesParser o rules start p []) (q : Nat) (row : List (Term × Action Nat)) (hq : get q p.tab.action = some row) (a : Term)
    (act : Action Nat) (ha : get a row = some act) :
    ∃ (input : List T) (v : N) (c c' : Cfg N T), (gram rules start).Sentence (input.map idx) ∧ ParsesTo idx p input (.ok v) c ∧
      ParsesTo idx (p.dropAction q a) input (.error .noRecovery) c' := by
  have hsy := newGives_syms ho hok hm.1
  obtain ⟨fresh, hx, hnw⟩ := noConflict_of_makes ho hok hm
  obtain ⟨γ, hw⟩ := hsy.rows q row hq
  obtain ⟨input, h1, c', h2⟩ := action_needed (idx := idx) hx hnw hn hp hc hg ht hw (a := a) (act := act) (by simp [Tables.act, hq, ha])
  obtain ⟨v, c, h3⟩ := sentence_parses hx hnw hg h1
  exact ⟨input, v, c, c', h1, h3, h2⟩

/-- C73, gotos: without any one of its gotos, the parser panics on a sentence, which it accepts with it. -/
theorem c73_gotos (o : Seeds) (ho : o.Fair) (rules : List (Rule N T E)) (start : Nat) (hok : (gram rules start).Ok)
    (hn : (gram rules start).NoError) (hp : (gram rules start).Productive) (hc : ¬ (gram rules start).Cyclic)
    (hg : ∀ r ∈ rules, ∀ l, ∃ v, r.gen l = .ok v) (idx : T → Nat) (ht : Typed idx (gram rules start)) (p : Parser N T E)
    (hm : MakesParser o rules start p []) (q : Nat) (row : List (Nat × Nat)) (hq : get q p.tab.goto = some row) (n q' : Nat)
    (ha : get n row = some q') :
    ∃ (input : List T) (v : N) (c : Cfg N T), (gram rules start).Sentence (input.map idx) ∧ ParsesTo idx p input (.ok v) c ∧
      ParsePanics idx (p.dropGoto q n) input := by
  have hsy := newGives_syms ho hok hm.1
  obtain ⟨fresh, hx, hnw⟩ := noConflict_of_makes ho hok hm
  obtain ⟨γ, hw⟩ := hsy.gotoRows q row hq
  obtain ⟨input, h1, h2⟩ := goto_needed (idx := idx) hx hnw hn hp hc hg ht hw (q' := q') (m := n) (by simp [Tables.goes, hq, ha])
  obtain ⟨v, c, h3⟩ := sentence_parses hx hnw hg h1
  exact ⟨input, v, c, h1, h3, h2⟩

/-! ## Examples -/

/-- The hypotheses hold for `S → a S | b`. -/
example : (gram (plainRules gRight) 0).Ok ∧ (gram (plainRules gRight) 0).NoError ∧ (gram (plainRules gRight) 0).Productive ∧
    ¬ (gram (plainRules gRight) 0).Cyclic ∧ (∀ r ∈ plainRules gRight, ∀ l, ∃ v, r.gen l = .ok v) ∧ Typed id (gram (plainRules gRight) 0) ∧
    ∃ p, MakesParser idSeeds (plainRules gRight) 0 p [] :=
  ⟨by decide, by unfold Gram.NoError; decide, gRight_productive, gRight_not_cyclic, by simp [plainRules], fun _ _ t _ => ⟨t, rfl⟩,
    ⟨_, tRight⟩, gRight_new, fun _ => .ok 0, rfl⟩

/-! ## Without the conditions -/

/-- `E → F | a; F → E` -/
def gTurn : Gram := ⟨[⟨0, [.nt 1]⟩, ⟨0, [.tm (.sym 0)]⟩, ⟨1, [.nt 0]⟩], 0⟩

/-- `S → A b | B b; A → a; B → a` -/
def gTwin : Gram := ⟨[⟨0, [.nt 1, .tm (.sym 1)]⟩, ⟨0, [.nt 2, .tm (.sym 1)]⟩, ⟨1, [.tm (.sym 0)]⟩, ⟨2, [.tm (.sym 0)]⟩], 0⟩

/-- `S → a | U b; U → c U` -/
def gNever : Gram := ⟨[⟨0, [.tm (.sym 0)]⟩, ⟨0, [.nt 1, .tm (.sym 1)]⟩, ⟨1, [.tm (.sym 2), .nt 1]⟩], 0⟩

/-- Nothing leads out of the states in `A`. -/
def Parser.keeps (p : Parser N T E) (A : List Nat) : Bool :=
  A.contains p.tab.start && p.tab.errors.isEmpty && A.all fun q => ((get q p.tab.action).getD []).all fun x =>
    match x.2 with
    | .shift q' => A.contains q'
    | .accept => true
    | .reduce r => match p.rules[r]? with
      | none => true
      | some rule => A.all fun q0 => match (get q0 p.tab.goto).bind (get rule.lhs) with
        | none => true
        | some q' => A.contains q'

theorem recover_nil {isEoi : Bool} {recov : List Nat} : ∀ {stack : List (Nat × SSym N)} {state head errHead : Nat} {back : Bool},
    recover [] isEoi recov stack state head errHead back = none := by
  intro stack
  have h0 : ∀ state back, recovRules [] isEoi recov state back = none := by
    intro state back
    unfold recovRules
    split <;> rfl
  induction stack with
  | nil => intros; simp [recover, h0]
  | cons x stack ih =>
    intro state head errHead back
    obtain ⟨s, y⟩ := x
    simp only [recover, h0]
    cases y <;> exact ih

theorem Parser.keeps.run {p : Parser N T E} {A : List Nat} (h : p.keeps A = true) {idx : T → Nat} {input : List T} (n : Nat) {c : Cfg N T}
    (hr : Par.run idx p n (Cfg.init p input) = .more c) : c.state ∈ A ∧ ∀ x ∈ c.stack, x.1 ∈ A := by
  simp only [Parser.keeps, Bool.and_eq_true, List.all_eq_true, List.contains_iff_mem, List.isEmpty_iff] at h
  obtain ⟨⟨h1, h2⟩, h3⟩ := h
  induction n generalizing c with
  | zero => cases hr; exact ⟨h1, by intro x hx; cases hx⟩
  | succ n ih =>
    obtain ⟨c1, k1, k2⟩ := run_succ_more hr
    obtain ⟨i1, i2⟩ := ih k1
    have hst := fill_state (idx := idx) c1
    have hsk : (fill idx c1).stack = c1.stack := by
      unfold fill
      split
      · rfl
      · split <;> rfl
    unfold step at k2
    simp only at k2
    split at k2
    · cases k2
    · rename_i a i buffer hb
      rw [hst] at k2
      split at k2
      · cases k2
      · rename_i row hrow
        have hall := h3 _ i1
        rw [hrow] at hall
        simp only [Option.getD_some] at hall
        split at k2
        · rename_i s hs
          have := hall _ (get_mem hs)
          simp only at this
          have hs' : s ∈ A := by simpa using this
          split at k2
          · cases k2
            exact ⟨hs', by simpa [hsk] using ⟨i1, fun a b hx => i2 (a, b) hx⟩⟩
          · cases k2
          · cases k2
            exact ⟨hs', by simpa [hsk] using ⟨i1, fun a b hx => i2 (a, b) hx⟩⟩
        · rename_i r hs
          have := hall _ (get_mem hs)
          simp only at this
          unfold onReduce at k2
          split at k2
          · cases k2
          · rename_i rule hrule
            rw [hrule] at this
            simp only [List.all_eq_true] at this
            simp only at k2
            split at k2
            · cases k2
            · split at k2
              · cases k2
              · split at k2
                · cases k2
                · split at k2
                  · cases k2
                  · rename_i s hgo
                    cases k2
                    rw [hsk, hst] at hgo
                    have hq0 : (Option.map Prod.fst (List.take rule.rhs.length c1.stack).reverse.head?).getD c1.state ∈ A := by
                      cases hh : (List.take rule.rhs.length c1.stack).reverse.head? with
                      | none => exact i1
                      | some x =>
                        have := List.mem_of_mem_head? hh
                        rw [List.mem_reverse] at this
                        exact i2 x (List.mem_of_mem_take this)
                    have hs' := this _ hq0
                    rw [hgo] at hs'
                    simp only [hsk, hst, List.mem_cons, forall_eq_or_imp]
                    exact ⟨by simpa using hs', hq0, fun x hx => i2 x (List.mem_of_mem_drop hx)⟩
        · split at k2 <;> cases k2
        · unfold onError at k2
          rw [h2, recover_nil] at k2
          cases k2

def pTurn : Parser Nat Nat Nat :=
  { rules := plainRules gTurn ++ [⟨freshSym gTurn.rules, [.nt 0], fun _ => .ok 0⟩]
    tab := { action := [(0, [(.sym 0, .shift 2)]), (1, [(.eoi, .reduce 0)]), (2, [(.eoi, .reduce 1)]), (3, [(.eoi, .accept)])]
             goto := [(0, [(1, 1), (0, 3)])], errors := [], start := 0 } }

/-- C73, the side conditions: if the start symbol derives itself, a state can be useless, without a warning. -/
theorem c73_cyclic : MakesParser idSeeds (plainRules gTurn) 0 pTurn [] ∧ gTurn.Fruitful ∧ (∃ row, get 1 pTurn.tab.action = some row) ∧
    ∀ input, ¬ Visits id pTurn input 1 := by
  refine ⟨⟨⟨20, rfl, by simp⟩, _, rfl⟩, c71_ranked _ (fun n => n) (by decide), ⟨_, rfl⟩, ?_⟩
  rintro input ⟨n, c, h1, h2⟩
  have := (Parser.keeps.run (A := [0, 2, 3]) (by decide) n h1).1
  rw [h2] at this
  simp at this

def pTwin : Parser Nat Nat Nat :=
  { rules := plainRules gTwin ++ [⟨freshSym gTwin.rules, [.nt 0], fun _ => .ok 0⟩]
    tab := { action := [(0, [(.sym 0, .shift 3)]), (1, [(.sym 1, .shift 5)]), (2, [(.sym 1, .shift 6)]), (3, [(.sym 1, .reduce 2)]),
               (4, [(.eoi, .accept)]), (5, [(.eoi, .reduce 0)]), (6, [(.eoi, .reduce 1)])]
             goto := [(0, [(1, 1), (2, 2), (0, 4)])], errors := [], start := 0 } }

/-- C73, the side conditions: so it can with a conflict. -/
theorem c73_conflict : (∃ w ws, MakesParser idSeeds (plainRules gTwin) 0 pTwin (w :: ws)) ∧ gTwin.Fruitful ∧
    (∃ row, get 2 pTwin.tab.action = some row) ∧ ∀ input, ¬ Visits id pTwin input 2 := by
  refine ⟨⟨_, _, ⟨20, rfl, by simp⟩, _, rfl⟩, c71_ranked _ (fun n => if n = 0 then 1 else 0) (by decide), ⟨_, rfl⟩, ?_⟩
  rintro input ⟨n, c, h1, h2⟩
  have := (Parser.keeps.run (A := [0, 1, 3, 4, 5]) (by decide) n h1).1
  rw [h2] at this
  simp at this

def pNever : Parser Nat Nat Nat :=
  { rules := plainRules gNever ++ [⟨freshSym gNever.rules, [.nt 0], fun _ => .ok 0⟩]
    tab := { action := [(0, [(.sym 0, .shift 1), (.sym 2, .shift 3)]), (1, [(.eoi, .reduce 0)]), (2, [(.sym 1, .shift 5)]),
               (3, [(.sym 2, .shift 3)]), (4, [(.eoi, .accept)]), (5, [(.eoi, .reduce 1)]), (6, [(.sym 1, .reduce 2)])]
             goto := [(0, [(1, 2), (0, 4)]), (3, [(1, 6)])], errors := [], start := 0 } }

/-- C73, the side conditions: so it can, without a warning, with a non-terminal that derives no tokens. -/
theorem c73_unproductive : MakesParser idSeeds (plainRules gNever) 0 pNever [] ∧ (∃ row, get 2 pNever.tab.action = some row) ∧
    ∀ input, ¬ Visits id pNever input 2 := by
  refine ⟨⟨⟨20, rfl, by simp⟩, _, rfl⟩, ⟨_, rfl⟩, ?_⟩
  rintro input ⟨n, c, h1, h2⟩
  have := (Parser.keeps.run (A := [0, 1, 3, 4]) (by decide) n h1).1
  rw [h2] at this
  simp at this

end Verif.Par
