import Verif.Par.KeepMain
import Verif.Props.ParTrace

/-!
# Property C86: what has been read completely is kept by error recovery
-/

namespace Verif.Par

variable {N T E : Type}

theorem Evals.length_eq {rules : List (Rule N T E)} {fs : List (Tree T)} {lg as} (h : Evals rules fs lg (.ok as)) : as.length = fs.length := by
  generalize hx : (Except.ok as : Except E _) = x at h
  induction h generalizing as with
  | nil => cases hx; rfl
  | leaf _ _ _ _ _ _ ih => cases hx; simp [ih rfl]
  | err _ _ _ _ _ _ ih => cases hx; simp [ih rfl]
  | node _ _ _ _ _ _ _ _ _ _ _ _ _ _ ih => cases hx; simp [ih rfl]
  | _ => cases hx

/-- C86: the input begins with a correct phrase `X`, and what follows begins with a token that can follow.  If error rules that can begin at the beginning can
begin behind it too (`Keeps`), then, whatever comes behind, the callbacks of the phrase are called first; if one of them fails, that is the result; and if
`parse` succeeds, the tree of the result has the tree of the phrase at its left edge. -/
theorem c86_kept (o : Seeds) (ho : o.Fair) (rules : List (Rule N T E)) (start : Nat) (hok : (gram rules start).Ok) (hfr : (gram rules start).Fruitful)
    (X : Nat) (hk : (gram rules start).Keeps X) (p : Parser N T E) (hp : MakesParser o rules start p []) (idx : T → Nat) (u w : List T) (t : T)
    (ht : (gram rules start).Next X (idx t)) (fX : Tree T) (hX : Built (rules.map Rule.plain) idx (u ++ t :: w) [.nt X] [fX])
    (he : errs [fX] = []) (hl : leaves [fX] = u.zipIdx) (r : Except (PErr E) N) (c : Cfg N T) (h : ParsesTo idx p (u ++ t :: w) r c) :
    (∃ e, Evals rules [fX] c.log.reverse (.error e) ∧ r = .error (.reducer e)) ∨
    ∃ lg vX, Evals rules [fX] lg (.ok [.nt vX]) ∧ lg <+: c.log.reverse ∧
      ∀ v, r = .ok v → ∃ f calls, Built (rules.map Rule.plain) idx (u ++ t :: w) [.nt start] [f] ∧ Evals rules [f] calls (.ok [.nt v]) ∧
        calls.Sublist c.log.reverse ∧ (leaves [f]).Pairwise (fun x y => x.2 < y.2) ∧ AtLeft fX f := by
  obtain ⟨fresh, hx, hnw⟩ := noConflict_of_makes ho hok hp
  obtain ⟨lg, x, hev⟩ := Built.evals hX
  cases keep_reach hx hnw hfr rfl ht hX he hl hev with
  | early x n v c' f lg' h1 => exact h1.elim
  | error e n c' h1 h2 =>
    left
    obtain ⟨rfl, rfl⟩ := h.unique ⟨n, h1⟩
    exact ⟨e, by rw [h2]; exact hev, rfl⟩
  | ok as n c' h1 h2 =>
    right
    obtain ⟨m, hm⟩ := machSim_more hx h1
    obtain ⟨es, hes⟩ := KInv.begin hx hfr rfl ht h2 hm
    obtain ⟨k, hk'⟩ := h
    have hrun : run idx p k c' = .done r c := by
      have e1 : run idx p (k + n) (Cfg.init p (u ++ t :: w)) = .done r c := by rw [run_add, hk']
      rw [Nat.add_comm, run_add, h1] at e1
      exact e1
    have hcalls : lg <+: c.log.reverse := by
      have := calls_prefix hx k hm hrun
      rw [hm.calls, ← (h2.clean he).2.1] at this
      exact this
    obtain ⟨vX, rfl⟩ : ∃ vX, as = [.nt vX] := by
      obtain ⟨r', cs, rule, rfl, _⟩ := hX.head_rule
      cases hev with
      | node r rule cs lg1 args v fs lg2 as g1 g2 g3 g4 => cases g4; exact ⟨v, rfl⟩
    refine ⟨lg, vX, hev, hcalls, ?_⟩
    rintro v rfl
    exact kept_run hx hfr hk (by simp) k hm hes hrun

/-- C86: the check on the rules. -/
theorem c86_check (g : Gram) (hfr : g.Fruitful) (X K : Nat) (up : List Nat) (h : g.keeps X K up = true) : g.Keeps X :=
  keeps_keeps h (freshSym_unused g) hfr

/-- C86 with derivations: the phrase has a tree that is kept. -/
theorem c86_phrase (o : Seeds) (ho : o.Fair) (rules : List (Rule N T E)) (start : Nat) (hok : (gram rules start).Ok) (hfr : (gram rules start).Fruitful)
    (X : Nat) (hk : (gram rules start).Keeps X) (p : Parser N T E) (hp : MakesParser o rules start p []) (idx : T → Nat) (u w : List T) (t : T)
    (ht : (gram rules start).Next X (idx t)) (hX : Derives (gram rules start).rules [.nt X] (u.map fun t => .tm (.sym (idx t))))
    (v : N) (c : Cfg N T) (h : ParsesTo idx p (u ++ t :: w) (.ok v) c) :
    ∃ fX lg vX f calls, Built (rules.map Rule.plain) idx (u ++ t :: w) [.nt X] [fX] ∧ errs [fX] = [] ∧ leaves [fX] = u.zipIdx ∧
      Evals rules [fX] lg (.ok [.nt vX]) ∧ lg <+: c.log.reverse ∧ AtLeft fX f ∧
      Built (rules.map Rule.plain) idx (u ++ t :: w) [.nt start] [f] ∧ Evals rules [f] calls (.ok [.nt v]) ∧
      calls.Sublist c.log.reverse ∧ (leaves [f]).Pairwise (fun x y => x.2 < y.2) := by
  obtain ⟨fs, h1, h2, h3⟩ := Built.of_gen (idx := idx) (input := u ++ t :: w) (gen_iff.2 hX) [] u (t :: w) rfl rfl
  obtain ⟨fX, rfl⟩ : ∃ fX, fs = [fX] := by
    cases h1 with
    | node r rule cs _ _ _ _ h => cases h; exact ⟨_, rfl⟩
  rcases c86_kept o ho rules start hok hfr X hk p hp idx u w t ht fX h1 h2 h3 _ c h with ⟨e, _, k⟩ | ⟨lg, vX, k1, k2, k3⟩
  · cases k
  · obtain ⟨f, calls, k4, k5, k6, k7, k8⟩ := k3 v rfl
    exact ⟨fX, lg, vX, f, calls, h1, h2, h3, k1, k2, k8, k4, k5, k6, k7⟩

-- lists that grow to the right; the sums of `tests/main.rs`
example : (⟨[⟨0, [.nt 1, .nt 0]⟩, ⟨0, [.nt 1]⟩, ⟨1, [.tm (.sym 0), .tm (.sym 1)]⟩, ⟨1, [.tm .err, .tm (.sym 1)]⟩], 0⟩ : Gram).keeps 1 1 [1, 0] = true := by decide

example : (gram TestMain.rules 0).keeps 0 2 [0] = true ∧ (gram TestMain.rules 0).keeps 1 2 [0, 1] = true := by decide

theorem gDo_keeps : gDo.Keeps 0 := c86_check gDo gDo_fruitful 0 1 [0] (by decide)

theorem gDo_next : gDo.Next 0 0 ∧ gDo.Next 0 2 :=
  ⟨.inr ⟨2, _, [.nt 0], [], rfl, ⟨_, 1, rfl, .step 0 [] ⟨0, [.nt 0, .nt 1]⟩ [] .zero (by simp [gDo])⟩, ⟨[.tm (.sym 1)], rfl⟩⟩,
   .inr ⟨5, _, [.nt 0], [.sym 4, .sym 1], rfl, ⟨_, 2, rfl, .step 1 [.nt 0] ⟨1, [.nt 2, .tm (.sym 4), .tm (.sym 1)]⟩ []
     (.step 0 [] ⟨0, [.nt 0, .nt 1]⟩ [] .zero (by simp [gDo])) (by simp [gDo])⟩, ⟨[.nt 0, .tm (.sym 3)], rfl⟩⟩⟩

/-- C86: in the grammar of statements and blocks of C82, correct statements at the beginning are kept, whatever comes behind them, if it begins with a token
that can begin a statement. -/
theorem c86_blocks (o : Seeds) (ho : o.Fair) (rules : List (Rule N T E)) (hr : gram rules 0 = gDo) (p : Parser N T E) (hp : MakesParser o rules 0 p [])
    (idx : T → Nat) (u w : List T) (t : T) (ht : idx t = 0 ∨ idx t = 2) (hu : Derives gDo.rules [.nt 0] (u.map fun t => .tm (.sym (idx t))))
    (v : N) (c : Cfg N T) (h : ParsesTo idx p (u ++ t :: w) (.ok v) c) :
    ∃ fX lg vX f calls, Built (rules.map Rule.plain) idx (u ++ t :: w) [.nt 0] [fX] ∧ errs [fX] = [] ∧ leaves [fX] = u.zipIdx ∧
      Evals rules [fX] lg (.ok [.nt vX]) ∧ lg <+: c.log.reverse ∧ AtLeft fX f ∧
      Built (rules.map Rule.plain) idx (u ++ t :: w) [.nt 0] [f] ∧ Evals rules [f] calls (.ok [.nt v]) ∧
      calls.Sublist c.log.reverse ∧ (leaves [f]).Pairwise (fun x y => x.2 < y.2) :=
  c86_phrase o ho rules 0 (by rw [hr]; decide) (by rw [hr]; exact gDo_fruitful) 0 (by rw [hr]; exact gDo_keeps) p hp idx u w t
    (by rw [hr]; rcases ht with h | h <;> rw [h] <;> simp only [gDo_next]) (by rw [hr]; exact hu) v c h

-- `e ;` and then `e ? ; e ;`
example : Derives gDo.rules [.nt 0] ([0, 1].map fun t => .tm (.sym (id t))) ∧ ∃ v c, ParsesTo id pDo ([0, 1] ++ 0 :: [9, 1, 0, 1]) (.ok v) c :=
  ⟨.step _ [] [.tm (.sym 0), .tm (.sym 1)] ⟨0, []⟩
    (.step _ [.nt 0] [] ⟨1, [.tm (.sym 0), .tm (.sym 1)]⟩ (.step _ [] [] ⟨0, [.nt 0, .nt 1]⟩ (.refl _) (by simp [gDo])) (by simp [gDo])) (by simp [gDo]),
   _, _, ⟨60, rfl⟩⟩

/-- C86, the token that follows matters: in `e ; ? ;` the correct statement `e ;` is lost; its callback (rule 2) is not called at all. -/
theorem c86_next_needed : ¬ gDo.Next 0 9 ∧ ∃ c, ParsesTo id pDo [0, 1, 9, 1] (.ok 2) c ∧
    c.log = [(1, [.nt 0, .nt 2]), (4, [.err [0, 1, 9], .tok 1]), (0, [])] := by
  have hrun : ∃ c, ParsesTo id pDo [0, 1, 9, 1] (.ok 2) c ∧ c.log = [(1, [.nt 0, .nt 2]), (4, [.err [0, 1, 9], .tok 1]), (0, [])] := ⟨_, ⟨40, rfl⟩, rfl⟩
  refine ⟨?_, hrun⟩
  intro hn
  obtain ⟨c, hc, hlog⟩ := hrun
  obtain ⟨fX, lg, vX, f, calls, h1, h2, h3, h4, h5, _⟩ := c86_phrase idSeeds idSeeds_fair (plainRules gDo) 0 (by decide) gDo_fruitful 0 gDo_keeps pDo pDo_makes id
    [0, 1] [1] 9 hn (.step _ [] [.tm (.sym 0), .tm (.sym 1)] ⟨0, []⟩
      (.step _ [.nt 0] [] ⟨1, [.tm (.sym 0), .tm (.sym 1)]⟩ (.step _ [] [] ⟨0, [.nt 0, .nt 1]⟩ (.refl _) (by simp [gram, plainRules, gDo, Rule.plain]))
        (by simp [gram, plainRules, gDo, Rule.plain])) (by simp [gram, plainRules, gDo, Rule.plain])) 2 c hc
  -- some callback of the statement gets its first token as a token
  obtain ⟨k, _⟩ := h4.handed _ rfl
  rcases k (0, 0) (by rw [h3]; simp) with k | ⟨q, hq, k⟩
  · simp at k
  · have := h5.subset hq
    rw [hlog] at this
    simp only [List.reverse_cons, List.reverse_nil, List.nil_append, List.cons_append, List.mem_cons, List.not_mem_nil, or_false] at this
    rcases this with rfl | rfl | rfl <;> simp at k

/-- `P → L . | error; L → L e | e` -/
def gWhole : Gram := ⟨[⟨0, [.nt 1, .tm (.sym 1)]⟩, ⟨0, [.tm .err]⟩, ⟨1, [.nt 1, .tm (.sym 0)]⟩, ⟨1, [.tm (.sym 0)]⟩], 0⟩

def pWhole : Parser Nat Nat Nat :=
  ⟨plainRules gWhole ++ [⟨2, [.nt 0], fun _ => .error 0⟩],
   { action := [(0, [(.err, .shift 2), (.sym 0, .shift 3)]), (1, [(.sym 1, .shift 5), (.sym 0, .shift 6)]), (2, [(.eoi, .reduce 1)]),
       (3, [(.sym 0, .reduce 3), (.sym 1, .reduce 3)]), (4, [(.eoi, .accept)]), (5, [(.eoi, .reduce 0)]), (6, [(.sym 0, .reduce 2), (.sym 1, .reduce 2)])]
     goto := [(0, [(1, 1), (0, 4)])]
     errors := [(0, [1])]
     start := 0 }⟩

theorem pWhole_makes : MakesParser idSeeds (plainRules gWhole) 0 pWhole [] := ⟨⟨30, by decide +kernel, by simp⟩, _, rfl⟩

theorem gWhole_fruitful : gWhole.Fruitful := c71_ranked _ (fun n => if n == 0 then 1 else 0) (by decide)

/-- C86, the place of the error rules matters: with `P → error` for the whole input, everything read so far is given up.  On `e e ?` the result is the value of
one call (rule 1) that gets the slice `e e ?`. -/
theorem c86_keeps_needed : gWhole.Ok ∧ gWhole.Fruitful ∧ gWhole.Next 1 0 ∧ Derives gWhole.rules [.nt 1] [.tm (.sym 0)] ∧
    MakesParser idSeeds (plainRules gWhole) 0 pWhole [] ∧ ¬ gWhole.Keeps 1 ∧
    ∃ c, ParsesTo id pWhole [0, 0, 5] (.ok 1) c ∧ c.log = [(1, [.err [0, 0, 5]]), (3, [.tok 0])] := by
  have hrun : ∃ c, ParsesTo id pWhole [0, 0, 5] (.ok 1) c ∧ c.log = [(1, [.err [0, 0, 5]]), (3, [.tok 0])] := ⟨_, ⟨20, rfl⟩, rfl⟩
  have hn : gWhole.Next 1 0 := .inr ⟨2, _, [], [.sym 1], rfl, ⟨_, 1, rfl, .step 0 [] ⟨0, [.nt 1, .tm (.sym 1)]⟩ [] .zero (by simp [gWhole])⟩, ⟨[], rfl⟩⟩
  have hd : Derives gWhole.rules [.nt 1] [.tm (.sym 0)] := .step _ [] [] ⟨1, [.tm (.sym 0)]⟩ (.refl _) (by simp [gWhole])
  refine ⟨by decide, gWhole_fruitful, hn, hd, pWhole_makes, ?_, hrun⟩
  intro hk
  obtain ⟨c, hc, hlog⟩ := hrun
  obtain ⟨fX, lg, vX, f, calls, h1, h2, h3, h4, h5, h6, h7, h8, _⟩ := c86_phrase idSeeds idSeeds_fair (plainRules gWhole) 0 (by decide) gWhole_fruitful 1 hk
    pWhole pWhole_makes id [0] [5] 0 hn hd 1 c hc
  -- the value 1 comes from a rule with one symbol, `P → error`
  obtain ⟨r, cs, rule, rfl, g1, g2, g3⟩ := h7.head_rule
  have g1' : gWhole.rules[r]? = some rule := g1
  cases h8 with
  | node r rule' cs lg1 args v fs lg2 as g4 g5 g6 g7 =>
    have hlen : args.length = 1 := by
      have := List.mem_of_getElem? g4
      simp only [plainRules, List.mem_map] at this
      obtain ⟨r', _, rfl⟩ := this
      simpa using g6
    match r, g1' with
    | 0, e =>
      cases e
      have k1 := g3.length
      have k2 := g5.length_eq
      simp only [List.length_cons, List.length_nil] at k1
      omega
    | 1, e =>
      cases e
      cases g3 with
      | err _ _ _ _ _ _ g3 =>
        cases g3
        cases h6 with
        | self =>
          obtain ⟨r2, cs2, rule2, e1, e2, e3, _⟩ := h1.head_rule
          cases e1
          cases e2
          cases e3
        | node _ _ _ h6 => cases h6; obtain ⟨_, _, _, e1, _⟩ := h1.head_rule; cases e1
    | 2, e => cases e; cases g2
    | 3, e => cases e; cases g2
    | k + 4, e => simp [gWhole] at e

end Verif.Par
