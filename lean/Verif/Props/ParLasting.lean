import Verif.Par.LastMain
import Verif.Props.ParKeep

/-!
# Property C88: callbacks that error recovery never undoes
-/

namespace Verif.Par

variable {N T E : Type}

/-- C88: if the phrases of `Q` are never given up (`Lasting`), then the calls of their callbacks, also in inputs with errors, are exactly those that the
tree of the result is made of: no call is made whose value is thrown away, and none is made twice. -/
theorem c88_result (o : Seeds) (ho : o.Fair) (rules : List (Rule N T E)) (start : Nat) (hok : (gram rules start).Ok)
    (hfr : (gram rules start).Fruitful) (Q : Nat → Bool) (hQ : (gram rules start).Lasting Q) (p : Parser N T E) (ws : List Warning)
    (hp : MakesParser o rules start p ws) (idx : T → Nat) (input : List T) (v : N) (c : Cfg N T) (h : ParsesTo idx p input (.ok v) c) :
    ∃ f calls, Built (rules.map Rule.plain) idx input [.nt start] [f] ∧ Evals rules [f] calls (.ok [.nt v]) ∧ calls.Sublist c.log.reverse ∧
      (leaves [f]).Pairwise (fun x y => x.2 < y.2) ∧ callsOf rules Q calls = callsOf rules Q c.log.reverse := by
  obtain ⟨fresh, hx⟩ := ctx_of_makes ho hok hp
  obtain ⟨n, hn⟩ := h
  obtain ⟨f, calls, h⟩ := ((lasting_run hx hfr hQ n MachSim.init (.inl ⟨[], LInv.init⟩)).2 _ c hn).2 v rfl
  exact ⟨f, calls, h⟩

/-- C88: the same at every moment, and if the parse fails: the calls made so far for `Q` are those of trees standing side by side. -/
theorem c88_always (o : Seeds) (ho : o.Fair) (rules : List (Rule N T E)) (start : Nat) (hok : (gram rules start).Ok)
    (hfr : (gram rules start).Fruitful) (Q : Nat → Bool) (hQ : (gram rules start).Lasting Q) (p : Parser N T E) (ws : List Warning)
    (hp : MakesParser o rules start p ws) (idx : T → Nat) (input : List T) (hne : input ≠ []) (n : Nat) (c : Cfg N T)
    (h : run idx p n (Cfg.init p input) = .more c ∨ ∃ x, run idx p n (Cfg.init p input) = .done x c) :
    ∃ us fs calls x, Built (rules.map Rule.plain) idx input us fs ∧ Evals rules fs calls x ∧ calls.Sublist c.log.reverse ∧
      (leaves fs).Pairwise (fun x y => x.2 < y.2) ∧ callsOf rules Q calls = callsOf rules Q c.log.reverse := by
  obtain ⟨fresh, hx⟩ := ctx_of_makes ho hok hp
  have key := lasting_run hx hfr hQ n (MachSim.init (idx := idx) (input := input)) (.inl ⟨[], LInv.init⟩)
  have : input = [] ∨ ∃ us fs y, Lasted Q rules idx input us fs y c.log.reverse := by
    rcases h with h | ⟨x, h⟩
    · exact key.1 c h
    · exact (key.2 x c h).1
  rcases this with h | ⟨us, fs, y, calls, h⟩
  · exact absurd h hne
  · exact ⟨us, fs, calls, y, h⟩

theorem callsOf_all {rules : List (Rule N T E)} {lg : List (Call N T)} : callsOf rules (fun _ => true) lg = lg := by
  rw [callsOf, List.filter_eq_self]
  intro cl _
  split <;> rfl

/-- C88: if no phrase at all is ever given up, the calls are exactly the evaluation of the tree of the result, in this order. -/
theorem c88_exact (o : Seeds) (ho : o.Fair) (rules : List (Rule N T E)) (start : Nat) (hok : (gram rules start).Ok)
    (hfr : (gram rules start).Fruitful) (hQ : (gram rules start).Lasting fun _ => true) (p : Parser N T E) (ws : List Warning)
    (hp : MakesParser o rules start p ws) (idx : T → Nat) (input : List T) (v : N) (c : Cfg N T) (h : ParsesTo idx p input (.ok v) c) :
    ∃ f, Built (rules.map Rule.plain) idx input [.nt start] [f] ∧ Evals rules [f] c.log.reverse (.ok [.nt v]) ∧
      (leaves [f]).Pairwise (fun x y => x.2 < y.2) := by
  obtain ⟨f, calls, h1, h2, h3, h4, h5⟩ := c88_result o ho rules start hok hfr _ hQ p ws hp idx input v c h
  rw [callsOf_all, callsOf_all] at h5
  subst h5
  exact ⟨f, h1, h2, h4⟩

/-- C88: the check on the rules. -/
theorem c88_check (g : Gram) (hfr : g.Fruitful) (Q : Nat → Bool) (K : Nat) (h : g.lasts Q K = true) : g.Lasting Q :=
  lasts_lasting h (freshSym_unused g) hfr

/-- C88: in the grammar of sums of `tests/main.rs`, no value of a callback is ever thrown away, whatever the callbacks. -/
theorem c88_sums (o : Seeds) (ho : o.Fair) (rules : List (Rule N T E)) (hr : gram rules 0 = gram TestMain.rules 0) (p : Parser N T E) (ws : List Warning)
    (hp : MakesParser o rules 0 p ws) (idx : T → Nat) (input : List T) (v : N) (c : Cfg N T) (h : ParsesTo idx p input (.ok v) c) :
    ∃ f, Built (rules.map Rule.plain) idx input [.nt 0] [f] ∧ Evals rules [f] c.log.reverse (.ok [.nt v]) ∧
      (leaves [f]).Pairwise (fun x y => x.2 < y.2) :=
  c88_exact o ho rules 0 (by rw [hr]; decide) (by rw [hr]; exact main_fruitful) (by rw [hr]; exact c88_check _ main_fruitful _ 2 (by decide)) p ws hp
    idx input v c h

/-- Statements with expressions: `L → ε | L I`, `I → E ; | { L } | error ;`, `E → E + a | a`. -/
def gStm : Gram :=
  ⟨[⟨0, []⟩, ⟨0, [.nt 0, .nt 1]⟩, ⟨1, [.nt 2, .tm (.sym 1)]⟩, ⟨1, [.tm (.sym 2), .nt 0, .tm (.sym 3)]⟩, ⟨1, [.tm .err, .tm (.sym 1)]⟩,
    ⟨2, [.nt 2, .tm (.sym 4), .tm (.sym 0)]⟩, ⟨2, [.tm (.sym 0)]⟩], 0⟩

def pStm : Parser Nat Nat Nat :=
  ⟨plainRules gStm ++ [⟨3, [.nt 0], fun _ => .error 0⟩],
   { action := [(0, [(.sym 0, .reduce 0), (.sym 2, .reduce 0), (.err, .reduce 0), (.eoi, .reduce 0)]),
       (1, [(.sym 2, .shift 4), (.err, .shift 5), (.sym 0, .shift 6), (.eoi, .accept)]),
       (2, [(.sym 0, .reduce 1), (.sym 2, .reduce 1), (.err, .reduce 1), (.eoi, .reduce 1)]),
       (3, [(.sym 1, .shift 7), (.sym 4, .shift 8)]),
       (4, [(.sym 0, .reduce 0), (.sym 2, .reduce 0), (.sym 3, .reduce 0), (.err, .reduce 0)]),
       (5, [(.sym 1, .shift 10)]),
       (6, [(.sym 1, .reduce 6), (.sym 4, .reduce 6)]),
       (7, [(.sym 0, .reduce 2), (.sym 2, .reduce 2), (.err, .reduce 2), (.eoi, .reduce 2)]),
       (8, [(.sym 0, .shift 11)]),
       (9, [(.sym 2, .shift 14), (.sym 3, .shift 15), (.err, .shift 16), (.sym 0, .shift 6)]),
       (10, [(.sym 0, .reduce 4), (.sym 2, .reduce 4), (.err, .reduce 4), (.eoi, .reduce 4)]),
       (11, [(.sym 1, .reduce 5), (.sym 4, .reduce 5)]),
       (12, [(.sym 0, .reduce 1), (.sym 2, .reduce 1), (.sym 3, .reduce 1), (.err, .reduce 1)]),
       (13, [(.sym 1, .shift 17), (.sym 4, .shift 8)]),
       (14, [(.sym 0, .reduce 0), (.sym 2, .reduce 0), (.sym 3, .reduce 0), (.err, .reduce 0)]),
       (15, [(.sym 0, .reduce 3), (.sym 2, .reduce 3), (.err, .reduce 3), (.eoi, .reduce 3)]),
       (16, [(.sym 1, .shift 19)]),
       (17, [(.sym 0, .reduce 2), (.sym 2, .reduce 2), (.sym 3, .reduce 2), (.err, .reduce 2)]),
       (18, [(.sym 2, .shift 14), (.sym 3, .shift 20), (.err, .shift 16), (.sym 0, .shift 6)]),
       (19, [(.sym 0, .reduce 4), (.sym 2, .reduce 4), (.sym 3, .reduce 4), (.err, .reduce 4)]),
       (20, [(.sym 0, .reduce 3), (.sym 2, .reduce 3), (.sym 3, .reduce 3), (.err, .reduce 3)])]
     goto := [(0, [(0, 1)]), (1, [(1, 2), (2, 3)]), (4, [(0, 9)]), (9, [(1, 12), (2, 13)]), (14, [(0, 18)]), (18, [(1, 12), (2, 13)])]
     errors := [(1, [4, 4, 4, 4]), (9, [4, 4, 4, 4]), (18, [4, 4, 4, 4])]
     start := 0 }⟩

theorem pStm_makes : MakesParser idSeeds (plainRules gStm) 0 pStm [] := ⟨⟨80, by decide +kernel, by simp⟩, _, rfl⟩

theorem gStm_fruitful : gStm.Fruitful := c71_ranked _ (fun n => if n == 1 then 1 else 0) (by decide)

/-- Statements and lists of statements. -/
def isStm (n : Nat) : Bool := n == 0 || n == 1

theorem gStm_lasting : gStm.Lasting isStm := c88_check gStm gStm_fruitful isStm 1 (by decide)

/-- C88: in the grammar of statements, nested blocks and expressions, the callbacks of statements are called exactly once for every statement of the
result, in this order, and for nothing else. -/
theorem c88_statements (o : Seeds) (ho : o.Fair) (rules : List (Rule N T E)) (hr : gram rules 0 = gStm) (p : Parser N T E) (ws : List Warning)
    (hp : MakesParser o rules 0 p ws) (idx : T → Nat) (input : List T) (v : N) (c : Cfg N T) (h : ParsesTo idx p input (.ok v) c) :
    ∃ f calls, Built (rules.map Rule.plain) idx input [.nt 0] [f] ∧ Evals rules [f] calls (.ok [.nt v]) ∧ calls.Sublist c.log.reverse ∧
      (leaves [f]).Pairwise (fun x y => x.2 < y.2) ∧ callsOf rules isStm calls = callsOf rules isStm c.log.reverse :=
  c88_result o ho rules 0 (by rw [hr]; decide) (by rw [hr]; exact gStm_fruitful) isStm (by rw [hr]; exact gStm_lasting) p ws hp idx input v c h

-- `a ; { a + ; a ; } a ;`
example : ∃ c, ParsesTo id pStm [0, 1, 2, 0, 4, 1, 0, 1, 3, 0, 1] (.ok 2) c ∧ (callsOf pStm.rules isStm c.log.reverse).map Prod.fst = [0, 2, 1, 0, 4, 1, 2, 1, 3, 1, 2, 1] :=
  ⟨_, ⟨90, rfl⟩, by decide⟩

/-- The number of values of callbacks among the arguments. -/
def values (as : List (Arg N T)) : Nat := as.countP fun
  | .nt _ => true
  | _ => false

/-- In a tree, the value of every call is used once. -/
theorem Evals.values_used {rules : List (Rule N T E)} {fs : List (Tree T)} {lg : List (Call N T)} {x : Except E (List (Arg N T))} (h : Evals rules fs lg x) :
    ∀ as, x = .ok as → lg.length = values as + (lg.map fun q => values q.2).sum := by
  induction h with
  | nil => rintro _ ⟨⟩; rfl
  | leaf _ _ _ _ _ _ ih => rintro _ ⟨⟩; simpa [values] using ih _ rfl
  | err _ _ _ _ _ _ ih => rintro _ ⟨⟩; simpa [values] using ih _ rfl
  | node r rule cs lg1 args v fs lg2 as _ _ _ _ ih1 ih2 =>
    rintro _ ⟨⟩
    have k1 := ih1 _ rfl
    have k2 := ih2 _ rfl
    have k3 : values (.nt v :: as) = values as + 1 := by simp [values]
    simp only [List.length_append, List.length_cons, List.map_append, List.map_cons, List.sum_append_nat, List.sum_cons, k3]
    omega
  | leafE => intro as h; cases h
  | errE => intro as h; cases h
  | nodeE => intro as h; cases h
  | fail => intro as h; cases h
  | inner => intro as h; cases h

/-- C88, expressions are given up: in `a + ;` the callback of `E → a` (rule 6) has been called, and its value is thrown away.  So `Lasting` says more than
nothing, and not all callbacks can be protected in this grammar. -/
theorem c88_given_up : gStm.Ok ∧ gStm.Fruitful ∧ MakesParser idSeeds (plainRules gStm) 0 pStm [] ∧ (¬ gStm.Lasting fun _ => true) ∧
    ∃ c, ParsesTo id pStm [0, 4, 1] (.ok 2) c ∧
      c.log.reverse = [(0, []), (6, [.tok 0]), (4, [.err [0, 4], .tok 1]), (1, [.nt 0, .nt 2])] := by
  have hrun : ∃ c, ParsesTo id pStm [0, 4, 1] (.ok 2) c ∧
      c.log.reverse = [(0, []), (6, [.tok 0]), (4, [.err [0, 4], .tok 1]), (1, [.nt 0, .nt 2])] := ⟨_, ⟨40, rfl⟩, rfl⟩
  refine ⟨by decide, gStm_fruitful, pStm_makes, ?_, hrun⟩
  intro hk
  obtain ⟨c, hc, hlog⟩ := hrun
  obtain ⟨f, h1, h2, _⟩ := c88_exact idSeeds idSeeds_fair (plainRules gStm) 0 (by decide) gStm_fruitful hk pStm [] pStm_makes id [0, 4, 1] 2 c hc
  rw [hlog] at h2
  exact absurd (h2.values_used _ rfl) (by decide)

/-- C88, with the rule `I → S w ;` for blocks (the grammar of C82), statements are not protected: `{ 0 ; 10 ; 20 ; } w ? ;` has one statement `10 ;`, and its
callback (rule 2) is called twice. -/
theorem c88_twice : gDo.Ok ∧ gDo.Fruitful ∧ MakesParser idSeeds (plainRules gDo) 0 pDo [] ∧ (∀ Q, Q 1 = true → ¬ gDo.Lasting Q) ∧
    ∃ c, ParsesTo (· % 10) pDo [2, 0, 1, 10, 1, 20, 1, 3, 4, 9, 1] (.ok 2) c ∧ (c.log.filter fun q => q.1 == 2 && q.2.length == 2 && q.2.any fun
      | .tok 10 => true
      | _ => false).length = 2 := by
  have hrun : ∃ c, ParsesTo (· % 10) pDo [2, 0, 1, 10, 1, 20, 1, 3, 4, 9, 1] (.ok 2) c ∧ (c.log.filter fun q => q.1 == 2 && q.2.length == 2 && q.2.any fun
      | .tok 10 => true
      | _ => false).length = 2 := ⟨_, ⟨90, rfl⟩, by decide⟩
  refine ⟨by decide, gDo_fruitful, pDo_makes, ?_, hrun⟩
  intro Q q1 hk
  -- lists and blocks contain statements
  have q0 : Q 0 = true := hk.1 ⟨0, [.nt 0, .nt 1]⟩ (by simp [gDo]) 1 (by simp) q1
  have q2 : Q 2 = true := hk.1 ⟨2, [.tm (.sym 2), .nt 0, .tm (.sym 3)]⟩ (by simp [gDo]) 0 (by simp) q0
  have hall : ∀ lg : List (Call Nat Nat), callsOf (plainRules gDo) Q lg = lg := by
    intro lg
    rw [callsOf, List.filter_eq_self]
    intro cl _
    split
    · rename_i rule h
      have := List.mem_of_getElem? h
      simp only [plainRules, gDo, List.map_cons, List.map_nil, List.mem_cons, List.not_mem_nil, or_false] at this
      rcases this with rfl | rfl | rfl | rfl | rfl | rfl <;> assumption
    · rfl
  obtain ⟨c, hc, hlen⟩ : ∃ c, ParsesTo (· % 10) pDo [2, 0, 1, 10, 1, 20, 1, 3, 4, 9, 1] (.ok 2) c ∧
      c.log.reverse.length ≠ 1 + (c.log.reverse.map fun q => values q.2).sum := ⟨_, ⟨90, rfl⟩, by decide⟩
  obtain ⟨f, calls, h1, h2, _, _, h5⟩ := c88_result idSeeds idSeeds_fair (plainRules gDo) 0 (by decide) gDo_fruitful Q hk pDo [] pDo_makes _ _ _ c hc
  rw [hall, hall] at h5
  subst h5
  exact hlen (h2.values_used _ rfl)

end Verif.Par
