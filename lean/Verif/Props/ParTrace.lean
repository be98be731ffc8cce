import Verif.Par.TraceMain
import Verif.Props.ParSettled
import Verif.Par.TestMain

/-!
# Property C85: no token gets lost in error recovery
-/

namespace Verif.Par

variable {N T E : Type}

/-- C85: if a phrase that can be given up begins with a token (`Traced`), then the result of a successful parse is the value of a tree in
which every token of the input is a leaf or in an error slice; the leaves are in input order, none twice. -/
theorem c85_covered (o : Seeds) (ho : o.Fair) (rules : List (Rule N T E)) (start : Nat) (hok : (gram rules start).Ok)
    (hfr : (gram rules start).Fruitful) (ht : (gram rules start).Traced) (p : Parser N T E) (ws : List Warning) (hp : MakesParser o rules start p ws)
    (idx : T → Nat) (input : List T) (v : N) (c : Cfg N T) (h : ParsesTo idx p input (.ok v) c) :
    ∃ f calls, Built (rules.map Rule.plain) idx input [.nt start] [f] ∧ Evals rules [f] calls (.ok [.nt v]) ∧ calls.Sublist c.log.reverse ∧
      (leaves [f]).Pairwise (fun x y => x.2 < y.2) ∧ ∀ i < input.length, Covered [f] i := by
  by_cases hne : input = []
  · subst hne
    obtain ⟨f, calls, h1, h2, h3, h4, _⟩ := c23_sound o ho rules start hok p ws hp idx [] v c h
    exact ⟨f, calls, h1, h2, h4, h3, fun i hi => absurd hi (Nat.not_lt_zero _)⟩
  · obtain ⟨fresh, hx⟩ := ctx_of_makes ho hok hp
    obtain ⟨n, hn⟩ := h
    exact covered_run hx hfr ht hne n MachSim.init TInv.init hn

/-- C85: so every token of the input has been handed to some callback, as a token or in an error slice. -/
theorem c85_handed (o : Seeds) (ho : o.Fair) (rules : List (Rule N T E)) (start : Nat) (hok : (gram rules start).Ok)
    (hfr : (gram rules start).Fruitful) (ht : (gram rules start).Traced) (p : Parser N T E) (ws : List Warning) (hp : MakesParser o rules start p ws)
    (idx : T → Nat) (input : List T) (v : N) (c : Cfg N T) (h : ParsesTo idx p input (.ok v) c) (t : T) (hin : t ∈ input) :
    ∃ r args, (r, args) ∈ c.log ∧ (.tok t ∈ args ∨ ∃ l, .err l ∈ args ∧ t ∈ l) := by
  obtain ⟨f, calls, h1, h2, h3, _, h5⟩ := c85_covered o ho rules start hok hfr ht p ws hp idx input v c h
  obtain ⟨i, hi, rfl⟩ := List.mem_iff_getElem.1 hin
  obtain ⟨k1, k2⟩ := h2.handed _ rfl
  have hlog : ∀ q ∈ calls, (q.1, q.2) ∈ c.log := fun q hq => List.mem_reverse.1 (h3.subset hq)
  rcases h5 i hi with ⟨t, ht⟩ | ⟨x, hx, hlo, hhi⟩
  · have e := h1.leaf_get _ ht
    simp only [List.getElem?_eq_getElem hi, Option.some.injEq] at e
    rcases k1 _ ht with k | ⟨q, hq, k⟩
    · simp at k
    · exact ⟨q.1, q.2, hlog q hq, .inl (by rw [e]; exact k)⟩
  · obtain ⟨_, e⟩ := h1.slices x hx
    rcases k2 _ hx with k | ⟨q, hq, k⟩
    · simp at k
    · refine ⟨q.1, q.2, hlog q hq, .inr ⟨x.2, k, ?_⟩⟩
      refine List.mem_of_getElem? (i := i - x.1) ?_
      rw [← e, List.getElem?_take_of_lt (by omega), List.getElem?_drop, show x.1 + (i - x.1) = i by omega, List.getElem?_eq_getElem hi]

/-- C85: the check on the rules. -/
theorem c85_check (g : Gram) (hfr : g.Fruitful) (firm : List Nat) (K : Nat) (h : g.traces firm K = true) : g.Traced :=
  traces_traced h (freshSym_unused g) hfr

/-- C85: in the grammar of statements and nested blocks of C82, nothing gets lost. -/
theorem c85_blocks (o : Seeds) (ho : o.Fair) (rules : List (Rule N T E)) (hr : gram rules 0 = gDo) (p : Parser N T E) (hp : MakesParser o rules 0 p [])
    (idx : T → Nat) (input : List T) (v : N) (c : Cfg N T) (h : ParsesTo idx p input (.ok v) c) :
    ∃ f calls, Built (rules.map Rule.plain) idx input [.nt 0] [f] ∧ Evals rules [f] calls (.ok [.nt v]) ∧ calls.Sublist c.log.reverse ∧
      (leaves [f]).Pairwise (fun x y => x.2 < y.2) ∧ ∀ i < input.length, Covered [f] i :=
  c85_covered o ho rules 0 (by rw [hr]; decide) (by rw [hr]; exact gDo_fruitful) (by rw [hr]; exact c85_check gDo gDo_fruitful [2] 1 (by decide)) p [] hp
    idx input v c h

example : ∃ v c, ParsesTo id pDo [0, 2, 0, 1, 3, 1, 9, 1, 0, 1] (.ok v) c := ⟨_, _, ⟨60, rfl⟩⟩

theorem main_fruitful : (gram TestMain.rules 0).Fruitful := c71_ranked _ (fun n => 2 - n) (by decide)

/-- C85: nor in the grammar of sums of `tests/main.rs`, whatever the callbacks. -/
theorem c85_sums (o : Seeds) (ho : o.Fair) (rules : List (Rule N T E)) (hr : gram rules 0 = gram TestMain.rules 0) (p : Parser N T E) (ws : List Warning)
    (hp : MakesParser o rules 0 p ws) (idx : T → Nat) (input : List T) (v : N) (c : Cfg N T) (h : ParsesTo idx p input (.ok v) c) :
    ∃ f calls, Built (rules.map Rule.plain) idx input [.nt 0] [f] ∧ Evals rules [f] calls (.ok [.nt v]) ∧ calls.Sublist c.log.reverse ∧
      (leaves [f]).Pairwise (fun x y => x.2 < y.2) ∧ ∀ i < input.length, Covered [f] i :=
  c85_covered o ho rules 0 (by rw [hr]; decide) (by rw [hr]; exact main_fruitful) (by rw [hr]; exact c85_check _ main_fruitful [] 2 (by decide)) p ws hp
    idx input v c h

def pSums : Parser Nat Nat Nat :=
  ⟨plainRules (gram TestMain.rules 0) ++ [⟨3, [.nt 0], fun _ => .error 0⟩],
   { action := [(0, [(.sym 0, .shift 4), (.err, .shift 5)]), (1, [(.sym 1, .shift 6), (.eoi, .accept)]),
       (2, [(.sym 2, .shift 7), (.sym 1, .reduce 1), (.eoi, .reduce 1)]), (3, [(.sym 1, .reduce 3), (.sym 2, .reduce 3), (.eoi, .reduce 3)]),
       (4, [(.sym 1, .reduce 4), (.sym 2, .reduce 4), (.eoi, .reduce 4)]), (5, [(.sym 1, .reduce 5), (.sym 2, .reduce 5), (.eoi, .reduce 5)]),
       (6, [(.sym 0, .shift 4), (.err, .shift 5)]), (7, [(.sym 0, .shift 4), (.err, .shift 5)]),
       (8, [(.sym 2, .shift 7), (.sym 1, .reduce 0), (.eoi, .reduce 0)]), (9, [(.sym 1, .reduce 2), (.sym 2, .reduce 2), (.eoi, .reduce 2)])]
     goto := [(0, [(0, 1), (1, 2), (2, 3)]), (6, [(1, 8), (2, 3)]), (7, [(2, 9)])]
     errors := [(0, [5, 5, 5]), (6, [5, 5, 5]), (7, [5, 5, 5])]
     start := 0 }⟩

-- `1 + * 2 2 + 3`: the slices are `*` and `2 2`
example : MakesParser idSeeds (plainRules (gram TestMain.rules 0)) 0 pSums [] ∧ ∃ v c, ParsesTo id pSums [0, 1, 2, 0, 0, 1, 0] (.ok v) c :=
  ⟨⟨⟨60, by decide +kernel, by simp⟩, _, rfl⟩, _, _, ⟨60, rfl⟩⟩

/-- `P → B x x | error; B → error y` -/
def gHead : Gram := ⟨[⟨0, [.nt 1, .tm (.sym 1), .tm (.sym 1)]⟩, ⟨0, [.tm .err]⟩, ⟨1, [.tm .err, .tm (.sym 0)]⟩], 0⟩

def pHead : Parser Nat Nat Nat :=
  ⟨plainRules gHead ++ [⟨2, [.nt 0], fun _ => .error 0⟩],
   { action := [(0, [(.err, .shift 2)]), (1, [(.sym 1, .shift 4)]), (2, [(.sym 0, .shift 5), (.eoi, .reduce 1)]), (3, [(.eoi, .accept)]),
       (4, [(.sym 1, .shift 6)]), (5, [(.sym 1, .reduce 2)]), (6, [(.eoi, .reduce 0)])]
     goto := [(0, [(1, 1), (0, 3)])]
     errors := [(0, [1, 2])]
     start := 0 }⟩

theorem pHead_makes : MakesParser idSeeds (plainRules gHead) 0 pHead [] := ⟨⟨20, by decide, by simp⟩, _, rfl⟩

theorem gHead_fruitful : gHead.Fruitful := c71_ranked _ (fun n => if n == 0 then 1 else 0) (by decide)
theorem gEps_fruitful : gEps.Fruitful := c71_ranked _ (fun n => if n == 0 then 1 else 0) (by decide)

/-- C85, the condition is needed: if a phrase that begins with `error` is given up, its error slice is forgotten.  On `7 y x 8` the result is made by
one callback that gets the slice `y x 8`; the token `7` was in the slice of an earlier call whose value is thrown away. -/
theorem c85_forgotten : gHead.Ok ∧ gHead.Fruitful ∧ gHead.ErrorsApart ∧ MakesParser idSeeds (plainRules gHead) 0 pHead [] ∧ ¬ gHead.Traced ∧
    ∃ c, ParsesTo id pHead [7, 0, 1, 8] (.ok 1) c ∧ c.log = [(1, [.err [0, 1, 8]]), (2, [.err [7], .tok 0])] := by
  have hrun : ∃ c, ParsesTo id pHead [7, 0, 1, 8] (.ok 1) c ∧ c.log = [(1, [.err [0, 1, 8]]), (2, [.err [7], .tok 0])] := ⟨_, ⟨20, rfl⟩, rfl⟩
  refine ⟨by decide, gHead_fruitful, tidy_apart (s := ⟨[], [0, 1], [], []⟩) (by decide) (by decide), pHead_makes, ?_, hrun⟩
  intro ht
  obtain ⟨c, hc, hlog⟩ := hrun
  obtain ⟨f, calls, h1, h2, h3, _, h5⟩ := c85_covered idSeeds idSeeds_fair (plainRules gHead) 0 (by decide) gHead_fruitful ht pHead [] pHead_makes id _ _ c hc
  rw [hlog] at h3
  obtain ⟨k1, k2⟩ := h2.handed _ rfl
  -- the slice `7` is in the tree
  have hmem : (2, [Arg.err [7], .tok 0]) ∈ calls := by
    rcases h5 0 (by simp) with ⟨t, ht⟩ | ⟨x, hx, hlo, hhi⟩
    · have e := h1.leaf_get _ ht
      simp only [List.getElem?_cons_zero, Option.some.injEq] at e
      subst e
      rcases k1 _ ht with k | ⟨q, hq, k⟩
      · simp at k
      · have := h3.subset hq
        simp only [List.reverse_cons, List.reverse_nil, List.nil_append, List.cons_append, List.mem_cons, List.not_mem_nil, or_false] at this
        rcases this with rfl | rfl <;> simp at k
    · obtain ⟨_, e⟩ := h1.slices x hx
      rcases k2 _ hx with k | ⟨q, hq, k⟩
      · simp at k
      · have := h3.subset hq
        simp only [List.reverse_cons, List.reverse_nil, List.nil_append, List.cons_append, List.mem_cons, List.not_mem_nil, or_false] at this
        rcases this with rfl | rfl
        · exact hq
        · exfalso
          simp only [List.mem_cons, List.not_mem_nil, or_false, Arg.err.injEq] at k
          have : x.1 = 0 := by omega
          rw [this, k] at e
          simp at e
  -- but it is not below the root
  generalize hx : (Except.ok [Arg.nt 1] : Except Nat (List (Arg Nat Nat))) = x at h2
  cases h2 with
  | leaf => cases hx
  | leafE => cases hx
  | err => cases hx
  | errE => cases hx
  | nodeE => cases hx
  | fail => cases hx
  | inner => cases hx
  | node r rule cs lg1 args v fs lg2 as g1 g2 g3 g4 =>
    cases hx
    cases g4
    have hargs : args.length = 1 := by
      have hr := List.mem_of_getElem? g1
      simp only [plainRules, List.mem_map] at hr
      obtain ⟨r', _, rfl⟩ := hr
      simpa using g3
    have hroot : (r, args) ∈ [(1, [Arg.err [0, 1, 8]]), (2, [.err [7], .tok 0])].reverse := h3.subset (by simp)
    simp only [List.reverse_cons, List.reverse_nil, List.nil_append, List.cons_append, List.mem_cons, List.not_mem_nil, or_false, Prod.mk.injEq] at hroot
    rcases hroot with ⟨_, rfl⟩ | ⟨rfl, rfl⟩
    · simp at hargs
    · generalize hy : (Except.ok [Arg.err [0, 1, 8]] : Except Nat (List (Arg Nat Nat))) = y at g2
      cases g2 with
      | nil => cases hy
      | leaf => cases hy
      | leafE => cases hy
      | errE => cases hy
      | node => cases hy
      | nodeE => cases hy
      | fail => cases hy
      | inner => cases hy
      | err lo l fs lg as g5 =>
        cases hy
        cases g5
        simp at hmem

/-- C85, the same with a phrase that begins with an empty one: on `x z` of `S → E x y | error; E → ε` the token `x` is not handed to any callback. -/
theorem c85_forgotten_empty : gEps.Ok ∧ gEps.Fruitful ∧ gEps.ErrorsApart ∧ MakesParser idSeeds (plainRules gEps) 0 pEps [] ∧ ¬ gEps.Traced ∧
    ∃ c, ParsesTo id pEps [0, 5] (.ok 1) c ∧ c.log = [(1, [.err [5]]), (2, [])] := by
  refine ⟨by decide, gEps_fruitful, tidy_apart (s := ⟨[1], [0], [], []⟩) (by decide) (by decide), pEps_makes, ?_, c33_lost⟩
  intro ht
  obtain ⟨c, hc, hlog⟩ := c33_lost
  obtain ⟨r, args, h1, h2⟩ := c85_handed idSeeds idSeeds_fair (plainRules gEps) 0 (by decide) gEps_fruitful ht pEps [] pEps_makes id _ _ c hc 0 (by simp)
  rw [hlog] at h1
  simp only [List.mem_cons, List.not_mem_nil, or_false, Prod.mk.injEq] at h1
  rcases h1 with ⟨_, rfl⟩ | ⟨_, rfl⟩
  · rcases h2 with h2 | ⟨l, h2, h3⟩
    · simp at h2
    · simp only [List.mem_cons, List.not_mem_nil, or_false, Arg.err.injEq] at h2
      subst h2
      simp at h3
  · rcases h2 with h2 | ⟨l, h2, h3⟩
    · cases h2
    · cases h2

end Verif.Par
