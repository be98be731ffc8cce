import Verif.Par.ReportProof
import Verif.Par.TestMainProof
import Verif.Props.ParComplete
import Verif.Props.ParPart
import Verif.Props.ParSeeds
import Verif.Props.ParTables
import Verif.Props.ParRun

/-!
# C69: error rules that only report
-/

namespace Verif.Par

variable {N T E : Type}

/-- C69: if the callbacks of error rules fail whenever they are given an error slice, `Ok` is returned for sentences only (also if there are
conflicts), and is the value of an error-free tree. -/
theorem c69_sentence (o : Seeds) (ho : o.Fair) (rules : List (Rule N T E)) (start : Nat) (hok : (gram rules start).Ok)
    (hr : Reports rules) (p : Parser N T E) (ws : List Warning) (hp : MakesParser o rules start p ws) (idx : T → Nat) (input : List T)
    (v : N) (c : Cfg N T) (h : ParsesTo idx p input (.ok v) c) :
    (gram rules start).Sentence (input.map idx) ∧
      ∃ f, IsTree (rules.map Rule.plain) start idx input f ∧ Evals rules [f] c.log.reverse (.ok [.nt v]) := by
  obtain ⟨f, calls, h1, h2, _, _, h3⟩ := c23_sound o ho rules start hok p ws hp idx input v c h
  have he := h1.reports hr h2 (by simp)
  obtain ⟨h4, h5⟩ := h3 he
  have hf : IsTree (rules.map Rule.plain) start idx input f := ⟨h1, he, h4⟩
  exact ⟨sentence_iff (g := gram rules start).2 ⟨f, hf⟩, f, hf, h5 ▸ h2⟩

theorem strict_sub {rules : List (Rule N T E)} : ∀ r ∈ (strict rules).map Rule.plain, r ∈ rules.map Rule.plain := by
  intro r h
  obtain ⟨r0, h1, rfl⟩ := List.mem_map.1 h
  exact List.mem_map_of_mem (List.mem_filter.1 h1).1

/-- C69: such rules change nothing for anyone who only looks at the values: the parser returns `Ok v` exactly if the parser for
the rules without `error` does, and for sentences also the same errors of callbacks. -/
theorem c69_same (o o' : Seeds) (ho : o.Fair) (ho' : o'.Fair) (rules : List (Rule N T E)) (start : Nat) (hok : (gram rules start).Ok)
    (hc : ¬ (gram rules start).Cyclic) (hr : Reports rules) (p p' : Parser N T E) (ws' : List Warning) (hp : MakesParser o rules start p [])
    (hp' : MakesParser o' (strict rules) start p' ws') (idx : T → Nat) (input : List T) :
    (gram (strict rules) start).NoError ∧ ws' = [] ∧
    (∀ v, (∃ c, ParsesTo idx p input (.ok v) c) ↔ ∃ c, ParsesTo idx p' input (.ok v) c) ∧
    ((gram rules start).Sentence (input.map idx) → ∀ e,
      (∃ c, ParsesTo idx p input (.error (.reducer e)) c) ↔ ∃ c, ParsesTo idx p' input (.error (.reducer e)) c) := by
  have hok' : (gram (strict rules) start).Ok := fun r h => hok r (strict_sub r h)
  obtain rfl := c72_fewer_rules o o' ho ho' (gram rules start) (gram (strict rules) start) hok
    (Among.map ⟨strict rules, .refl _, List.filter_sublist⟩ Rule.plain) rfl p.tab p'.tab ws' hp.1 hp'.1
  have hc' : ¬ (gram (strict rules) start).Cyclic := by
    rintro ⟨x, r, y, h1, h2, h3⟩
    exact hc ⟨x, r, y, strict_sub r h1, gen_iff.1 ((gen_iff.2 h2).mono strict_sub), h3⟩
  have hr' : Reports (strict rules) := fun r h => hr r (List.mem_filter.1 h).1
  have key : ∀ f, IsTree (rules.map Rule.plain) start idx input f → ∃ f' lg lg' x, IsTree ((strict rules).map Rule.plain) start idx input f' ∧
      Evals rules [f] lg x ∧ Evals (strict rules) [f'] lg' x := by
    intro f hf
    obtain ⟨fs', h1, h2, h3⟩ := tree_strict hf.1 hf.2.1
    have hl := h1.length
    obtain ⟨f', rfl⟩ : ∃ f', fs' = [f'] := by
      match fs', hl with
      | [f'], _ => exact ⟨f', rfl⟩
    obtain ⟨lg', x, h4⟩ := Built.evals h1
    obtain ⟨gs, k1, k2, k3, k4⟩ := strict_tree h1 h2
    have hl := k1.length
    obtain ⟨g, rfl⟩ : ∃ g, gs = [g] := by
      match gs, hl with
      | [g], _ => exact ⟨g, rfl⟩
    obtain ⟨lg, k5⟩ := k4 _ _ h4
    have : f = g := c25_unambiguous o ho (gram rules start) hok p.tab hp.1 hc idx input f g hf ⟨k1, k2, by rw [k3, h3]; exact hf.2.2⟩
    subst this
    exact ⟨f', lg, lg', x, ⟨h1, h2, by rw [h3]; exact hf.2.2⟩, k5, h4⟩
  have hsent : ∀ f, IsTree ((strict rules).map Rule.plain) start idx input f → ∃ g, IsTree (rules.map Rule.plain) start idx input g := by
    intro f hf
    obtain ⟨gs, k1, k2, k3, _⟩ := strict_tree hf.1 hf.2.1
    have hl := k1.length
    obtain ⟨g, rfl⟩ : ∃ g, gs = [g] := by
      match gs, hl with
      | [g], _ => exact ⟨g, rfl⟩
    exact ⟨g, k1, k2, by rw [k3]; exact hf.2.2⟩
  have both : ∀ f, IsTree (rules.map Rule.plain) start idx input f →
      (∀ v, (∃ c, ParsesTo idx p input (.ok v) c) ↔ ∃ c, ParsesTo idx p' input (.ok v) c) ∧
      ∀ e, (∃ c, ParsesTo idx p input (.error (.reducer e)) c) ↔ ∃ c, ParsesTo idx p' input (.error (.reducer e)) c := by
    intro f hf
    obtain ⟨f', lg, lg', x, h1, h2, h3⟩ := key f hf
    refine ⟨fun v => ⟨?_, ?_⟩, fun e => ⟨?_, ?_⟩⟩
    · rintro ⟨c, h⟩
      have h4 := ((c30_evaluation o ho rules start hok p hp hc idx input f hf c.log.reverse).1 v).2 ⟨c, h, rfl⟩
      obtain ⟨rfl, rfl⟩ := h2.unique h4
      obtain ⟨c', h5, _⟩ := ((c30_evaluation o' ho' (strict rules) start hok' p' hp' hc' idx input f' h1 lg').1 v).1 h3
      exact ⟨c', h5⟩
    · rintro ⟨c, h⟩
      have h4 := ((c30_evaluation o' ho' (strict rules) start hok' p' hp' hc' idx input f' h1 c.log.reverse).1 v).2 ⟨c, h, rfl⟩
      obtain ⟨rfl, rfl⟩ := h3.unique h4
      obtain ⟨c', h5, _⟩ := ((c30_evaluation o ho rules start hok p hp hc idx input f hf lg).1 v).1 h2
      exact ⟨c', h5⟩
    · rintro ⟨c, h⟩
      have h4 := ((c30_evaluation o ho rules start hok p hp hc idx input f hf c.log.reverse).2 e).2 ⟨c, h, rfl⟩
      obtain ⟨rfl, rfl⟩ := h2.unique h4
      obtain ⟨c', h5, _⟩ := ((c30_evaluation o' ho' (strict rules) start hok' p' hp' hc' idx input f' h1 lg').2 e).1 h3
      exact ⟨c', h5⟩
    · rintro ⟨c, h⟩
      have h4 := ((c30_evaluation o' ho' (strict rules) start hok' p' hp' hc' idx input f' h1 c.log.reverse).2 e).2 ⟨c, h, rfl⟩
      obtain ⟨rfl, rfl⟩ := h3.unique h4
      obtain ⟨c', h5, _⟩ := ((c30_evaluation o ho rules start hok p hp hc idx input f hf lg).2 e).1 h2
      exact ⟨c', h5⟩
  refine ⟨?_, rfl, fun v => ⟨?_, ?_⟩, fun hs => ?_⟩
  · intro r h
    obtain ⟨r0, h1, rfl⟩ := List.mem_map.1 h
    simpa [Rule.plain] using (List.mem_filter.1 h1).2
  · rintro ⟨c, h⟩
    obtain ⟨_, f, hf, _⟩ := c69_sentence o ho rules start hok hr p [] hp idx input v c h
    exact ((both f hf).1 v).1 ⟨c, h⟩
  · rintro ⟨c, h⟩
    obtain ⟨_, f, hf, _⟩ := c69_sentence o' ho' (strict rules) start hok' hr' p' [] hp' idx input v c h
    obtain ⟨g, hg⟩ := hsent f hf
    exact ((both g hg).1 v).2 ⟨c, h⟩
  · obtain ⟨f, hf⟩ := sentence_iff.1 hs
    exact (both f hf).2

/-! ## The program of `parser_generator/tests/main.rs` -/

namespace TestMain

theorem pT_makes : MakesParser idSeeds rules 0 pT [] := ⟨⟨40, by decide +kernel, by simp⟩, _, rfl⟩

theorem rules_reports : Reports rules := by
  intro r hr he args l hl
  simp only [rules, List.mem_cons, List.not_mem_nil, or_false] at hr
  rcases hr with rfl | rfl | rfl | rfl | rfl | rfl <;> simp at he
  show ∃ e, onError args = _
  unfold onError
  split <;> exact ⟨_, rfl⟩

theorem rules_closed : (gram rules 0).Closed := by
  refine ⟨⟨_, List.mem_cons_self, rfl⟩, ?_⟩
  intro r hr n hn
  simp only [gram, rules, List.map_cons, List.map_nil, List.mem_cons, List.not_mem_nil, or_false] at hr
  have : n = 0 ∨ n = 1 ∨ n = 2 := by
    rcases hr with rfl | rfl | rfl | rfl | rfl | rfl <;> simp [Rule.plain] at hn <;> omega
  rcases this with rfl | rfl | rfl
  · exact ⟨⟨0, [.nt 1]⟩, by simp [gram, rules, Rule.plain], rfl⟩
  · exact ⟨⟨1, [.nt 2]⟩, by simp [gram, rules, Rule.plain], rfl⟩
  · exact ⟨⟨2, [.tm (.sym 0)]⟩, by simp [gram, rules, Rule.plain], rfl⟩

/-- C69: what the test program of the generator returns for every input, whatever the hash seeds. -/
theorem c69_test_main (o : Seeds) (ho : o.Fair) :
    (∃ p ws, MakesParser o rules 0 p ws) ∧ ∀ p ws, MakesParser o rules 0 p ws → ws = [] ∧ ∀ input,
      (∀ ls : List (List Nat), ls ≠ [] → (∀ l ∈ ls, l ≠ []) → input = sum ls → ∃ c, ParsesTo Tok.index p input (.ok (value ls)) c) ∧
      (∀ l, Blames input l → ∃ c, ParsesTo Tok.index p input (.error (.reducer l)) c) ∧
      (ParsePanics Tok.index p input ↔ input = []) ∧
      ((∃ ls : List (List Nat), ls ≠ [] ∧ (∀ l ∈ ls, l ≠ []) ∧ input = sum ls) ∨ (∃ l, Blames input l) ∨ input = []) := by
  have hok : (gram rules 0).Ok := by decide
  constructor
  · obtain ⟨tab, ws, h⟩ := c20_new_no_panic o ho (gram rules 0) hok rules_closed
    exact ⟨⟨_, tab⟩, ws, h, fun _ => .error [], rfl⟩
  · intro p ws hp
    have hws : ws = [] := by
      have := (c32_same_warnings o idSeeds ho idSeeds_fair (gram rules 0) hok).2 _ _ _ _ hp.1 pT_makes.1
      cases ws with
      | nil => rfl
      | cons w ws =>
        have := (this w).1 (by simp)
        cases this
    refine ⟨hws, fun input => ?_⟩
    have same := c32_same_outcome o idSeeds ho idSeeds_fair rules 0 hok p pT ws [] hp pT_makes Tok.index input
    have back : ∀ x, (∃ c, ParsesTo Tok.index pT input x c) → ∃ c, ParsesTo Tok.index p input x c := by
      rintro x ⟨c, h⟩
      obtain ⟨c', h', _⟩ := (same.1 x c.log c.pulls).2 ⟨c, h, rfl, rfl⟩
      exact ⟨c', h'⟩
    have h1 : ∀ ls : List (List Nat), ls ≠ [] → (∀ l ∈ ls, l ≠ []) → input = sum ls → ∃ c, ParsesTo Tok.index p input (.ok (value ls)) c := by
      rintro ls h1 h2 rfl
      exact back _ (run_sum ls h1 h2)
    have h2 : ∀ l, Blames input l → ∃ c, ParsesTo Tok.index p input (.error (.reducer l)) c := fun l h => back _ (run_blames h)
    have h3 := cover input.length input (Nat.le_refl _)
    refine ⟨h1, h2, ⟨?_, ?_⟩, h3⟩
    · rintro ⟨n, h⟩
      have no : ∀ x c, ¬ ParsesTo Tok.index p input x c := by
        rintro x c ⟨m, h'⟩
        have k1 : run Tok.index p (n + m) (Cfg.init p input) = .panic := by rw [run_add, h]
        have k2 : run Tok.index p (m + n) (Cfg.init p input) = .done x c := by rw [run_add, h']
        rw [Nat.add_comm, k1] at k2
        cases k2
      rcases h3 with ⟨ls, k1, k2, k3⟩ | ⟨l, k⟩ | k
      · obtain ⟨c, h'⟩ := h1 ls k1 k2 k3
        exact absurd h' (no _ _)
      · obtain ⟨c, h'⟩ := h2 l k
        exact absurd h' (no _ _)
      · exact k
    · rintro rfl
      exact same.2.1.2 run_empty

/-! The two inputs of the test, and some of the other cases. -/

example : sum [[1], [2, 3], [4]] = [.num 1, .plus, .num 2, .star, .num 3, .plus, .num 4] := rfl
example : ∃ c, ParsesTo Tok.index pT [.num 1, .plus, .num 2, .star, .num 3, .plus, .num 4] (.ok (value [[1], [2, 3], [4]])) c := ⟨_, 40, rfl⟩
example : Blames [.num 1, .plus, .plus, .star, .num 3, .plus, .num 4] [.plus] := .operator [.num 1, .plus] .plus _ (.plus _ _ .nil) (by simp)
example : Blames [.num 1, .star, .num 2, .num 3, .num 4, .plus, .plus] [.num 2, .num 3, .num 4] :=
  .numbers [.num 1, .star] [2, 3, 4] [.plus, .plus] (.star _ _ .nil) (by simp) (by simp)
example : ∃ c, ParsesTo Tok.index pT [.num 1, .star, .num 2, .num 3, .num 4, .plus, .plus] (.error (.reducer [.num 2, .num 3, .num 4])) c := ⟨_, 40, rfl⟩

/-- An input that ends too early is blamed on its first token. -/
example : Blames [.num 1, .plus, .num 2, .star] [.num 1] := .nothing _ _ (.plus _ _ (.star _ _ .nil))
example : ∃ c, ParsesTo Tok.index pT [.num 1, .plus, .num 2, .star] (.error (.reducer [.num 1])) c := ⟨_, 40, rfl⟩

/-! The hypotheses of `c69_same` hold for the rules of this program. -/

theorem rules_not_cyclic : ¬ (gram rules 0).Cyclic := by
  rintro ⟨x, r, y, hr, _, h⟩
  simp only [gram, rules, List.map_cons, List.map_nil, List.mem_cons, List.not_mem_nil, or_false] at hr
  have hl := congrArg List.length h
  rcases hr with rfl | rfl | rfl | rfl | rfl | rfl <;> simp [Rule.plain, gram] at h hl <;> try omega
  all_goals
    have hx : x = [] := List.eq_nil_of_length_eq_zero (by omega)
    subst hx
    simp at h

theorem strict_makes : ∃ p, MakesParser idSeeds (strict rules) 0 p [] := by
  have h0 : (match newTables 40 idSeeds (gram (strict rules) 0) with | .ok (_, ws) => ws.isEmpty | _ => false) = true := by decide +kernel
  cases hn : newTables 40 idSeeds (gram (strict rules) 0) with
  | panic => rw [hn] at h0; cases h0
  | fuel => rw [hn] at h0; cases h0
  | ok r =>
    obtain ⟨tab, ws⟩ := r
    rw [hn] at h0
    have : ws = [] := by simpa using h0
    subst this
    exact ⟨⟨_, tab⟩, ⟨40, hn, by simp⟩, fun _ => .error [], rfl⟩

example (p' : Parser Nt Tok (List Tok)) (ws : List Warning) (hp' : MakesParser idSeeds (strict rules) 0 p' ws) (input : List Tok) :
    ∀ v, (∃ c, ParsesTo Tok.index pT input (.ok v) c) ↔ ∃ c, ParsesTo Tok.index p' input (.ok v) c :=
  (c69_same idSeeds idSeeds idSeeds_fair idSeeds_fair rules 0 (by decide) rules_not_cyclic rules_reports pT p' ws pT_makes hp' Tok.index input).2.2.1

end TestMain

end Verif.Par
