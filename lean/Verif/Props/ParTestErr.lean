import Verif.Par.TestErr
import Verif.Props.ParRightmost
import Verif.Props.ParPart
import Verif.Props.ParContract
import Verif.Props.ParSeeds

/-!
# C98: the parser of the unit test `parse_error` (`parser/src/iter.rs:230-321`) for every input
-/

namespace Verif.TestErr

open Verif.Par Verif.Replay.Par

/-- The tables of the parser, for one iteration order. -/
def tables : Tables :=
  match newTables 100 idSeeds (gram errRules 0) with
  | .ok (t, _) => t
  | _ => { action := [], goto := [], errors := [], start := 0 }

/-- The parser, for one iteration order. -/
def parser : Parser Nn Tm Unit := ⟨errRules ++ [⟨freshSym (gram errRules 0).rules, [.nt 0], fun _ => .error ()⟩], tables⟩

theorem made : MakesParser idSeeds errRules 0 parser [] := ⟨⟨100, by decide +kernel, by simp⟩, _, rfl⟩

/-- The result of a parse, if it ends within so many steps. -/
def outcome (n : Nat) (input : List Tm) : Option (Except (PErr Unit) Nn) :=
  match run Tm.index parser n (Cfg.init parser input) with
  | .done x _ => some x
  | _ => none

theorem outcome_parses {n : Nat} {input : List Tm} {x : Except (PErr Unit) Nn} (h : outcome n input = some x) :
    ∃ c, ParsesTo Tm.index parser input x c := by
  unfold outcome at h
  split at h
  · cases h
    rename_i c hr
    exact ⟨c, n, hr⟩
  · cases h

theorem empty_ends : ¬ ParsePanics Tm.index parser [] := by
  rintro ⟨m, hm⟩
  obtain ⟨x, hx⟩ : ∃ x, outcome 20 [] = some x := Option.isSome_iff_exists.1 (by decide +kernel)
  obtain ⟨c, n, hn⟩ := outcome_parses hx
  have h1 : run Tm.index parser (n + m) (Cfg.init parser []) = .done x c := by rw [run_add, hn]
  have h2 : run Tm.index parser (m + n) (Cfg.init parser []) = .panic := by rw [run_add, hm]
  rw [Nat.add_comm, h2] at h1
  cases h1

/-- C98: for all hash seeds the parser is built, without warnings. -/
theorem c98_builds (o : Seeds) (ho : o.Fair) : (∃ p ws, MakesParser o errRules 0 p ws) ∧
    ∀ (p : Parser Nn Tm Unit) ws, MakesParser o errRules 0 p ws → ws = [] := by
  refine ⟨?_, fun p ws hp => c72_fewer_rules idSeeds o idSeeds_fair ho _ _ gErr_ok ⟨_, .refl _, List.Sublist.refl _⟩ rfl parser.tab p.tab ws made.1 hp.1⟩
  obtain ⟨r, ⟨fuel, h1, h2⟩, _⟩ := c20_new_terminates o ho _ gErr_ok
  cases r with
  | fuel => exact absurd rfl h2
  | panic => exact absurd ((new_spec ho gErr_ok fuel).2.1 h1) (gErr_fruitful.not_bad (freshSym_unused _))
  | ok x => exact ⟨⟨errRules ++ [⟨freshSym (gram errRules 0).rules, [.nt 0], fun _ => .error ()⟩], x.1⟩, x.2, ⟨fuel, h1, h2⟩, _, rfl⟩

/-- The `unreachable!()` of the callbacks are not reached. -/
theorem no_failure (o : Seeds) (ho : o.Fair) (p : Parser Nn Tm Unit) (ws : List Warning) (hm : MakesParser o errRules 0 p ws)
    (input : List Tm) (e : Unit) (c : Cfg Nn Tm) : ¬ ParsesTo Tm.index p input (.error (.reducer e)) c := by
  intro h
  obtain ⟨r, args, rest, rule, h1, h2, h3, _⟩ := (c30_first_failure o ho errRules 0 gErr_ok p ws hm Tm.index input _ c h).1 e rfl
  obtain ⟨n, hn⟩ := h
  obtain ⟨rule', h4, h5⟩ := (c48_contract o ho errRules 0 gErr_ok p ws hm Tm.index Variant keeps input).1 n c (Or.inr ⟨_, hn⟩)
    r args (by
      have : (r, args) ∈ c.log.reverse := by rw [h1]; simp
      simpa using this)
  rw [h2] at h4
  cases h4
  obtain ⟨v, h6, _⟩ := gen_fit rule (List.mem_of_getElem? h2) args h5
  rw [h6] at h3
  cases h3

/-- C98: every parse ends; no callback runs into `unreachable!()`.  What is written for a value without error nodes gives this
value.  Anything else gives a value with an error node, or `RecoveryRuleNotFound`. -/
theorem c98_every_input (o : Seeds) (ho : o.Fair) (p : Parser Nn Tm Unit) (ws : List Warning) (hm : MakesParser o errRules 0 p ws)
    (input : List Tm) :
    (∃ v c, Whole 0 v ∧ text v = input ∧ ParsesTo Tm.index p input (.ok v) c) ∨
    (¬ ∃ v, Whole 0 v ∧ text v = input) ∧
      ((∃ v c, marked v = true ∧ ParsesTo Tm.index p input (.ok v) c) ∨ ∃ c, ParsesTo Tm.index p input (.error .noRecovery) c) := by
  obtain rfl := (c98_builds o ho).2 p ws hm
  have hwf : ∀ v, Whole 0 v → text v = input → ∃ c, ParsesTo Tm.index p input (.ok v) c := by
    intro v hv ht
    obtain ⟨f, lg, h1, h2, h3, h4⟩ := whole_grown (input := input) hv [] [] (by simp [ht])
    have htree : IsTree (errRules.map Rule.plain) 0 Tm.index input f := ⟨h1, h2, by rw [h3, ht]; rfl⟩
    obtain ⟨c, hc, _⟩ := ((c30_evaluation o ho errRules 0 gErr_ok p hm gErr_notCyclic Tm.index input f htree lg).1 _).1 h4
    exact ⟨c, hc⟩
  by_cases hex : ∃ v, Whole 0 v ∧ text v = input
  · obtain ⟨v, h1, h2⟩ := hex
    obtain ⟨c, hc⟩ := hwf v h1 h2
    exact .inl ⟨v, c, h1, h2, hc⟩
  · refine .inr ⟨hex, ?_⟩
    have hend : ∃ x c, ParsesTo Tm.index p input x c := by
      rcases c44_errors_apart o ho errRules 0 gErr_ok gErr_fruitful gErr_apart p hm Tm.index input with h | ⟨rfl, h⟩
      · exact h
      · exfalso
        exact empty_ends ((c32_same_outcome o idSeeds ho idSeeds_fair errRules 0 gErr_ok p parser [] [] hm made Tm.index []).2.1.1 h)
    obtain ⟨x, c, hx⟩ := hend
    cases x with
    | error x =>
      cases x with
      | noRecovery => exact .inr ⟨c, hx⟩
      | reducer e => exact absurd hx (no_failure o ho p [] hm input e c)
    | ok v =>
      refine .inl ⟨v, c, ?_, hx⟩
      obtain ⟨f, calls, h1, h2, _, _, h5⟩ := c23_sound o ho errRules 0 gErr_ok p [] hm Tm.index input v c hx
      by_cases he : errs [f] = []
      · exfalso
        have hs := evals_spans computes h2 rfl h1 he
        rw [(h5 he).1] at hs
        simp only [List.zipIdx_map_fst] at hs
        obtain ⟨v', u, as, w', e1, e2, ⟨hw, ht⟩, hs'⟩ := spans_nt hs
        obtain ⟨rfl, rfl⟩ := spans_nil hs'
        exact hex ⟨v', hw, by rw [ht, e2]; simp⟩
      · obtain ⟨a, ha, hn⟩ := evals_notes h2 rfl h1 he
        rw [List.mem_singleton.1 ha] at hn
        rcases hn with ⟨l, hl⟩ | ⟨v', hv, hm⟩
        · cases hl
        · cases hv
          exact hm

/-- C98: what is written for a value without error nodes is written for no other. -/
theorem c98_unique (v v' : Nn) (hv : Whole 0 v) (hv' : Whole 0 v') (h : text v = text v') : v = v' := by
  have key : ∀ u, Whole 0 u → ∃ c, ParsesTo Tm.index parser (text u) (.ok u) c := by
    intro u hu
    obtain ⟨f, lg, h1, h2, h3, h4⟩ := whole_grown (input := text u) hu [] [] (by simp)
    obtain ⟨c, hc, _⟩ := ((c30_evaluation idSeeds idSeeds_fair errRules 0 gErr_ok parser made gErr_notCyclic Tm.index _ f ⟨h1, h2, by rw [h3]; rfl⟩ lg).1 _).1 h4
    exact ⟨c, hc⟩
  obtain ⟨c, hc⟩ := key v hv
  obtain ⟨c', hc'⟩ := key v' hv'
  rw [← h] at hc'
  simpa using (hc.unique hc').1

/-- C98: a value without error nodes is returned only for what is written for it. -/
theorem c98_back (o : Seeds) (ho : o.Fair) (p : Parser Nn Tm Unit) (ws : List Warning) (hm : MakesParser o errRules 0 p ws)
    (input : List Tm) (v : Nn) (c : Cfg Nn Tm) (h : ParsesTo Tm.index p input (.ok v) c) (hv : marked v = false) : Whole 0 v ∧ text v = input := by
  rcases c98_every_input o ho p ws hm input with ⟨v', c', h1, h2, h3⟩ | ⟨_, ⟨v', c', h1, h2⟩ | ⟨c', h1⟩⟩
  · have := (h.unique h3).1
    simp only [Except.ok.injEq] at this
    exact this ▸ ⟨h1, h2⟩
  · have := (h.unique h2).1
    simp only [Except.ok.injEq] at this
    rw [← this, hv] at h1
    cases h1
  · exact absurd (h.unique h1).1 (by simp)

/-- C98: without any `+` or `)` there is no recovery: what is not written for a value gives `RecoveryRuleNotFound`. -/
theorem c98_gives_up (o : Seeds) (ho : o.Fair) (p : Parser Nn Tm Unit) (ws : List Warning) (hm : MakesParser o errRules 0 p ws)
    (input : List Tm) (hp : .plus ∉ input) (hb : .closeBracket ∉ input) (hn : ¬ ∃ v, Whole 0 v ∧ text v = input) :
    ∃ c, ParsesTo Tm.index p input (.error .noRecovery) c := by
  rcases c98_every_input o ho p ws hm input with ⟨v, _, h1, h2, _⟩ | ⟨_, ⟨v, c, h1, h2⟩ | h⟩
  · exact absurd ⟨v, h1, h2⟩ hn
  · exfalso
    obtain ⟨f, calls, k1, k2, _, _, k5⟩ := c23_sound o ho errRules 0 gErr_ok p ws hm Tm.index input v c h2
    by_cases he : errs [f] = []
    · have hs := evals_spans computes k2 rfl k1 he
      rw [(k5 he).1] at hs
      simp only [List.zipIdx_map_fst] at hs
      obtain ⟨v', u, as, w', e1, e2, ⟨hw, ht⟩, hs'⟩ := spans_nt hs
      obtain ⟨rfl, rfl⟩ := spans_nil hs'
      exact hn ⟨v', hw, by rw [ht, e2]; simp⟩
    · rcases built_after k1 he with h | ⟨x, h3, h4⟩
      · simp at h
      · have := built_mem k1 x h3
        rcases h4 with h4 | h4
        · exact hp (index_token.1 h4 ▸ this)
        · exact hb (index_token.2.2.2 h4 ▸ this)
  · exact h

/-! ## Examples: the inputs of the test -/

/-- `1 + 2 * (3 + 4)` is written for a value without error nodes. -/
example : ∃ v, Whole 0 v ∧ text v = [.i 1, .plus, .i 2, .star, .bracket, .i 3, .plus, .i 4, .closeBracket] := by
  refine ⟨.add [.prod [.number 1], .prod [.number 2, .inner (.add [.prod [.number 3], .prod [.number 4]])]], ?_, rfl⟩
  refine .add _ (by simp) ?_
  simp only [List.mem_cons, List.not_mem_nil, or_false]
  rintro x (rfl | rfl)
  · exact .prod _ (by simp) (by simpa using .number 1)
  · refine .prod _ (by simp) ?_
    simp only [List.mem_cons, List.not_mem_nil, or_false]
    rintro x (rfl | rfl)
    · exact .number 2
    · refine .inner _ (.add _ (by simp) ?_)
      simp only [List.mem_cons, List.not_mem_nil, or_false]
      rintro x (rfl | rfl)
      · exact .prod _ (by simp) (by simpa using .number 3)
      · exact .prod _ (by simp) (by simpa using .number 4)

/-- `1 + 2 * (3 4)` has an error node; nothing can be done about `1 + 2 * (3`. -/
example : (∃ v c, marked v = true ∧ ParsesTo Tm.index parser [.i 1, .plus, .i 2, .star, .bracket, .i 3, .i 4, .closeBracket] (.ok v) c) ∧
    ∃ c, ParsesTo Tm.index parser [.i 1, .plus, .i 2, .star, .bracket, .i 3] (.error .noRecovery) c := by
  refine ⟨?_, ?_⟩
  · obtain ⟨c, hc⟩ := outcome_parses (n := 60) (input := [.i 1, .plus, .i 2, .star, .bracket, .i 3, .i 4, .closeBracket])
      (x := .ok (.add [.prod [.number 1], .prod [.number 2, .bad [.i 3, .i 4]]])) (by rfl)
    exact ⟨_, c, rfl, hc⟩
  · exact outcome_parses (n := 60) (by rfl)

/-- With an error at the end of the input, and neither `+` nor `)`: `1 * `. -/
example : ¬ ∃ v, Whole 0 v ∧ text v = [.i 1, .star] := by
  rintro ⟨v, h1, h2⟩
  obtain ⟨c, hc⟩ := outcome_parses (n := 60) (input := [.i 1, .star]) (x := .error .noRecovery) (by rfl)
  rcases c98_every_input idSeeds idSeeds_fair parser [] made [.i 1, .star] with ⟨v, c', _, _, h⟩ | ⟨h, _⟩
  · exact absurd (h.unique hc).1 (by simp)
  · exact h ⟨v, h1, h2⟩

end Verif.TestErr
