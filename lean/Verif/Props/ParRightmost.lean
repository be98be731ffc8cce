import Verif.Par.RecMain
import Verif.Props.ParMachine
import Verif.Props.ParSeeds

/-!
# Tables and rightmost derivations; termination of error recovery: C43, C44
-/

namespace Verif.Par

variable {N T E : Type}

/-! ## C43 -/

/-- C43: if every non-terminal in reach derives some string of terminals, the tables are given by the rightmost derivations
of the grammar.  They lead to a state exactly along the viable prefixes.  There, a terminal is shifted exactly if the prefix
stays viable; the input is accepted exactly behind the start symbol at the end; a rule is reduced exactly if it is the handle
of a rightmost derivation with this prefix and this next terminal, nothing can be shifted or accepted, and it is the
first such rule; the error rules are those with `error` next. -/
theorem c43_rightmost (o : Seeds) (ho : o.Fair) (g : Gram) (hg : g.Ok) (hfr : g.Fruitful) (tab : Tables) (ws : List Warning)
    (h : NewGives o g (.ok (tab, ws))) :
    (∀ γ, (∃ q, tab.walk γ = some q) ↔ g.ViablePrefix γ) ∧
    ∀ γ q, tab.walk γ = some q →
      (∀ a, (∃ q', tab.act q a = some (.shift q')) ↔ g.ViablePrefix (γ ++ [.tm a])) ∧
      (∀ a, tab.act q a = some .accept ↔ a = .eoi ∧ γ = [.nt g.start]) ∧
      (∀ a r, tab.act q a = some (.reduce r) ↔ g.HandleAt r γ a ∧ ¬ g.ViablePrefix (γ ++ [.tm a]) ∧ ¬ (a = .eoi ∧ γ = [.nt g.start]) ∧
        ∀ r', g.HandleAt r' γ a → r ≤ r') ∧
      ∀ r, r ∈ (get q tab.errors).getD [] ↔ g.ErrorAt r γ := by
  obtain ⟨fresh, hf, hc⟩ := c21_tables_canonical o ho g hg tab ws h
  refine ⟨fun γ => (hc.walk_iff γ).trans (Gram.viable_iff hfr hf), ?_⟩
  intro γ q hq
  have hacc : ∀ a, tab.act q a = some .accept ↔ a = .eoi ∧ γ = [.nt g.start] := fun a => c21_accept o ho g hg tab ws h γ q a hq
  refine ⟨?_, hacc, ?_, ?_⟩
  · intro a
    rw [← Gram.expects_iff hfr hf, ← hc.goes γ q _ hq]
    simp only [Tables.goes]
    constructor
    · rintro ⟨q', h⟩; exact ⟨q', by rw [h]⟩
    · rintro ⟨q', h⟩
      split at h
      · rename_i q'' h'; exact ⟨q'', h'⟩
      · cases h
  · intro a r
    have hacc' : (a = .eoi ∧ Accepts (g.aug fresh) g.rules.length γ) ↔ a = .eoi ∧ γ = [.nt g.start] := by
      rw [← hc.accept γ q a hq, hacc]
    rw [hc.reduce γ q a r hq, hacc', Gram.expects_iff hfr hf]
    constructor
    · rintro ⟨h1, h2, h3, h4, h5⟩
      exact ⟨(Gram.complete_iff hfr hf h1).1 h2, h3, h4, fun r' h' => h5 r' (Gram.handleAt_ne h') ((Gram.complete_iff hfr hf (Gram.handleAt_ne h')).2 h')⟩
    · rintro ⟨h1, h2, h3, h4⟩
      have hr := Gram.handleAt_ne h1
      exact ⟨hr, (Gram.complete_iff hfr hf hr).2 h1, h2, h3, fun r' h5 h6 => h4 r' ((Gram.complete_iff hfr hf h5).1 h6)⟩
  · intro r
    rw [hc.errors γ q r hq]
    exact Gram.errRule_iff hfr hf

/-- C43: there are no warnings exactly if the grammar is LR(1): a handle and the next terminal determine the rule, and the
terminal cannot be shifted as well. -/
theorem c43_lr1 (o : Seeds) (ho : o.Fair) (g : Gram) (hg : g.Ok) (hfr : g.Fruitful) (tab : Tables) (ws : List Warning)
    (h : NewGives o g (.ok (tab, ws))) :
    ws = [] ↔ ∀ γ a r, g.HandleAt r γ a → ¬ g.ViablePrefix (γ ++ [.tm a]) ∧ ∀ r', g.HandleAt r' γ a → r' = r := by
  obtain ⟨fresh, hf, hc, hw⟩ := c22_warnings_exact o ho g hg tab ws h
  constructor
  · rintro rfl γ a r hr
    have hrs := Gram.handleAt_ne hr
    obtain ⟨h1, h2⟩ := no_clash Gram.aug_start hw γ a r hrs ((Gram.complete_iff hfr hf hrs).2 hr)
    refine ⟨fun h => h1 ((Gram.expects_iff hfr hf).2 h), fun r' h' => ?_⟩
    have hrs' := Gram.handleAt_ne h'
    exact h2 r' hrs' ((Gram.complete_iff hfr hf hrs').2 h')
  · intro hl
    cases ws with
    | nil => rfl
    | cons w ws =>
      exfalso
      cases w with
      | shiftReduce S S' r =>
        obtain ⟨γ, a, _, _, h1, h2, h3⟩ := (hw.shiftReduce S S' r).1 List.mem_cons_self
        exact (hl γ a r ((Gram.complete_iff hfr hf h1).1 h2)).1 ((Gram.expects_iff hfr hf).1 h3)
      | reduceReduce S r r' =>
        obtain ⟨γ, a, _, h1, h2, h3, h4, h5, _⟩ := (hw.reduceReduce S r r').1 List.mem_cons_self
        have := (hl γ a r ((Gram.complete_iff hfr hf h1).1 h4)).2 r' ((Gram.complete_iff hfr hf h2).1 h5)
        omega

/-! ## C44 -/

/-- C44: error recovery ends.  Without warnings, if every non-terminal in reach derives some string of terminals and no error
rule can begin its `error` behind arbitrarily many `error`s, `parse` ends on every input (on the empty input possibly with a
panic). -/
theorem c44_recovery_terminates (o : Seeds) (ho : o.Fair) (rules : List (Rule N T E)) (start : Nat) (hok : (gram rules start).Ok)
    (hfr : (gram rules start).Fruitful)
    (hruns : ∀ γ r, ∃ k, ¬ (gram rules start).ErrorAt r (γ ++ List.replicate k (.tm .err)))
    (p : Parser N T E) (hm : MakesParser o rules start p []) (idx : T → Nat) (input : List T) :
    (∃ x c, ParsesTo idx p input x c) ∨ (input = [] ∧ ParsePanics idx p input) := by
  have hl : (gram rules start).rules.length = rules.length := by simp [gram]
  obtain ⟨⟨fuel, h1, _⟩, d, h2⟩ := hm
  have hs := (new_spec ho hok fuel).1 _ _ h1
  have hx : Ctx p rules start (freshSym (gram rules start).rules) := by
    refine ⟨hok, freshSym_unused _, ?_, ⟨_, h2⟩⟩
    rw [← hl]; exact hs.1
  have hc := hx.calm0 (by rw [← hl]; exact hs.2.1) hfr (by
    intro γ r
    obtain ⟨k, hk⟩ := hruns γ r
    exact ⟨k, fun h => hk ((Gram.errRule_iff hfr hx.unused).1 (by rw [hl]; exact h))⟩)
  obtain ⟨n, hn⟩ := parse_ends hx (mach_ends hc) (Cfg.init p input) (MachSim.init (idx := idx) (input := input))
  cases hr : run idx p n (Cfg.init p input) with
  | more c => exact absurd hr (hn c)
  | done x c => exact .inl ⟨x, c, n, hr⟩
  | panic =>
    right
    refine ⟨?_, n, hr⟩
    apply Classical.byContradiction
    intro hne
    exact c29_no_panic o ho rules start hok p [] ⟨⟨fuel, h1, by simp⟩, d, h2⟩ idx input (Or.inl hne) ⟨n, hr⟩

/-- No error rule can begin behind an `error`, if nothing that follows an `error` in a rule can begin with `error`. -/
theorem Gram.ErrorsApart.runs {g : Gram} (h : g.ErrorsApart) (hfr : g.Fruitful) (γ : List Sym) (r : Nat) : ¬ g.ErrorAt r (γ ++ [.tm .err]) := by
  intro he
  have hf := freshSym_unused g
  have hne := hfr.fresh_ne hf
  obtain ⟨i, rule, h1, rfl, h2, h3⟩ := (Gram.errRule_iff hfr hf).2 he
  obtain ⟨r', k1, α, β, ρ, k2, k3⟩ := h1.behind γ (.tm .err) rule (.tm .err) rfl h2 h3
  rcases List.mem_append.1 k1 with k1 | k1
  · refine h r' k1 α β k2 ρ (gen_iff.1 (Gen.drop_rule (r0 := ⟨freshSym g.rules, [.nt g.start]⟩) ?_ k3 ?_ (by simpa using hne)))
    · intro r hr hm; exact hf ⟨r, hr, Or.inr hm⟩
    · intro hm
      exact hf ⟨r', k1, Or.inr (by rw [k2]; simp [hm])⟩
  · simp at k1
    subst k1
    cases α with
    | nil => cases k2
    | cons Z α =>
      cases α with
      | nil => cases k2
      | cons Z' α => cases k2

/-- C44 with a condition that can be read off the grammar. -/
theorem c44_errors_apart (o : Seeds) (ho : o.Fair) (rules : List (Rule N T E)) (start : Nat) (hok : (gram rules start).Ok)
    (hfr : (gram rules start).Fruitful) (ha : (gram rules start).ErrorsApart)
    (p : Parser N T E) (hm : MakesParser o rules start p []) (idx : T → Nat) (input : List T) :
    (∃ x c, ParsesTo idx p input x c) ∨ (input = [] ∧ ParsePanics idx p input) :=
  c44_recovery_terminates o ho rules start hok hfr (fun γ r => ⟨1, ha.runs hfr γ r⟩) p hm idx input

/-! ## Examples -/

/-- The non-terminals of `gList` derive `error ;`. -/
theorem gList_fruitful : gList.Fruitful := by
  have h1 : Gen gList.rules [.nt 1] (tms [.err, .sym 1]) := Gen.rule (r := ⟨1, [.tm .err, .tm (.sym 1)]⟩) (by simp [gList])
  have h0 : Gen gList.rules [.nt 0] (tms [.err, .sym 1]) := (Gen.rule (r := ⟨0, [.nt 1]⟩) (by simp [gList])).trans h1
  intro x n y h
  refine ⟨[.err, .sym 1], gen_iff.1 ?_⟩
  have := h.mem (.nt n) (by simp)
  simp [gList] at this
  have : n = 0 ∨ n = 1 := by omega
  rcases this with rfl | rfl
  · exact h0
  · exact h1

theorem gList_apart : gList.ErrorsApart := by
  intro r hr α β hαβ ρ hd
  have hβ : β = [.tm (.sym 1)] := by
    simp only [gList, List.mem_cons, List.not_mem_nil, or_false] at hr
    rcases hr with rfl | rfl | rfl | rfl <;> rcases α with _ | ⟨Z, _ | ⟨Z', α⟩⟩ <;> simp at hαβ
    exact hαβ.symm
  subst hβ
  obtain ⟨v, h1, _⟩ := (gen_iff.2 hd).terminal
  cases h1

/-- In `gList`, `L I ⇒ L error ;` is the last step of a rightmost derivation, so `L error ;` is reduced at the end of input
and in front of `a`, but not in front of `;`. -/
theorem gList_handle : gList.HandleAt 3 [.nt 0, .tm .err, .tm (.sym 1)] .eoi ∧ gList.HandleAt 3 [.nt 0, .tm .err, .tm (.sym 1)] (.sym 0) ∧
    gList.ViablePrefix [.nt 0, .tm .err] ∧ gList.ErrorAt 3 [.nt 0] := by
  have h1 : Rm gList.rules [.nt 0] 1 [.nt 0, .nt 1] := .step 0 [] ⟨0, [.nt 0, .nt 1]⟩ [] .zero (by simp [gList])
  have h2 : Rm gList.rules [.nt 0] 2 [.nt 0, .tm (.sym 0), .tm (.sym 1)] := .step 1 [.nt 0] ⟨1, [.tm (.sym 0), .tm (.sym 1)]⟩ [] h1 (by simp [gList])
  have h3 : Rm gList.rules [.nt 0] 3 [.nt 0, .nt 1, .tm (.sym 0), .tm (.sym 1)] :=
    .step 2 [] ⟨0, [.nt 0, .nt 1]⟩ [.sym 0, .sym 1] h2 (by simp [gList])
  have k1 : gList.Handle 3 [.nt 0] [] := ⟨_, 1, rfl, h1⟩
  have k2 : gList.Handle 3 [.nt 0] [.sym 0, .sym 1] := ⟨_, 3, rfl, h3⟩
  exact ⟨⟨_, _, _, rfl, k1, rfl, rfl⟩, ⟨_, _, _, rfl, k2, rfl, rfl⟩, .inr ⟨3, _, _, _, rfl, k1, [.tm (.sym 1)], rfl⟩,
    ⟨_, _, _, [], _, rfl, k1, rfl, rfl⟩⟩

example : ¬ gList.HandleAt 3 [.nt 0, .tm .err, .tm (.sym 1)] (.sym 1) := by
  intro h
  obtain ⟨hw, hg⟩ := c43_rightmost idSeeds idSeeds_fair gList (by decide) gList_fruitful pList.tab [] pList_makes.1
  have hl := (c43_lr1 idSeeds idSeeds_fair gList (by decide) gList_fruitful pList.tab [] pList_makes.1).1 rfl
  have := (hg [.nt 0, .tm .err, .tm (.sym 1)] 7 (by decide)).2.2.1 (.sym 1) 3
  rw [show pList.tab.act 7 (.sym 1) = none by decide] at this
  exact absurd (this.2 ⟨h, (hl _ _ _ h).1, by simp, fun r' h' => by rw [(hl _ _ _ h).2 r' h']; exact Nat.le_refl _⟩) (by simp)

/-- `parse` ends for `gList` on every input; it has runs with error recovery (`c42_two_errors`). -/
example (input : List Nat) : (∃ x c, ParsesTo id pList input x c) ∨ (input = [] ∧ ParsePanics id pList input) :=
  c44_errors_apart idSeeds idSeeds_fair (plainRules gList) 0 (by decide) gList_fruitful gList_apart pList pList_makes id input

/-- The condition is needed: in the grammar of `c35_recovery_diverges`, the error rule can begin behind any number of errors. -/
example (k : Nat) : gSpin.ErrorAt 0 (List.replicate k (.tm .err)) := by
  refine ⟨⟨0, [.tm .err, .nt 0]⟩, List.replicate k (.tm .err), [], [], [.nt 0], rfl, ⟨⟨0, [.tm .err, .nt 0]⟩, k, rfl, ?_⟩, rfl, by simp⟩
  induction k with
  | zero => exact .zero
  | succ k ih =>
    have := Rm.step k _ ⟨0, [.tm .err, .nt 0]⟩ [] ih (by simp [gSpin])
    rw [List.replicate_succ']
    simpa using this

end Verif.Par
