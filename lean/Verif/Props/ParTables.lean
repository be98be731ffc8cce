import Verif.Par.FuelProof
import Verif.Par.TreeProof
import Verif.Par.WarnProof
import Verif.Par.WarnTimes

/-!
# Properties of `LR1Parser::new`: C20, C21, C22
-/

namespace Verif.Par

/-- Iteration in the order of the list (for the examples). -/
def idSeeds : Seeds := ⟨fun _ l => l, id, id⟩

theorem idSeeds_fair : idSeeds.Fair := ⟨fun _ _ => .refl _, fun _ => .refl _, fun _ => .refl _⟩

/-- `S → a S | b` -/
def gRight : Gram := ⟨[⟨0, [.tm (.sym 0), .nt 0]⟩, ⟨0, [.tm (.sym 1)]⟩], 0⟩

/-- `E → E + E | n`: a shift-reduce conflict -/
def gConf : Gram := ⟨[⟨0, [.nt 0, .tm (.sym 0), .nt 0]⟩, ⟨0, [.tm (.sym 1)]⟩], 0⟩

/-- `S → A | B; A → a; B → a`: a reduce-reduce conflict -/
def gRR : Gram := ⟨[⟨0, [.nt 1]⟩, ⟨0, [.nt 2]⟩, ⟨1, [.tm (.sym 0)]⟩, ⟨2, [.tm (.sym 0)]⟩], 0⟩

/-- `S → S | a`: ambiguous -/
def gLoop : Gram := ⟨[⟨0, [.nt 0]⟩, ⟨0, [.tm (.sym 0)]⟩], 0⟩

/-- `S → a U`, and `U` has no rule -/
def gOpen : Gram := ⟨[⟨0, [.tm (.sym 0), .nt 1]⟩], 0⟩

/-- The number of the appended start symbol is not in use. -/
theorem freshSym_unused (g : Gram) : ¬ g.Used (freshSym g.rules) := by
  rintro ⟨r, hr, h⟩
  have := freshSym_spec g.rules r hr
  rcases h with h | h
  · exact this.1 h
  · exact this.2 h

/-! ## C20 -/

/-- C20: `new` terminates for every grammar and every iteration order of the hash maps: from some number of loop rounds on
the outcome is always the same. -/
theorem c20_new_terminates (o : Seeds) (ho : o.Fair) (g : Gram) (hg : g.Ok) :
    ∃ r, NewGives o g r ∧ (∀ r', NewGives o g r' → r' = r) ∧ ∃ n, ∀ fuel, n ≤ fuel → newTables fuel o g = r := by
  have h := (new_spec ho hg (enough g.rules')).2.2 (Nat.le_refl _)
  have hg : NewGives o g (newTables (enough g.rules') o g) := ⟨_, rfl, h⟩
  exact ⟨_, hg, fun r' h' => newGives_unique h' hg, enough g.rules', fun fuel hf => newTables_mono hf h⟩

/-- C20: `new` does not panic if all non-terminals in use have rules. -/
theorem c20_new_no_panic (o : Seeds) (ho : o.Fair) (g : Gram) (hg : g.Ok) (hc : g.Closed) :
    ∃ T ws, NewGives o g (.ok (T, ws)) := by
  obtain ⟨r, h, _⟩ := c20_new_terminates o ho g hg
  obtain ⟨fuel, h1, h2⟩ := h
  cases r with
  | fuel => exact absurd rfl h2
  | ok x => exact ⟨x.1, x.2, fuel, h1, h2⟩
  | panic =>
    obtain ⟨γ, i, hv, hst⟩ := (new_spec ho hg fuel).2.1 h1
    obtain ⟨r, hr, _⟩ := hv.rule (rules'_start g)
    rcases hst with hst | ⟨r', B, b, ρ, k1, k2, k3, k4⟩
    · rw [hr] at hst; cases hst
    · exfalso
      have hin : ∀ n, (∃ r ∈ g.rules, r.lhs = n) → ∃ r ∈ g.rules', r.lhs = n := by
        rintro n ⟨r, hr, h⟩
        exact ⟨r, List.mem_append.2 (Or.inl hr), h⟩
      have : ∃ r ∈ g.rules', r.lhs = B := by
        rcases List.mem_append.1 (List.mem_of_getElem? k1) with hm | hm
        · exact hin B (hc.2 r' hm B (List.mem_of_getElem? k2))
        · simp at hm
          subst hm
          have := List.mem_of_getElem? k2
          simp at this
          subst this
          exact hin _ hc.1
      obtain ⟨r'', h3, h4⟩ := this
      exact k3 r'' h3 h4

/-- C20: `new` panics exactly if some non-terminal without rules can be reached before something that starts with a
terminal (or ends the input). -/
theorem c20_new_panics_iff (o : Seeds) (ho : o.Fair) (g : Gram) (hg : g.Ok) :
    ∃ fresh, ¬ g.Used fresh ∧ (NewGives o g .panic ↔
      ∃ γ i r B b ρ, Valid (g.aug fresh) g.rules.length γ i ∧ (g.aug fresh)[i.rule]? = some r ∧ r.rhs[i.pos]? = some (.nt B) ∧
        (∀ r' ∈ g.aug fresh, r'.lhs ≠ B) ∧ Derives (g.aug fresh) (r.rhs.drop (i.pos + 1) ++ [.tm i.la]) (.tm b :: ρ)) := by
  refine ⟨freshSym g.rules, freshSym_unused g, ?_⟩
  constructor
  · rintro ⟨fuel, h1, _⟩
    obtain ⟨γ, i, hv, hst⟩ := (new_spec ho hg fuel).2.1 h1
    obtain ⟨r, hr, _⟩ := hv.rule (rules'_start g)
    rcases hst with hst | ⟨r', B, b, ρ, k1, k2, k3, k4⟩
    · rw [hr] at hst; cases hst
    · exact ⟨γ, i, r', B, b, ρ, hv, k1, k2, k3, gen_iff.1 k4⟩
  · rintro ⟨γ, i, r, B, b, ρ, hv, k1, k2, k3, k4⟩
    obtain ⟨x, ⟨fuel, h1, h2⟩, _⟩ := c20_new_terminates o ho g hg
    cases x with
    | fuel => exact absurd rfl h2
    | panic => exact ⟨fuel, h1, h2⟩
    | ok x =>
      exact absurd ⟨γ, i, hv, Or.inr ⟨r, B, b, ρ, k1, k2, k3, gen_iff.2 k4⟩⟩ ((new_spec ho hg fuel).1 x.1 x.2 h1).2.2

example : gRight.Ok ∧ gRight.Closed := by
  refine ⟨by decide, ⟨_, List.mem_cons_self, rfl⟩, ?_⟩
  intro r hr n hn
  refine ⟨⟨0, [.tm (.sym 1)]⟩, by simp [gRight], ?_⟩
  simp only [gRight, List.mem_cons, List.not_mem_nil, or_false] at hr
  rcases hr with rfl | rfl
  · simp at hn; exact hn.symm
  · simp at hn

/-- The panic is real. -/
example : NewGives idSeeds gOpen .panic := ⟨10, by decide, by simp⟩

/-! ## C21 -/

/-- C21: the tables are the canonical LR(1) tables (see `Canonical`) whatever the iteration orders of the hash maps. -/
theorem c21_tables_canonical (o : Seeds) (ho : o.Fair) (g : Gram) (hg : g.Ok) (T : Tables) (ws : List Warning)
    (h : NewGives o g (.ok (T, ws))) : ∃ fresh, ¬ g.Used fresh ∧ Canonical (g.aug fresh) g.rules.length T := by
  obtain ⟨fuel, h1, _⟩ := h
  exact ⟨_, freshSym_unused g, ((new_spec ho hg fuel).1 T ws h1).1⟩

/-- C21: a state accepts exactly if it is the state after the start symbol, at the end of input. -/
theorem c21_accept (o : Seeds) (ho : o.Fair) (g : Gram) (hg : g.Ok) (T : Tables) (ws : List Warning)
    (h : NewGives o g (.ok (T, ws))) (γ : List Sym) (q : Nat) (a : Term) (hw : T.walk γ = some q) :
    T.act q a = some .accept ↔ a = .eoi ∧ γ = [.nt g.start] := by
  obtain ⟨fresh, hf, hc⟩ := c21_tables_canonical o ho g hg T ws h
  rw [hc.accept γ q a hw]
  apply and_congr Iff.rfl
  constructor
  · rintro ⟨b, rule, h1, h2⟩
    simp [Gram.aug] at h1
    subst h1
    rcases (start_items hf h2 rfl).2 with ⟨h3, _⟩ | ⟨_, h3⟩
    · simp at h3
    · exact h3
  · rintro rfl
    refine ⟨.eoi, ⟨fresh, [.nt g.start]⟩, by simp [Gram.aug], ?_⟩
    exact Valid.advance [] ⟨g.rules.length, 0, .eoi⟩ ⟨fresh, [.nt g.start]⟩ _ .start (by simp [Gram.aug]) rfl

/-- The tables of `S → a S | b`. -/
def tRight : Tables :=
  { action := [(0, [(.sym 0, .shift 1), (.sym 1, .shift 2)]), (1, [(.sym 0, .shift 1), (.sym 1, .shift 2)]),
      (2, [(.eoi, .reduce 1)]), (3, [(.eoi, .accept)]), (4, [(.eoi, .reduce 0)])]
    goto := [(0, [(0, 3)]), (1, [(0, 4)])]
    errors := []
    start := 0 }

theorem gRight_new : NewGives idSeeds gRight (.ok (tRight, [])) := ⟨10, by decide, by simp⟩

example : tRight.walk [.tm (.sym 0), .tm (.sym 0), .nt 0] = some 4 := by decide
example : tRight.act 4 .eoi = some (.reduce 0) := by decide
example : tRight.walk [.tm (.sym 1), .tm (.sym 1)] = none := by decide

/-! ## C22 -/

/-- C22: the warnings list exactly the reductions that lost against a shift or against an earlier rule. -/
theorem c22_warnings_exact (o : Seeds) (ho : o.Fair) (g : Gram) (hg : g.Ok) (T : Tables) (ws : List Warning)
    (h : NewGives o g (.ok (T, ws))) :
    ∃ fresh, ¬ g.Used fresh ∧ Canonical (g.aug fresh) g.rules.length T ∧ WarnExact (g.aug fresh) g.rules.length ws := by
  obtain ⟨fuel, h1, _⟩ := h
  have := (new_spec ho hg fuel).1 T ws h1
  exact ⟨_, freshSym_unused g, this.1, this.2.1⟩

/-- C22: a shift wins; otherwise the earliest complete rule wins (unless the state accepts); every other complete rule is
named by a warning for that state. -/
theorem c22_resolution (o : Seeds) (ho : o.Fair) (g : Gram) (hg : g.Ok) (T : Tables) (ws : List Warning)
    (h : NewGives o g (.ok (T, ws))) : ∃ fresh, ¬ g.Used fresh ∧
      ∀ γ q a r, T.walk γ = some q → r ≠ g.rules.length → Complete (g.aug fresh) g.rules.length γ r a →
        ¬ (a = .eoi ∧ Accepts (g.aug fresh) g.rules.length γ) →
        T.act q a = some (.reduce r) ∨
        (∃ q' S S', T.act q a = some (.shift q') ∧ T.walk (γ ++ [.tm a]) = some q' ∧ ItemsOf (g.aug fresh) g.rules.length γ S ∧
          ItemsOf (g.aug fresh) g.rules.length (γ ++ [.tm a]) S' ∧ .shiftReduce S S' r ∈ ws) ∨
        (∃ r' S, r' < r ∧ T.act q a = some (.reduce r') ∧ ItemsOf (g.aug fresh) g.rules.length γ S ∧ .reduceReduce S r' r ∈ ws) := by
  obtain ⟨fresh, hf, hc, hw⟩ := c22_warnings_exact o ho g hg T ws h
  refine ⟨fresh, hf, ?_⟩
  have hs : (g.aug fresh)[g.rules.length]? = some ⟨fresh, [.nt g.start]⟩ := by simp [Gram.aug]
  intro γ q a r hq hr hcomp hna
  obtain ⟨S, hS⟩ := itemsOf_exists hs γ
  by_cases he : Expects (g.aug fresh) g.rules.length γ (.tm a)
  · right; left
    obtain ⟨q', hq'⟩ := (hc.goes γ q (.tm a) hq).2 he
    obtain ⟨S', hS'⟩ := itemsOf_exists hs (γ ++ [.tm a])
    refine ⟨q', S, S', ?_, ?_, hS, hS', (hw.shiftReduce S S' r).2 ⟨γ, a, hS, hS', hr, hcomp, he⟩⟩
    · show T.act q a = some (.shift q')
      simp only [Tables.goes] at hq'
      split at hq'
      · rename_i h'
        rw [h', Option.some.inj hq']
      · simp at hq'
    · rw [walk_snoc, hq]; exact hq'
  · -- the least complete rule
    have hleast : ∀ n, (∃ r', r' ≠ g.rules.length ∧ Complete (g.aug fresh) g.rules.length γ r' a ∧ r' ≤ n) →
        ∃ r', r' ≠ g.rules.length ∧ Complete (g.aug fresh) g.rules.length γ r' a ∧ r' ≤ n ∧
          ∀ r'', r'' ≠ g.rules.length → Complete (g.aug fresh) g.rules.length γ r'' a → r' ≤ r'' := by
      intro n
      induction n with
      | zero =>
        rintro ⟨r', h1, h2, h3⟩
        exact ⟨r', h1, h2, h3, fun r'' _ _ => by omega⟩
      | succ n ih =>
        rintro ⟨r', h1, h2, h3⟩
        by_cases hsm : ∃ r'', r'' ≠ g.rules.length ∧ Complete (g.aug fresh) g.rules.length γ r'' a ∧ r'' ≤ n
        · obtain ⟨r'', k1, k2, k3, k4⟩ := ih hsm
          exact ⟨r'', k1, k2, by omega, k4⟩
        · refine ⟨r', h1, h2, h3, ?_⟩
          intro r'' k1 k2
          by_cases hle : r'' ≤ n
          · exact absurd ⟨r'', k1, k2, hle⟩ hsm
          · omega
    obtain ⟨r', h1, h2, h3, h4⟩ := hleast r ⟨r, hr, hcomp, Nat.le_refl _⟩
    have hact := (hc.reduce γ q a r' hq).2 ⟨h1, h2, he, hna, h4⟩
    by_cases hrr : r' = r
    · left; rw [← hrr]; exact hact
    · right; right
      exact ⟨r', S, by omega, hact, hS, (hw.reduceReduce S r' r).2 ⟨γ, a, hS, h1, hr, by omega, h2, hcomp, he, h4⟩⟩

/-- C22, no warnings: every valid reduction is done, except where the state accepts. -/
theorem c22_no_warnings (o : Seeds) (ho : o.Fair) (g : Gram) (hg : g.Ok) (T : Tables)
    (h : NewGives o g (.ok (T, []))) : ∃ fresh, ¬ g.Used fresh ∧ Canonical (g.aug fresh) g.rules.length T ∧
      ∀ γ q a r, T.walk γ = some q → r ≠ g.rules.length → Complete (g.aug fresh) g.rules.length γ r a →
        T.act q a = some (.reduce r) ∨ (a = .eoi ∧ T.act q a = some .accept) := by
  obtain ⟨fuel, h1, h2⟩ := h
  have hc := ((new_spec ho hg fuel).1 T [] h1).1
  have hw := ((new_spec ho hg fuel).1 T [] h1).2.1
  refine ⟨_, freshSym_unused g, hc, ?_⟩
  intro γ q a r hq hr hcomp
  exact no_warn_reduce (rules'_start g) hc hw hq hr hcomp

/-- C22: there is exactly one warning for each state, look-ahead and complete rule that loses there, and it is determined by
these three. -/
theorem c22_one_each (o : Seeds) (ho : o.Fair) (g : Gram) (hg : g.Ok) (T : Tables) (ws : List Warning)
    (h : NewGives o g (.ok (T, ws))) : ∃ fresh, ¬ g.Used fresh ∧ OneEach (g.aug fresh) g.rules.length ws ∧
      ∀ S a r w w', Conflict (g.aug fresh) g.rules.length S a r w → Conflict (g.aug fresh) g.rules.length S a r w' → w = w' := by
  obtain ⟨fuel, h1, _⟩ := h
  exact ⟨_, freshSym_unused g, new_one_each ho hg h1, fun _ _ _ _ _ h h' => h.unique h'⟩

/-- `S → A x | B x | A y | B y`, `A → a`, `B → a` -/
def gTwice : Gram := ⟨[⟨0, [.nt 1, .tm (.sym 1)]⟩, ⟨0, [.nt 2, .tm (.sym 1)]⟩, ⟨0, [.nt 1, .tm (.sym 2)]⟩, ⟨0, [.nt 2, .tm (.sym 2)]⟩,
  ⟨1, [.tm (.sym 0)]⟩, ⟨2, [.tm (.sym 0)]⟩], 0⟩

/-- After `a`, `B → a` loses for both look-aheads: the same warning is there twice. -/
example : (match newTables 30 idSeeds gTwice with | .ok (_, ws) => some ws | _ => none) =
    some (List.replicate 2 (.reduceReduce [⟨4, 1, .sym 1⟩, ⟨4, 1, .sym 2⟩, ⟨5, 1, .sym 1⟩, ⟨5, 1, .sym 2⟩] 4 5)) := by decide

/-- C22, the exception: an accept silently overrides a reduction.  In `S → S | a`, after `S` at the end of input the
reduction `S → S` is valid, the tables accept, and there is no warning. -/
theorem c22_accept_silent : ∃ T q, NewGives idSeeds gLoop (.ok (T, [])) ∧ T.walk [.nt 0] = some q ∧
    T.act q .eoi = some .accept ∧ ∃ fresh, ¬ gLoop.Used fresh ∧ Complete (gLoop.aug fresh) gLoop.rules.length [.nt 0] 0 .eoi := by
  refine ⟨{ action := [(0, [(.sym 0, .shift 2)]), (1, [(.eoi, .accept)]), (2, [(.eoi, .reduce 1)])], goto := [(0, [(0, 1)])], errors := [], start := 0 },
    1, ⟨10, by decide, by simp⟩, by decide, by decide, 1, ?_, ⟨0, [.nt 0]⟩, rfl, ?_⟩
  · rintro ⟨r, hr, h⟩
    simp only [gLoop, List.mem_cons, List.not_mem_nil, or_false] at hr
    rcases hr with rfl | rfl <;> simp at h
  · refine Valid.advance [] ⟨0, 0, .eoi⟩ ⟨0, [.nt 0]⟩ (.nt 0) ?_ rfl rfl
    exact Valid.expand [] ⟨2, 0, .eoi⟩ ⟨1, [.nt 0]⟩ 0 0 ⟨0, [.nt 0]⟩ .eoi [] .start rfl rfl rfl rfl (.refl _)

/-- A shift-reduce conflict is reported: after `E + E` with `+` ahead. -/
example : ∃ T S S', NewGives idSeeds gConf (.ok (T, [.shiftReduce S S' 0])) :=
  ⟨{ action := [(0, [(.sym 1, .shift 2)]), (1, [(.sym 0, .shift 3), (.eoi, .accept)]), (2, [(.sym 0, .reduce 1), (.eoi, .reduce 1)]),
       (3, [(.sym 1, .shift 2)]), (4, [(.sym 0, .shift 3), (.eoi, .reduce 0)])],
     goto := [(0, [(0, 1)]), (3, [(0, 4)])], errors := [], start := 0 },
   [⟨0, 1, .sym 0⟩, ⟨0, 1, .eoi⟩, ⟨0, 3, .sym 0⟩, ⟨0, 3, .eoi⟩],
   [⟨0, 0, .sym 0⟩, ⟨0, 0, .eoi⟩, ⟨0, 2, .sym 0⟩, ⟨0, 2, .eoi⟩, ⟨1, 0, .sym 0⟩, ⟨1, 0, .eoi⟩], 20, by decide, by simp⟩

/-- A reduce-reduce conflict is reported: after `a` at the end of input. -/
example : ∃ T S, NewGives idSeeds gRR (.ok (T, [.reduceReduce S 2 3])) :=
  ⟨{ action := [(0, [(.sym 0, .shift 3)]), (1, [(.eoi, .reduce 0)]), (2, [(.eoi, .reduce 1)]), (3, [(.eoi, .reduce 2)]),
       (4, [(.eoi, .accept)])],
     goto := [(0, [(1, 1), (2, 2), (0, 4)])], errors := [], start := 0 },
   [⟨2, 1, .eoi⟩, ⟨3, 1, .eoi⟩], 20, by decide, by simp⟩

end Verif.Par
