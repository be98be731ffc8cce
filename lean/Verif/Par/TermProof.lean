import Verif.Par.FullProof
import Verif.Par.AbsProof

/-!
# Viable prefixes, termination and the first offending token
-/

namespace Verif.Par

/-- Token numbers as symbols. -/
abbrev toks (w : List Nat) : List Sym := w.map fun t => .tm (.sym t)

theorem Gen.no_tm {R : List PRule} {a : Term} (hR : ∀ r ∈ R, Sym.tm a ∉ r.rhs) {u v : List Sym} (h : Gen R u v) (hu : Sym.tm a ∉ u) :
    Sym.tm a ∉ v := by
  induction h with
  | nil => exact hu
  | keep X l w _ ih =>
    intro hm
    rcases List.mem_cons.1 hm with hm | hm
    · exact hu (by rw [← hm]; exact List.mem_cons_self)
    · exact ih (fun h => hu (List.mem_cons_of_mem _ h)) hm
  | expand r l u v hr _ _ ih1 ih2 =>
    intro hm
    rcases List.mem_append.1 hm with hm | hm
    · exact ih1 (hR r hr) hm
    · exact ih2 (fun h => hu (List.mem_cons_of_mem _ h)) hm

theorem Gen.tm_mem {R : List PRule} {a : Term} {u v : List Sym} (h : Gen R u v) (hu : Sym.tm a ∈ u) : Sym.tm a ∈ v := by
  induction h with
  | nil => exact hu
  | keep X l w _ ih =>
    rcases List.mem_cons.1 hu with hm | hm
    · rw [hm]; exact List.mem_cons_self
    · exact List.mem_cons_of_mem _ (ih hm)
  | expand r l u v hr _ _ ih1 ih2 =>
    rcases List.mem_cons.1 hu with hm | hm
    · cases hm
    · exact List.mem_append_right _ (ih2 hm)

/-- In a grammar without error rules, what follows in a sentential form can be completed. -/
theorem Gram.complete {g : Gram} (hok : g.Ok) (hn : g.NoError) (hp : g.Productive) {ζ : List Sym} (h : Gen g.rules [.nt g.start] ζ) :
    ∀ x η, ζ = x ++ η → ∃ w, Gen g.rules η (toks w) := by
  have h1 := h.no_tm (a := .eoi) hok (by simp)
  have h2 := h.no_tm (a := .err) hn (by simp)
  have h3 : ∀ x n y, ζ = x ++ .nt n :: y → ∃ w, Gen g.rules [.nt n] (toks w) := by
    intro x n y hz
    obtain ⟨w, hw⟩ := hp x n y (by rw [← hz]; exact gen_iff.1 h)
    exact ⟨w, gen_iff.2 hw⟩
  clear h
  intro x η hz
  induction η generalizing x with
  | nil => exact ⟨[], .nil⟩
  | cons X η ih =>
    obtain ⟨w, hw⟩ := ih (x ++ [X]) (by simp [hz])
    have hX : ∃ w, Gen g.rules [X] (toks w) := by
      cases X with
      | nt n => exact h3 x n η hz
      | tm a =>
        cases a with
        | sym t => exact ⟨[t], .refl _⟩
        | err => exact absurd (by rw [hz]; simp) h2
        | eoi => exact absurd (by rw [hz]; simp) h1
    obtain ⟨w', hw'⟩ := hX
    exact ⟨w' ++ w, by simpa [toks] using Gen.append hw' hw⟩

section
variable {N T E : Type} {p : Parser N T E} {rules : List (Rule N T E)} {idx : T → Nat} {input : List T} {start fresh : Nat}

/-- What can follow a viable prefix. -/
theorem Ctx.follows (hx : Ctx p rules start fresh) (hne : fresh ≠ start) (hn : (gram rules start).NoError)
    (hp : (gram rules start).Productive) {γ : List Sym} {i : Item} (hv : Valid ((gram rules start).aug fresh) rules.length γ i)
    {u : List Nat} (hu : Gen (rules.map Rule.plain) γ (toks u)) :
    (∃ w, (gram rules start).Sentence (u ++ w)) ∧
    ∀ rule a ρ, ((gram rules start).aug fresh)[i.rule]? = some rule →
      Gen ((gram rules start).aug fresh) (rule.rhs.drop i.pos ++ [.tm i.la]) (.tm a :: ρ) →
      (a = .eoi ∧ (gram rules start).Sentence u) ∨ ∃ t w, a = .sym t ∧ (gram rules start).Sentence (u ++ t :: w) := by
  obtain ⟨rule, ω, h1, h2⟩ := hv.sentential' Ctx.start_rule
  have hug : (∀ X ∈ γ, X ≠ .tm .eoi) := by
    intro X hX he
    subst he
    have := hu.tm_mem hX
    simp [toks] at this
  -- everything before the end marker
  have cut : ∀ δ, Gen ((gram rules start).aug fresh) ([.nt start] ++ [.tm .eoi]) (γ ++ δ) → ∃ η, δ = η ++ [.tm .eoi] ∧
      Gen (rules.map Rule.plain) [.nt start] (γ ++ η) := by
    intro δ h
    obtain ⟨u', v, k1, k2, k3⟩ := h.split
    obtain ⟨v', rfl, k4⟩ := k3.terminal
    have := k4.nil_left
    subst this
    rcases List.eq_nil_or_concat δ with rfl | ⟨η, z, rfl⟩
    · exfalso
      have : Sym.tm .eoi ∈ γ := by
        rw [List.append_nil] at k1
        rw [k1]
        simp
      exact hug _ this rfl
    · have k1' : (γ ++ η) ++ [z] = u' ++ [.tm .eoi] := by simpa using k1
      obtain ⟨k5, k6⟩ := List.append_inj' k1' rfl
      cases k6
      refine ⟨η, by simp, ?_⟩
      rw [k5]
      refine Gen.drop_rule (r0 := ⟨fresh, [.nt start]⟩) ?_ k2 (by simpa using hne) (by simpa using hne)
      intro r hr hm
      exact hx.unused ⟨r, hr, Or.inr hm⟩
  have fin : ∀ {η w}, Gen (rules.map Rule.plain) [.nt start] (γ ++ η) → Gen (rules.map Rule.plain) η (toks w) →
      (gram rules start).Sentence (u ++ w) := by
    intro η w k1 k2
    have := k1.trans (Gen.append hu k2)
    unfold Gram.Sentence
    rw [List.map_append]
    exact gen_iff.1 this
  constructor
  · obtain ⟨η, k1, k2⟩ := cut _ (by rw [← List.append_assoc]; exact h2)
    obtain ⟨w, hw⟩ := Gram.complete hx.ok hn hp k2 γ η rfl
    exact ⟨w, fin k2 hw⟩
  · intro rule' a ρ h3 h4
    rw [h1] at h3
    cases h3
    obtain ⟨η, k1, k2⟩ := cut (.tm a :: ρ ++ ω) (by
      refine h2.trans ?_
      have := Gen.append (Gen.refl γ) (Gen.append h4 (Gen.refl ω))
      simpa using this)
    cases η with
    | nil =>
      left
      simp only [List.cons_append, List.nil_append, List.cons.injEq] at k1
      refine ⟨by simpa using k1.1, ?_⟩
      have := fin (η := []) (w := []) k2 .nil
      simpa using this
    | cons X η =>
      right
      simp only [List.cons_append, List.cons.injEq] at k1
      obtain ⟨w, hw⟩ := Gram.complete hx.ok hn hp k2 γ _ rfl
      rw [← k1.1] at hw k2
      obtain ⟨v, k3, k4⟩ := hw.terminal
      cases w with
      | nil => cases k3
      | cons t w =>
        simp only [toks, List.map_cons, List.cons.injEq, Sym.tm.injEq] at k3
        exact ⟨t, w, k3.1.symm, fin k2 hw⟩

theorem Ctx.fresh_ne' (hx : Ctx p rules start fresh) (hp : (gram rules start).Productive) : fresh ≠ start := by
  obtain ⟨w, hw⟩ := hp [] start [] (.refl _)
  rcases gen_single (gen_iff.2 hw) with h | ⟨r, hr, h1, _⟩
  · cases w with
    | nil => cases h
    | cons t w => cases h
  · cases h1
    exact hx.fresh_ne ⟨r, hr, rfl⟩

theorem leaves_toks (l : List T) (k : Nat) : ((l.zipIdx k).map fun x => Sym.tm (.sym (idx x.1))) = toks (l.map idx) := by
  rw [toks, List.map_map]
  have : (fun x : T × Nat => Sym.tm (.sym (idx x.1))) = (fun t => Sym.tm (.sym (idx t))) ∘ Prod.fst := rfl
  rw [this, ← List.map_map, List.zipIdx_map_fst]
  rfl

/-- What has been shifted can be completed to a sentence; where there is an action, also with the look-ahead. -/
theorem Inv.viable (hx : Ctx p rules start fresh) (hn : (gram rules start).NoError) (hp : (gram rules start).Productive)
    {c : Cfg N T} {j γ fs lg as} (h : Inv p rules idx input c j γ fs lg as) (he : errs fs = []) :
    (∃ w, (gram rules start).Sentence ((input.take j).map idx ++ w)) ∧
    ∀ a act, p.tab.act c.state a = some act → (a = .eoi ∧ (gram rules start).Sentence ((input.take j).map idx)) ∨
      ∃ t w, a = .sym t ∧ (gram rules start).Sentence ((input.take j).map idx ++ t :: w) := by
  have hne := hx.fresh_ne' hp
  have hw := h.seg.walk
  have hel := h.seg.elems
  have hb : Built (rules.map Rule.plain) idx input γ fs := hel.built fun lo hi hm => absurd he (hel.errs_ne hm)
  have hg := hb.gen he
  rw [(h.clean he).1, leaves_toks] at hg
  have hf := fun {i} hv => hx.follows hne hn hp (i := i) hv hg
  refine ⟨?_, ?_⟩
  · obtain ⟨i, hi⟩ := (hx.canon.walk_iff γ).1 ⟨_, hw⟩
    exact (hf hi).1
  · intro a act hact
    cases act with
    | shift s =>
      obtain ⟨i, rule, h1, h2, h3⟩ := (hx.canon.goes γ c.state (.tm a) hw).1 ⟨s, goes_of_shift hact⟩
      have hlt : i.pos < rule.rhs.length := by rw [List.getElem?_eq_some_iff] at h3; exact h3.1
      rw [List.getElem?_eq_getElem hlt] at h3
      refine (hf h1).2 rule a (rule.rhs.drop (i.pos + 1) ++ [.tm i.la]) h2 ?_
      rw [List.drop_eq_getElem_cons hlt, Option.some.inj h3]
      exact Gen.refl _
    | reduce r =>
      obtain ⟨_, ⟨rule, h1, h2⟩, _⟩ := (hx.canon.reduce γ c.state a r hw).1 hact
      refine (hf h2).2 rule a [] h1 ?_
      simp only [List.drop_length, List.nil_append]
      exact Gen.refl _
    | accept =>
      obtain ⟨rfl, a', rule, h1, h2⟩ := (hx.canon.accept γ c.state a hw).1 hact
      refine (hf h2).2 rule .eoi [] h1 ?_
      simp only [List.drop_length, List.nil_append]
      have hl : (gram rules start).rules.length = rules.length := by simp [gram]
      have h2' := h2
      rw [← hl] at h2'
      have := (start_items hx.unused h2' rfl).1
      simp only at this
      rw [this]
      exact Gen.refl _

theorem causal {n : Nat} {c' : Cfg N T} (h : (run idx p n (Cfg.init p input)).cfg? = some c') {s : List T}
    (hs : s.take c'.pulls = input.take c'.pulls) :
    run idx p n (Cfg.init p s) = (run idx p n (Cfg.init p input)).withSrc (s.drop c'.pulls) := by
  obtain ⟨k, h1, h2, h3⟩ := run_src n (Cfg.init p input) c' s h
  have hk : c'.pulls = k := by rw [h1]; simp [Cfg.init]
  rw [hk] at hs ⊢
  exact h3 hs

theorem Inv.pulls_le {c : Cfg N T} {j γ fs lg as} (h : Inv p rules idx input c j γ fs lg as) : c.pulls ≤ input.length + 1 := by
  have h1 := congrArg List.length h.read
  have h2 := h.pulls
  simp at h1
  split at h2 <;> omega

end

section
variable {N E : Type} {p : Parser N Nat E} {rules : List (Rule N Nat E)} {input : List Nat} {start fresh : Nat}

theorem sentence_ends (hx : Ctx p rules start fresh) (hnw : NoConflict p rules start fresh)
    (hs : (gram rules start).Sentence input) : ∃ r c, ParsesTo id p input r c ∧ r ≠ .error .noRecovery := by
  obtain ⟨f, hf⟩ := (sentence_iff (idx := id) (input := input)).1 (by simpa using hs)
  obtain ⟨lg, x, hev⟩ := Built.evals hf.1
  rcases follow hx hnw hf hev with ⟨v, c, _, h2, _⟩ | ⟨e, c, _, h2, _⟩ | ⟨_, v, c, f', h1, _⟩
  · exact ⟨_, _, h2, by simp⟩
  · exact ⟨_, _, h2, by simp⟩
  · exact ⟨_, _, h1, by simp⟩

theorem pull_more (hx : Ctx p rules start fresh) (hnw : NoConflict p rules start fresh) (hn : (gram rules start).NoError)
    (hp : (gram rules start).Productive) {n : Nat} {c : Cfg N Nat} (hr : run id p n (Cfg.init p input) = .more c) :
    ∃ m, (∃ c', run id p m (Cfg.init p input) = .more c' ∧ c.pulls < c'.pulls) ∨ ∀ c', run id p m (Cfg.init p input) ≠ .more c' := by
  have hnone := no_err_expected (fresh := fresh) hn
  have hreach : Reach p rules id input start fresh c := by
    rcases Reach.run (idx := id) hx (Reach.init (input := input)) n with ⟨c', h1, h2⟩ | h1
    · rw [hr] at h1; cases h1; exact h2
    · rw [hr] at h1; cases h1
  obtain ⟨j, γ, fs, lg, as, hi, he⟩ := hreach
  have he : errs fs = [] := Classical.byContradiction fun h => hnone (he h)
  obtain ⟨a, m1, m2, m3, m4⟩ := step_cases hx hi
  have hstep : ∀ k, run id p (n + k) (Cfg.init p input) = run id p k c := by intro k; rw [run_add, hr]
  have hfp : c.pulls ≤ (fill id c).pulls := by
    have := (fill_src (idx := id) c c.src rfl).2.2
    omega
  rcases m4 with ⟨t, s, n1, n2, n3, n4, n5⟩ | ⟨r, n1, n2⟩ | ⟨v, n1, n2, n3, n4, ⟨f, n5⟩, n6, n7⟩ | ⟨n1, n2 | ⟨c', j', γ', fs', lg', as', n2, n3, n4, n5, n6, n7, n8, n9, _⟩⟩
  · -- shift: the round after that pulls
    refine ⟨n + 2, ?_⟩
    rw [hstep]
    simp only [run, n4]
    have hbuf : ((fill id c).shifted id t j s).buffer = [] := by
      have := (m2.clean he).2.2.2
      simp only [Cfg.shifted, bufOf]
      rw [List.drop_of_length_le this]
      rfl
    have hall := (step_src (idx := id) (p := p) ((fill id c).shifted id t j s) _ rfl).2
    cases hs : step id p ((fill id c).shifted id t j s) with
    | more c2 =>
      left
      refine ⟨c2, rfl, ?_⟩
      rw [hs] at hall
      have h2 := hall.2
      simp only [Cfg.next, hbuf, List.isEmpty_nil, if_true] at h2
      have : ((fill id c).shifted id t j s).pulls = (fill id c).pulls := rfl
      omega
    | done r c2 => right; intro c'; simp
    | panic => right; intro c'; simp
  · -- reduce: the tokens pulled are the beginning of a sentence
    have hst : (fill id c).state = c.state := fill_state c
    have hs : ∃ s, (gram rules start).Sentence s ∧ s.take (fill id c).pulls = input.take (fill id c).pulls := by
      rcases (m2.viable hx hn hp he).2 a _ (by rw [hst]; exact n1) with ⟨rfl, h⟩ | ⟨t, w, rfl, h⟩
      · rcases m1 with ⟨t, h0, _⟩ | ⟨_, h0⟩
        · cases h0
        · subst h0
          exact ⟨input, by simpa using h, rfl⟩
      · rcases m1 with ⟨t', h0, h1⟩ | ⟨h0, _⟩
        · cases h0
          refine ⟨_, h, ?_⟩
          have h2 := m2.pulls
          have h3 := (m2.clean he).2.2.2
          have hlt : j < input.length := by rw [List.getElem?_eq_some_iff] at h1; exact h1.1
          have h4 : (fill id c).pulls ≤ j + 1 := by
            split at h2
            · rename_i hb
              rcases m2.buf with hb' | ⟨_, hsrc, hj⟩
              · rw [hb] at hb'; exact absurd hb'.symm bufOf_ne_eoi
              · exfalso
                have := congrArg List.length m2.read
                rw [hsrc] at this
                simp at this
                omega
            · omega
          have h5 : input.take (j + 1) = (input.take j).map id ++ [t'] := by
            rw [List.take_add_one, h1]; simp
          have h6 : ((input.take j).map id ++ id t' :: w).take (j + 1) = input.take (j + 1) := by
            have e : (input.take j).map id ++ id t' :: w = input.take (j + 1) ++ w := by rw [h5]; simp
            rw [e, List.take_left' (by simp; omega)]
          have := congrArg (List.take (fill id c).pulls) h6
          rwa [List.take_take, List.take_take, Nat.min_eq_left h4] at this
        · cases h0
    obtain ⟨s, hs, htake⟩ := hs
    obtain ⟨res, cs, ⟨N0, hN⟩, _⟩ := sentence_ends hx hnw hs
    refine ⟨N0, ?_⟩
    cases hrun : run id p N0 (Cfg.init p input) with
    | panic => right; intro c'; simp
    | done r c' => right; intro c'; simp
    | more c' =>
      left
      refine ⟨c', rfl, ?_⟩
      apply Classical.byContradiction
      intro hle
      have hle : c'.pulls ≤ (fill id c).pulls := by omega
      have := causal (idx := id) (p := p) (input := input) (n := N0) (c' := c') (by rw [hrun]; rfl) (s := s) (by
        have := congrArg (List.take c'.pulls) htake
        rwa [List.take_take, List.take_take, Nat.min_eq_left hle] at this)
      rw [hrun, hN] at this
      cases this
  · refine ⟨n + 1, Or.inr ?_⟩
    rw [hstep]
    simp [run, n7]
  · refine ⟨n + 1, Or.inr ?_⟩
    rw [hstep]
    simp [run, n2]
  · exact absurd n9 hnone

/-- The loop ends. -/
theorem ends (hx : Ctx p rules start fresh) (hnw : NoConflict p rules start fresh) (hn : (gram rules start).NoError)
    (hp : (gram rules start).Productive) (input : List Nat) : ∃ m, ∀ c', run id p m (Cfg.init p input) ≠ .more c' := by
  have key : ∀ d n c, run id p n (Cfg.init p input) = .more c → input.length + 1 - c.pulls < d →
      ∃ m, ∀ c', run id p m (Cfg.init p input) ≠ .more c' := by
    intro d
    induction d with
    | zero => intro n c _ h; cases h
    | succ d ih =>
      intro n c hr hd
      obtain ⟨m, ⟨c', h1, h2⟩ | h1⟩ := pull_more hx hnw hn hp hr
      · refine ih m c' h1 ?_
        rcases Reach.run (idx := id) hx (Reach.init (input := input)) m with ⟨c'', k1, k2⟩ | k1
        · rw [h1] at k1
          cases k1
          obtain ⟨_, _, _, _, _, k2, _⟩ := k2
          have := k2.pulls_le
          omega
        · rw [h1] at k1; cases k1
      · exact ⟨m, h1⟩
  exact key (input.length + 2) 0 (Cfg.init p input) rfl (by simp [Cfg.init])

end

/-! ## For all token types -/

section
variable {N T E : Type} {p : Parser N T E} {rules : List (Rule N T E)} {idx : T → Nat} {input : List T} {start fresh : Nat}

/-- The rules of `plainify`. -/
def plains (rules : List (Rule N T E)) : List (Rule Unit Nat Unit) := rules.map fun r => ⟨r.lhs, r.rhs, fun _ => .ok ()⟩

theorem plains_gram : gram (plains rules) start = gram rules start := by
  simp [gram, plains, Rule.plain, Function.comp_def]

theorem makes_plainify {o : Seeds} {ws : List Warning} (h : MakesParser o rules start p ws) :
    MakesParser o (plains rules) start (plainify p) ws := by
  obtain ⟨h1, d, h2⟩ := h
  refine ⟨by rw [plains_gram]; exact h1, fun _ => .ok (), ?_⟩
  have h3 : (plains rules).map Rule.plain = rules.map Rule.plain := congrArg Gram.rules (plains_gram (rules := rules) (start := start))
  rw [h3]
  simp [plainify, h2, plains]

theorem run_plainify (n : Nat) (input : List T) :
    (run idx p n (Cfg.init p input)).Mim (fun _ => ()) idx (run id (plainify p) n (Cfg.init (plainify p) (input.map idx))) := by
  have := run_map (idx' := id) (idx := idx) (fun t => rfl) (mimics_plainify p idx) n (Cfg.init p input)
  rwa [init_map (mimics_plainify p idx)] at this

theorem makes_ends {o : Seeds} (ho : o.Fair) (hok : (gram rules start).Ok) (h : MakesParser o rules start p [])
    (hn : (gram rules start).NoError) (hp : (gram rules start).Productive) (idx : T → Nat) (input : List T) :
    ∃ m, ∀ c', run idx p m (Cfg.init p input) ≠ .more c' := by
  obtain ⟨fresh, hx, hnw⟩ := noConflict_of_makes ho (by rw [plains_gram]; exact hok) (makes_plainify h)
  obtain ⟨m, hm⟩ := ends hx hnw (by rw [plains_gram]; exact hn) (by rw [plains_gram]; exact hp) (input.map idx)
  refine ⟨m, ?_⟩
  intro c' hc
  have := run_plainify (idx := idx) (p := p) m input
  rw [hc] at this
  exact hm _ this

/-- No sentence agrees with the input on what has been pulled when an error is found. -/
theorem makes_offending {o : Seeds} (ho : o.Fair) (hok : (gram rules start).Ok) (h : MakesParser o rules start p [])
    {c : Cfg N T} (hc : ParsesTo idx p input (.error .noRecovery) c) {s : List Nat} (hs : (gram rules start).Sentence s) :
    s.take c.pulls ≠ (input.map idx).take c.pulls := by
  obtain ⟨fresh, hx, hnw⟩ := noConflict_of_makes ho (by rw [plains_gram]; exact hok) (makes_plainify h)
  intro ht
  obtain ⟨n, hn⟩ := hc
  have h1 := run_plainify (idx := idx) (p := p) n input
  rw [hn] at h1
  simp only [Step.Mim] at h1
  have h2 := causal (idx := id) (p := plainify p) (input := input.map idx) (n := n) (c' := c.map (fun _ => ()) idx) (by rw [h1]; rfl)
    (s := s) ht
  rw [h1] at h2
  obtain ⟨r, c', h3, h4⟩ := sentence_ends hx hnw (input := s) (by rw [plains_gram]; exact hs)
  have := (h3.unique ⟨n, h2⟩).1
  exact h4 this

/-- At every moment all pulled tokens but the last can be completed to a sentence. -/
theorem Reach.viable (hx : Ctx p rules start fresh) (hn : (gram rules start).NoError) (hp : (gram rules start).Productive)
    {c : Cfg N T} (h : Reach p rules idx input start fresh c) :
    ∃ w, (gram rules start).Sentence ((input.map idx).take (c.pulls - 1) ++ w) := by
  obtain ⟨j, γ, fs, lg, as, hi, he⟩ := h
  have he : errs fs = [] := Classical.byContradiction fun h => no_err_expected (fresh := fresh) hn (he h)
  obtain ⟨w, hw⟩ := (hi.viable hx hn hp he).1
  have hle : c.pulls - 1 ≤ j := by
    have h2 := hi.pulls
    have h3 := (hi.clean he).2.2.2
    split at h2
    · rename_i hb
      rcases hi.buf with hb' | ⟨_, _, hj⟩
      · rw [hb] at hb'; exact absurd hb'.symm bufOf_ne_eoi
      · omega
    · omega
  refine ⟨((input.map idx).take j).drop (c.pulls - 1) ++ w, ?_⟩
  have e : (input.map idx).take (c.pulls - 1) = ((input.map idx).take j).take (c.pulls - 1) := by
    rw [List.take_take, Nat.min_eq_left hle]
  rw [e, ← List.append_assoc, List.take_append_drop, ← List.map_take]
  exact hw

end

end Verif.Par
