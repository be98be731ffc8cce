import Verif.Par.InvProof

/-!
# One round of the parse loop, and what follows for finished runs
-/

namespace Verif.Par

variable {N T E : Type} {p : Parser N T E} {rules : List (Rule N T E)} {idx : T → Nat} {input : List T} {start fresh : Nat}

/-- `a` is the next token, number `j`, or the end of input. -/
def Ahead (idx : T → Nat) (input : List T) (j : Nat) (a : Term) : Prop :=
  (∃ t, a = .sym (idx t) ∧ input[j]? = some t) ∨ (a = .eoi ∧ j = input.length)

theorem Ahead.unique {j : Nat} {a b : Term} (h : Ahead idx input j a) (h' : Ahead idx input j b) : a = b := by
  rcases h with ⟨t, rfl, h1⟩ | ⟨rfl, h1⟩ <;> rcases h' with ⟨t', rfl, h2⟩ | ⟨rfl, h2⟩
  · rw [h1] at h2; cases h2; rfl
  · rw [List.getElem?_eq_some_iff] at h1; have := h1.1; omega
  · rw [List.getElem?_eq_some_iff] at h2; have := h2.1; omega
  · rfl

theorem Ahead.ne_err {j : Nat} {a : Term} (h : Ahead idx input j a) : a ≠ .err := by
  rcases h with ⟨t, rfl, _⟩ | ⟨rfl, _⟩ <;> simp

theorem Ctx.no_eoi (hx : Ctx p rules start fresh) (γ : List Sym) : ¬ Expects ((gram rules start).aug fresh) rules.length γ (.tm .eoi) := by
  rintro ⟨i, rule, _, h1, h2⟩
  have hm := List.mem_of_getElem? h2
  rcases List.mem_append.1 (List.mem_of_getElem? h1) with h3 | h3
  · exact hx.ok rule h3 hm
  · simp at h3
    subst h3
    simp at hm

theorem goes_of_shift {tab : Tables} {q s : Nat} {a : Term} (h : tab.act q a = some (.shift s)) : tab.goes q (.tm a) = some s := by
  simp [Tables.goes, h]

theorem shift_of_goes {tab : Tables} {q s : Nat} {a : Term} (h : tab.goes q (.tm a) = some s) : tab.act q a = some (.shift s) := by
  simp only [Tables.goes] at h
  split at h
  · rename_i h'; rw [h', Option.some.inj h]
  · simp at h

/-- The configuration after shifting the next token. -/
def Cfg.shifted (idx : T → Nat) (c : Cfg N T) (t : T) (j s : Nat) : Cfg N T :=
  { c with state := s, stack := (c.state, .tok (idx t) j) :: c.stack, buffer := bufOf idx c.read (j + 1) }

/-- The four kinds of rounds. -/
theorem step_cases (hx : Ctx p rules start fresh) {c : Cfg N T} {j γ fs lg as} (h : Inv p rules idx input c j γ fs lg as) :
    ∃ a, Ahead idx input j a ∧ Inv p rules idx input (fill idx c) j γ fs lg as ∧ (a = .eoi → (fill idx c).buffer = [(.eoi, 0)]) ∧
      ((∃ t s, a = .sym (idx t) ∧ input[j]? = some t ∧ p.tab.act c.state a = some (.shift s) ∧
          step idx p c = .more ((fill idx c).shifted idx t j s) ∧
          Inv p rules idx input ((fill idx c).shifted idx t j s) (j + 1) (γ ++ [.tm (.sym (idx t))]) (fs ++ [.leaf j t]) lg (as ++ [.tok t])) ∨
       (∃ r, p.tab.act c.state a = some (.reduce r) ∧ step idx p c = onReduce p (fill idx c) r) ∨
       (∃ v, p.tab.act c.state a = some .accept ∧ a = .eoi ∧ j = input.length ∧ γ = [.nt start] ∧ (∃ f, fs = [f]) ∧ as = [.nt v] ∧
          step idx p c = .done (.ok v) (fill idx c)) ∨
       (p.tab.act c.state a = none ∧ (step idx p c = .done (.error .noRecovery) { fill idx c with stack := [] } ∨
          ∃ c' j' γ' fs' lg' as', step idx p c = .more c' ∧ Inv p rules idx input c' j' γ' fs' lg' as' ∧ errs fs' ≠ [] ∧
            c'.log = c.log ∧ c'.read = (fill idx c).read ∧ c'.src = (fill idx c).src ∧ c'.pulls = (fill idx c).pulls ∧
            (∃ γ0, Expects ((gram rules start).aug fresh) rules.length γ0 (.tm .err)) ∧
            (a = .eoi → ∃ q, c'.stack = (q, .err 0 0) :: c.stack)))) := by
  obtain ⟨hf, hb⟩ := h.fill
  have hst : (fill idx c).state = c.state ∧ (fill idx c).stack = c.stack ∧ (fill idx c).log = c.log := by
    unfold fill
    split
    · exact ⟨rfl, rfl, rfl⟩
    · split <;> exact ⟨rfl, rfl, rfl⟩
  have hw : p.tab.walk γ = some c.state := h.seg.walk
  obtain ⟨row, hrow⟩ := hx.canon.row γ c.state hw
  have hact : ∀ a, p.tab.act c.state a = get a row := by intro a; simp [Tables.act, hrow]
  rcases hb with ⟨t, hbuf, ht⟩ | ⟨hbuf, hsrc, hj, hread⟩
  · have hlt : j < (fill idx c).read.length := by rw [List.getElem?_eq_some_iff] at ht; exact ht.1
    have hin : input[j]? = some t := by rw [← hf.read, List.getElem?_append_left hlt]; exact ht
    have hah : Ahead idx input j (.sym (idx t)) := Or.inl ⟨t, rfl, hin⟩
    refine ⟨.sym (idx t), hah, hf, (fun h0 => by cases h0), ?_⟩
    cases hg : p.tab.act c.state (.sym (idx t)) with
    | none =>
      right; right; right
      refine ⟨rfl, ?_⟩
      have hse : step idx p c = onError idx p (fill idx c) (.sym (idx t)) j := by
        rw [hact] at hg
        simp only [step, hbuf, hst.1, hrow, hg]
      rw [hse]
      rcases hf.error hx (a := .sym (idx t)) (i := j) (Or.inl ⟨t, rfl, rfl, hbuf, ht⟩) with h1 | ⟨c', j', γ', fs', lg', as', h1, h2, h3, h4, h5, h6, h7, h8, h9⟩
      · exact Or.inl h1
      · exact Or.inr ⟨c', j', γ', fs', lg', as', h1, h2, h3, by rw [h4, hst.2.2], h5, h6, h7, h8, fun h0 => by cases h0⟩
    | some x =>
      cases x with
      | shift s =>
        left
        refine ⟨t, s, rfl, hin, rfl, ?_, ?_⟩
        · rw [hact] at hg
          simp only [step, hbuf, hst.1, hrow, hg, Cfg.shifted]
        · exact hf.shift hbuf ht (by rw [hst.1]; exact goes_of_shift hg)
      | reduce r =>
        right; left
        refine ⟨r, rfl, ?_⟩
        rw [hact] at hg
        simp only [step, hbuf, hst.1, hrow, hg]
      | accept =>
        have := ((hx.canon.accept γ c.state _ hw).1 hg).1
        cases this
  · have hah : Ahead idx input j .eoi := Or.inr ⟨rfl, hj⟩
    refine ⟨.eoi, hah, hf, (fun _ => hbuf), ?_⟩
    cases hg : p.tab.act c.state .eoi with
    | none =>
      right; right; right
      refine ⟨rfl, ?_⟩
      have hse : step idx p c = onError idx p (fill idx c) .eoi 0 := by
        rw [hact] at hg
        simp only [step, hbuf, hst.1, hrow, hg]
      rw [hse]
      rcases hf.error hx (a := .eoi) (i := 0) (Or.inr ⟨rfl, rfl, hbuf, hread⟩) with h1 | ⟨c', j', γ', fs', lg', as', h1, h2, h3, h4, h5, h6, h7, h8, h9⟩
      · exact Or.inl h1
      · exact Or.inr ⟨c', j', γ', fs', lg', as', h1, h2, h3, by rw [h4, hst.2.2], h5, h6, h7, h8, by rw [hst.2.1] at h9; exact h9⟩
    | some x =>
      cases x with
      | shift s => exact absurd ((hx.canon.goes γ c.state _ hw).1 ⟨s, goes_of_shift hg⟩) (hx.no_eoi γ)
      | reduce r =>
        right; left
        refine ⟨r, rfl, ?_⟩
        rw [hact] at hg
        simp only [step, hbuf, hst.1, hrow, hg]
      | accept =>
        right; right; left
        have hacc := ((hx.canon.accept γ c.state _ hw).1 hg).2
        obtain ⟨b, rule, h1, h2⟩ := hacc
        have hr : rule = ⟨fresh, [.nt start]⟩ := by
          simp [Gram.aug, gram] at h1
          exact h1.symm
        subst hr
        have hγ : γ = [.nt start] := by
          have hlen : (gram rules start).rules.length = rules.length := by simp [gram]
          have h2' : Valid ((gram rules start).aug fresh) (gram rules start).rules.length γ ⟨(gram rules start).rules.length, 1, b⟩ := by
            rw [hlen]; exact h2
          rcases (start_items hx.unused h2' rfl).2 with ⟨h3, _⟩ | ⟨_, h3⟩
          · simp at h3
          · exact h3
        have hseg := h.seg
        have : ∃ q v i f l, c.stack = [(q, .nt v i)] ∧ fs = [f] ∧ as = [.nt v] ∧ lg = l := by
          rw [hγ] at hseg
          generalize hγ' : [Sym.nt start] = γ' at hseg
          generalize c.stack = st, c.state = q at hseg ⊢
          cases hseg with
          | nil => cases hγ'
          | push st q us fs lg as X q' y f l a k1 k2 k3 k4 =>
            have hl := congrArg List.length hγ'
            simp at hl
            have hus : us = [] := by cases us with
              | nil => rfl
              | cons => simp at hl
            subst hus
            simp at hγ'
            subst hγ'
            have hk := k1.length
            simp at hk
            subst hk
            cases k1
            cases k3
            exact ⟨_, _, _, _, _, rfl, rfl, rfl, rfl⟩
        obtain ⟨q, v, i, f, l, h3, h4, h5, h6⟩ := this
        refine ⟨v, rfl, rfl, hj, hγ, ⟨f, h4⟩, h5, ?_⟩
        rw [hact] at hg
        simp only [step, hbuf, hst.1, hrow, hg, hst.2.1, h3]

/-- The invariant, with the trees hidden. -/
def Reach (p : Parser N T E) (rules : List (Rule N T E)) (idx : T → Nat) (input : List T) (start fresh : Nat) (c : Cfg N T) : Prop :=
  ∃ j γ fs lg as, Inv p rules idx input c j γ fs lg as ∧
    (errs fs ≠ [] → ∃ γ0, Expects ((gram rules start).aug fresh) rules.length γ0 (.tm .err))

/-- The last round. -/
inductive Final (p : Parser N T E) (rules : List (Rule N T E)) (idx : T → Nat) (input : List T) (start fresh : Nat) :
    Step N T E → Prop
  | ok (c v f lg) : Inv p rules idx input c input.length [.nt start] [f] lg [.nt v] →
      (errs [f] ≠ [] → ∃ γ0, Expects ((gram rules start).aug fresh) rules.length γ0 (.tm .err)) → c.buffer = [(.eoi, 0)] →
      Final p rules idx input start fresh (.done (.ok v) c)
  | reducer (c e r args rule) : Reach p rules idx input start fresh c → rules[r]? = some rule → rule.gen args = .error e →
      CallOk rules idx input (r, args) →
      Final p rules idx input start fresh (.done (.error (.reducer e)) { c with log := (r, args) :: c.log })
  | noRecovery (c) : Reach p rules idx input start fresh c →
      Final p rules idx input start fresh (.done (.error .noRecovery) { c with stack := [] })
  | panic : input = [] → (∃ γ0, Expects ((gram rules start).aug fresh) rules.length γ0 (.tm .err)) →
      Final p rules idx input start fresh .panic

theorem Reach.init : Reach p rules idx input start fresh (Cfg.init p input) :=
  ⟨_, _, _, _, _, .init, fun h => absurd rfl h⟩

theorem Reach.step (hx : Ctx p rules start fresh) {c : Cfg N T} (h : Reach p rules idx input start fresh c) :
    (∃ c', Par.step idx p c = .more c' ∧ Reach p rules idx input start fresh c') ∨
    Final p rules idx input start fresh (Par.step idx p c) := by
  obtain ⟨j, γ, fs, lg, as, hi, he⟩ := h
  obtain ⟨a, h1, h2, h3, h4⟩ := step_cases hx hi
  have hfill : Reach p rules idx input start fresh (fill idx c) := ⟨j, γ, fs, lg, as, h2, he⟩
  rcases h4 with ⟨t, s, _, _, _, k1, k2⟩ | ⟨r, k1, k2⟩ | ⟨v, k1, k2, k3, k4, ⟨f, k5⟩, k6, k7⟩ | ⟨k1, k2 | ⟨c', j', γ', fs', lg', as', k2, k3, k4, k5, k6, k7, k8, k9, _⟩⟩
  · left
    refine ⟨_, k1, _, _, _, _, _, k2, ?_⟩
    intro hn
    apply he
    simpa [errs_append, errs, Tree.errs] using hn
  · have k1' : p.tab.act (fill idx c).state a = some (.reduce r) := by
      have : (fill idx c).state = c.state := by
        unfold fill
        split
        · rfl
        · split <;> rfl
      rw [this]; exact k1
    obtain ⟨rule, γ0, fs0, fs1, lg0, lg1, as0, as1, m1, m2, m3, m4, m5, m6⟩ := h2.reduce hx k1'
    rcases m6 with ⟨m6, m7, m8⟩ | ⟨m6, m7, m8, m9, m10⟩
    · right
      rw [k2, m6]
      refine .panic m7 (he ?_)
      rw [m3, errs_append]
      simp [m8]
    · cases hg : rule.gen as1 with
      | error e =>
        right
        rw [k2, m9 e hg]
        exact .reducer _ e r as1 rule hfill m1 hg m8
      | ok v =>
        left
        obtain ⟨q, q0, i, st, n1, n2⟩ := m10 v hg
        rw [k2]
        refine ⟨_, n1, _, _, _, _, _, n2, ?_⟩
        intro hn
        apply he
        rw [m3]
        simpa [errs_append, errs, Tree.errs] using hn
  · right
    rw [k7]
    subst k3 k4 k5 k6
    exact .ok _ _ f lg h2 he (h3 k2)
  · right
    rw [k2]
    exact .noRecovery _ hfill
  · left
    exact ⟨c', k2, _, _, _, _, _, k3, fun _ => k9⟩

theorem Reach.run (hx : Ctx p rules start fresh) {c : Cfg N T} (h : Reach p rules idx input start fresh c) (n : Nat) :
    (∃ c', Par.run idx p n c = .more c' ∧ Reach p rules idx input start fresh c') ∨
    Final p rules idx input start fresh (Par.run idx p n c) := by
  induction n generalizing c with
  | zero => exact Or.inl ⟨c, rfl, h⟩
  | succ n ih =>
    simp only [Par.run]
    rcases h.step hx with ⟨c', h1, h2⟩ | h1
    · rw [h1]
      exact ih h2
    · right
      cases h2 : Par.step idx p c with
      | more c' => rw [h2] at h1; cases h1
      | done r c' => rw [h2] at h1; exact h1
      | panic => rw [h2] at h1; exact h1

theorem ctx_of_makes {o : Seeds} (ho : o.Fair) {ws : List Warning} (hok : (gram rules start).Ok)
    (h : MakesParser o rules start p ws) : ∃ fresh, Ctx p rules start fresh := by
  obtain ⟨⟨fuel, h1, _⟩, d, h2⟩ := h
  have := ((new_spec ho hok fuel).1 _ ws h1).1
  refine ⟨freshSym (gram rules start).rules, hok, ?_, ?_, ⟨_, h2⟩⟩
  · rintro ⟨r, hr, h⟩
    have := freshSym_spec (gram rules start).rules r hr
    rcases h with h | h
    · exact this.1 h
    · exact this.2 h
  · have hl : (gram rules start).rules.length = rules.length := by simp [gram]
    rw [← hl]
    exact this

/-- No error rules, no error symbol is ever expected. -/
theorem no_err_expected (hn : (gram rules start).NoError) : ¬ ∃ γ0, Expects ((gram rules start).aug fresh) rules.length γ0 (.tm .err) := by
  rintro ⟨γ0, i, rule, _, h1, h2⟩
  have hm := List.mem_of_getElem? h2
  rcases List.mem_append.1 (List.mem_of_getElem? h1) with h3 | h3
  · exact hn rule h3 hm
  · simp at h3
    subst h3
    simp at hm

end Verif.Par
