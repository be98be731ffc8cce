import Verif.Par.LinearProof
import Verif.Par.QuadProof
import Verif.Props.ParSeeds

/-!
# Property C52: parsing takes linear time
-/

namespace Verif.Par

variable {N T E : Type}

/-- The rules of a grammar with callbacks that do nothing. -/
def bareRules (g : Gram) : List (Rule Unit Nat Unit) := g.rules.map fun r => ⟨r.lhs, r.rhs, fun _ => .ok ()⟩

theorem bare_gram (g : Gram) : gram (bareRules g) g.start = g := by
  cases g
  simp [gram, bareRules, Rule.plain, Function.comp_def]

theorem plains_bare {g : Gram} {rules : List (Rule N T E)} (h : gram rules g.start = g) : plains rules = bareRules g := by
  rw [← h]
  simp [plains, bareRules, gram, Rule.plain, Function.comp_def]

theorem bare_linear {g : Gram} (hok : g.Ok) (hn : g.NoError) (hp : g.Productive) {o : Seeds} (ho : o.Fair)
    {p : Parser Unit Nat Unit} (hm : MakesParser o (bareRules g) g.start p []) (hg : ∀ r ∈ p.rules, ∀ l, ∃ v, r.gen l = .ok v) :
    ∃ C, ∀ input : List Nat, ∃ n, n ≤ C * (input.length + 1) ∧ ∀ c', run id p n (Cfg.init p input) ≠ .more c' := by
  have e := bare_gram g
  obtain ⟨B, hB⟩ := phase_bound p
  refine ⟨(B + 1) * (B + 4), fun input => ?_⟩
  obtain ⟨fresh, hx⟩ := ctx_of_makes ho (by rw [e]; exact hok) hm
  have hreach : ∀ n c, run id p n (Cfg.init p input) = .more c → Reach p (bareRules g) id input g.start fresh c := by
    intro n c hr
    rcases Reach.run (idx := id) hx (Reach.init (input := input)) n with ⟨c', h1, h2⟩ | h1
    · rw [hr] at h1; cases h1; exact h2
    · rw [hr] at h1; cases h1
  refine linear hg hB ?_ ?_ ?_ ?_
  · intro n h
    exact c29_no_panic o ho (bareRules g) g.start (by rw [e]; exact hok) p [] hm id input (Or.inr (by rw [e]; exact hn)) ⟨n, h⟩
  · exact makes_ends ho (by rw [e]; exact hok) hm (by rw [e]; exact hn) (by rw [e]; exact hp) id input
  · intro n c hr
    exact c31_pulls o ho (bareRules g) g.start (by rw [e]; exact hok) p [] hm id input n c (Or.inl hr)
  · intro n c hr q lo hi st hst
    cases n with
    | zero => cases hr; simp [Cfg.init] at hst
    | succ n =>
      rw [run_add n 1] at hr
      cases hr0 : run id p n (Cfg.init p input) with
      | panic => rw [hr0] at hr; cases hr
      | done r c0 => rw [hr0] at hr; cases hr
      | more c0 =>
        rw [hr0] at hr
        have hs : step id p c0 = .more c := by
          simp only [run] at hr
          cases hs : step id p c0 <;> rw [hs] at hr <;> simp_all
        obtain ⟨j, γ, fs, lg, as, hi, he⟩ := hreach n c0 hr0
        obtain ⟨a, m1, m2, m3, m4⟩ := step_cases hx hi
        rw [hs] at m4
        rcases m4 with ⟨t, s, n1, n2, n3, n4, n5⟩ | ⟨r, n1, n2⟩ | ⟨v, n1, n2, n3, n4, ⟨f, n5⟩, n6, n7⟩ | ⟨n1, n2 | ⟨c', j', γ', fs', lg', as', n2, n3, n4, n5, n6, n7, n8, n9, _⟩⟩
        · cases n4
          simp [Cfg.shifted] at hst
        · obtain ⟨q', i, v, st', h⟩ : ∃ q' i v st', c.stack = (q', .nt v i) :: st' := by
            unfold onReduce at n2
            split at n2
            · cases n2
            split at n2
            · cases n2
            simp only at n2
            split at n2
            · cases n2
            split at n2
            · cases n2
            split at n2
            · cases n2
            cases n2
            exact ⟨_, _, _, _, rfl⟩
          rw [hst] at h
          cases h
        · cases n7
        · cases n2
        · exact no_err_expected (fresh := fresh) (by rw [e]; exact hn) n9

theorem step_log (idx : T → Nat) (p : Parser N T E) (c c' : Cfg N T) (h : step idx p c = .more c' ∨ ∃ x, step idx p c = .done x c') :
    c'.log.length ≤ c.log.length + 1 := by
  have hl : (fill idx c).log = c.log := by
    unfold fill
    split
    · rfl
    · split <;> rfl
  unfold step at h
  rw [← hl]
  generalize fill idx c = d at h
  simp only at h
  split at h
  · simp at h
  split at h
  · simp at h
  split at h
  · split at h <;> simp at h <;> subst h <;> simp
  · unfold onReduce at h
    split at h
    · simp at h
    split at h
    · simp at h
    simp only at h
    split at h
    · simp at h
    split at h
    · simp at h; rw [← h]; simp
    split at h
    · simp at h
    · simp at h; rw [← h]; simp
  · split at h
    · simp at h; rw [← h]; omega
    · simp at h
  · unfold onError at h
    split at h
    · simp at h; rw [← h]; simp
    split at h
    · simp at h
    split at h
    · simp at h
    split at h
    · simp at h; rw [← h]; simp
    · simp at h

theorem log_le (idx : T → Nat) (p : Parser N T E) (n : Nat) : ∀ (c c' : Cfg N T),
    (run idx p n c = .more c' ∨ ∃ x, run idx p n c = .done x c') → c'.log.length ≤ c.log.length + n := by
  induction n with
  | zero => intro c c' h; simp [run] at h; subst h; simp
  | succ n ih =>
    intro c c' h
    simp only [run] at h
    cases hs : step idx p c with
    | panic => simp [hs] at h
    | done x c1 =>
      have := step_log idx p c c1 (Or.inr ⟨x, hs⟩)
      simp [hs] at h
      subst h
      omega
    | more c1 =>
      have h1 := step_log idx p c c1 (Or.inl hs)
      simp only [hs] at h
      have := ih c1 c' h
      omega

/-- C52: for every grammar without error rules, in which every non-terminal that can be reached derives some token string, there is a
constant `C` such that every parser made from it without warnings, whatever the hash seeds and the callbacks, ends after at most
`C * (n + 1)` rounds on every input of `n` tokens; in particular it makes no more calls of callbacks. -/
theorem c52_linear (g : Gram) (hok : g.Ok) (hn : g.NoError) (hp : g.Productive) :
    ∃ C, ∀ (N T E : Type) (o : Seeds) (_ : o.Fair) (rules : List (Rule N T E)) (_ : gram rules g.start = g) (p : Parser N T E)
      (_ : MakesParser o rules g.start p []) (idx : T → Nat) (input : List T),
      ∃ n x c, n ≤ C * (input.length + 1) ∧ run idx p n (Cfg.init p input) = .done x c ∧ c.log.length ≤ n := by
  by_cases hex : ∃ (o : Seeds) (p : Parser Unit Nat Unit), o.Fair ∧ MakesParser o (bareRules g) g.start p [] ∧ ∀ r ∈ p.rules, ∀ l, ∃ v, r.gen l = .ok v
  · obtain ⟨o0, p0, ho0, hm0, hg0⟩ := hex
    obtain ⟨C, hC⟩ := bare_linear hok hn hp ho0 hm0 hg0
    refine ⟨C, ?_⟩
    intro N T E o ho rules hr p hm idx input
    obtain ⟨n, h1, h2⟩ := hC (input.map idx)
    have hmp := makes_plainify hm
    rw [plains_bare hr] at hmp
    have hnm : ∀ c, run idx p n (Cfg.init p input) ≠ .more c := by
      intro c hc
      have h3 := run_plainify (idx := idx) (p := p) n input
      rw [hc] at h3
      simp only [Step.Mim] at h3
      obtain ⟨⟨fuel, hp1, _⟩, d, hp2⟩ := hmp
      obtain ⟨⟨fuel', hp1', _⟩, d', hp2'⟩ := hm0
      have hok' : (gram (bareRules g) g.start).Ok := by rw [bare_gram]; exact hok
      have ha := ((new_spec ho hok' fuel).1 _ _ hp1).1
      have hb := ((new_spec ho0 hok' fuel').1 _ _ hp1').1
      have h4 := run_rel (p := plainify p) (p' := p0) (idx := id) ha hb (by
        intro r rule hr hs
        have hl := (List.getElem?_eq_some_iff.1 hr).1
        rw [rules'_length] at hl
        have : r < (bareRules g).length := by
          simp only [gram, List.length_map] at hl hs
          omega
        rw [hp2, hp2', List.getElem?_append_left this, List.getElem?_append_left this]) (init_rel (input.map idx)) n
      rw [h3] at h4
      generalize hy : run id p0 n (Cfg.init p0 (input.map idx)) = y at h4
      cases h4 with
      | more _ c' _ => exact h2 c' hy
    rw [List.length_map] at h1
    cases hrun : run idx p n (Cfg.init p input) with
    | more c => exact absurd hrun (hnm c)
    | panic => exact absurd ⟨n, hrun⟩ (c29_no_panic o ho rules g.start (by rw [hr]; exact hok) p [] hm idx input (Or.inr (by rw [hr]; exact hn)))
    | done x c => exact ⟨n, x, c, h1, hrun, by simpa [Cfg.init] using log_le idx p n _ c (Or.inr ⟨x, hrun⟩)⟩
  · refine ⟨0, ?_⟩
    intro N T E o ho rules hr p hm idx input
    refine absurd ⟨o, plainify p, ho, ?_, ?_⟩ hex
    · rw [← plains_bare hr]; exact makes_plainify hm
    · intro r h l
      simp only [plainify, List.mem_map] at h
      obtain ⟨r', _, rfl⟩ := h
      exact ⟨(), rfl⟩

/-- C52, the role of `NoError`: for `L → ε | L A c | L error | L b`, `A → a | A a` the parser is made without warnings, but on
`aⁿ b` it makes `n (n + 1) / 2 + 2` calls of callbacks, because after each error all tokens but one are read again. -/
theorem c52_recovery_quadratic : MakesParser idSeeds (plainRules gQuad) 0 pQuad [] ∧
    (∀ n, ∃ c, ParsesTo id pQuad (List.replicate n 0 ++ [1]) (.ok 2) c ∧ c.log.length = n * (n + 1) / 2 + 2) ∧
    ¬ ∃ C, ∀ input : List Nat, ∃ n x c, n ≤ C * (input.length + 1) ∧ run id pQuad n (Cfg.init pQuad input) = .done x c ∧ c.log.length ≤ n := by
  refine ⟨pQuad_makes, quad_run, ?_⟩
  rintro ⟨C, hC⟩
  obtain ⟨n, x, c, h1, h2, h3⟩ := hC (quadInput (2 * C + 2))
  obtain ⟨c', ⟨m, h4⟩, h5⟩ := quad_run (2 * C + 2)
  have h6 : c = c' := by
    rcases Nat.le_total n m with h | h
    · have := run_add (idx := id) (p := pQuad) n (m - n) (Cfg.init pQuad (quadInput (2 * C + 2)))
      rw [h2, Nat.add_sub_cancel' h, h4] at this
      cases this; rfl
    · have := run_add (idx := id) (p := pQuad) m (n - m) (Cfg.init pQuad (quadInput (2 * C + 2)))
      rw [h4, Nat.add_sub_cancel' h, h2] at this
      cases this; rfl
  subst h6
  have h7 : (quadInput (2 * C + 2)).length = 2 * C + 3 := by simp [quadInput]
  rw [h7] at h1
  rw [show (2 * C + 2) * (2 * C + 2 + 1) = 2 * ((C + 1) * (2 * C + 3)) by rw [show 2 * C + 2 = 2 * (C + 1) by omega, Nat.mul_assoc]; rfl,
    Nat.mul_div_cancel_left _ (by omega)] at h5
  have e1 : C * (2 * C + 3 + 1) = 2 * (C * C) + 4 * C := by
    rw [Nat.mul_add, Nat.mul_add, ← Nat.mul_assoc, Nat.mul_comm C 2, Nat.mul_assoc]; omega
  have e2 : (C + 1) * (2 * C + 3) = 2 * (C * C) + 5 * C + 3 := by
    rw [Nat.add_mul, Nat.mul_add, ← Nat.mul_assoc, Nat.mul_comm C 2, Nat.mul_assoc]; omega
  omega

/-! ## Examples -/

/-- The hypotheses are met by `S → a S | b`. -/
example : ∃ C, ∀ input : List Nat, ∃ n x c, n ≤ C * (input.length + 1) ∧ run id pRight n (Cfg.init pRight input) = .done x c := by
  obtain ⟨C, hC⟩ := c52_linear gRight (by decide) (by unfold Gram.NoError; decide) gRight_productive
  refine ⟨C, fun input => ?_⟩
  obtain ⟨n, x, c, h1, h2, _⟩ := hC Nat Nat Nat idSeeds idSeeds_fair rRight rfl pRight pRight_makes id input
  exact ⟨n, x, c, h1, h2⟩

end Verif.Par
