import Verif.Par.UpperMain
import Verif.Props.ParSettled

/-!
# Property C84: error recovery takes at most exponential time
-/

namespace Verif.Par

variable {N T E : Type}

theorem bare_exponential {g : Gram} (hok : g.Ok) (hfr : g.Fruitful) (ha : g.ErrorsApart) {o : Seeds}
    (ho : o.Fair) {p : Parser Unit Nat Unit} (hm : MakesParser o (bareRules g) g.start p []) (hg : ∀ r ∈ p.rules, ∀ l, ∃ v, r.gen l = .ok v) :
    ∃ C, ∀ input : List Nat, ∃ n, n ≤ C ^ (input.length + 1) ∧ ∀ c', run id p n (Cfg.init p input) ≠ .more c' := by
  have e := bare_gram g
  have hl : (bareRules g).length = g.rules.length := by simp [bareRules]
  obtain ⟨B, hB⟩ := phase_bound p
  obtain ⟨fresh, hx, hwarn⟩ : ∃ fresh, Ctx p (bareRules g) g.start fresh ∧
      WarnExact ((gram (bareRules g) g.start).aug fresh) (bareRules g).length [] := by
    obtain ⟨⟨fuel, h1, _⟩, d, h2⟩ := hm
    have hok' : (gram (bareRules g) g.start).Ok := by rw [e]; exact hok
    have hs := (new_spec ho hok' fuel).1 _ _ h1
    have hl' : (gram (bareRules g) g.start).rules.length = (bareRules g).length := by simp [gram]
    refine ⟨freshSym (gram (bareRules g) g.start).rules, ⟨hok', freshSym_unused _, ?_, ⟨_, h2⟩⟩, ?_⟩
    · rw [← hl']; exact hs.1
    · rw [← hl']; exact hs.2.1
  have hf : ¬ g.Used fresh := by have := hx.unused; rwa [e] at this
  have hends : ∀ input : List Nat, ∃ m, ∀ c', run id p m (Cfg.init p input) ≠ .more c' := by
    intro input
    rcases c44_errors_apart o ho (bareRules g) g.start (by rw [e]; exact hok) (by rw [e]; exact hfr) (by rw [e]; exact ha) p hm id input with
      ⟨x, c, n, hn⟩ | ⟨_, n, hn⟩
    · exact ⟨n, fun c' h => by rw [hn] at h; cases h⟩
    · exact ⟨n, fun c' h => by rw [hn] at h; cases h⟩
  have hap : ∀ γ, ¬ PlaceAt ((gram (bareRules g) g.start).aug fresh) (bareRules g).length (γ ++ [.tm .err]) := by
    rintro γ ⟨r, hr⟩
    rw [e, hl, Gram.errRule_iff hfr hf] at hr
    exact ha.runs hfr γ r hr
  have hcalm : Calm0 (bareRules g) ((gram (bareRules g) g.start).aug fresh) (bareRules g).length g.start ⟨fresh, [.nt g.start]⟩ :=
    hx.calm0 hwarn (by rw [e]; exact hfr) fun γ r => ⟨1, fun h => hap γ ⟨r, h⟩⟩
  obtain ⟨m0, hm0⟩ := hends []
  generalize hK : (B + 1) * (2 + (B + 1) * (2 * B + 6)) + 1 = K
  refine ⟨K * (2 * B + 6) + m0, fun input => ?_⟩
  by_cases hne : input = []
  · subst hne
    exact ⟨m0, by simp, hm0⟩
  have hnp : ∀ n, run id p n (Cfg.init p input) ≠ .panic := by
    intro n h
    exact c29_no_panic o ho (bareRules g) g.start (by rw [e]; exact hok) p [] hm id input (Or.inl hne) ⟨n, h⟩
  refine ⟨(B + 1) * (2 + (B + 1) * (2 * B + 6) ^ (input.length + 2)) + 1, ?_, ?_⟩
  · have h1 : 1 ≤ (2 * B + 6) ^ (input.length + 1) := Nat.pow_pos (by omega)
    have h2 : (B + 1) * (2 + (B + 1) * (2 * B + 6) ^ (input.length + 2)) + 1 ≤ K * (2 * B + 6) ^ (input.length + 1) := by
      rw [← hK, Nat.pow_succ _ (input.length + 1)]
      generalize (2 * B + 6) ^ (input.length + 1) = x at *
      have h3 : ((B + 1) * (2 + (B + 1) * (2 * B + 6)) + 1) * x = (B + 1) * (2 * x + (B + 1) * (x * (2 * B + 6))) + x := by
        rw [Nat.add_mul _ 1, Nat.one_mul, Nat.mul_assoc, Nat.add_mul 2, Nat.mul_assoc (B + 1), Nat.mul_comm x]
      rw [h3]
      have h4 : 2 + (B + 1) * (x * (2 * B + 6)) ≤ 2 * x + (B + 1) * (x * (2 * B + 6)) := by omega
      have := Nat.mul_le_mul_left (B + 1) h4
      omega
    have hK1 : 1 ≤ K := by omega
    calc _ ≤ K * (2 * B + 6) ^ (input.length + 1) := h2
      _ ≤ K ^ (input.length + 1) * (2 * B + 6) ^ (input.length + 1) := by
        refine Nat.mul_le_mul_right _ ?_
        rw [Nat.pow_succ]
        exact Nat.le_mul_of_pos_left _ (Nat.pow_pos hK1)
      _ = (K * (2 * B + 6)) ^ (input.length + 1) := (Nat.mul_pow _ _ _).symm
      _ ≤ _ := Nat.pow_le_pow_left (by omega) _
  · intro c' h
    have h3 := busy_exp hx hcalm hap hg hB hnp (hends input) _ 0 (Cfg.init p input) c' Mach.init 1 rfl h MachSim.init Inv3.init
    have h4 := busy_pays hg hB hnp (hends input) _ 0 (Cfg.init p input) c' rfl h
    have h5 : heap (2 * B + 6) input.length (Mach.init : Mach Unit Nat).seen (Mach.init : Mach Unit Nat).pieces +
        aheadWt (2 * B + 6) B input.length (Mach.init : Mach Unit Nat).pos 1 = (2 * B + 6) ^ (input.length + 2) := by
      simp [heap, Mach.init, aheadWt]
    rw [h5] at h3
    have h6 : (Cfg.init p input).states.length = 1 := by simp [Cfg.states, Cfg.init]
    rw [h6] at h4
    generalize busy id p ((B + 1) * (2 + (B + 1) * (2 * B + 6) ^ (input.length + 2)) + 1) (Cfg.init p input) = u at *
    have h7 := Nat.mul_le_mul_left (B + 1) h3
    have h8 := Nat.mul_le_mul_left (B + 1) (show 1 + (B + 1) * u + 1 ≤ 2 + (B + 1) * (2 * B + 6) ^ (input.length + 2) by omega)
    omega

/-- C84: if no error symbol can follow another, then there is a constant `C` such that every parser made from the grammar without warnings,
whatever the hash seeds and the callbacks, ends after at most `C ^ (n + 1)` rounds on every input of `n` tokens. -/
theorem c84_exponential_bound (g : Gram) (hok : g.Ok) (hfr : g.Fruitful) (ha : g.ErrorsApart) :
    ∃ C, ∀ (N T E : Type) (o : Seeds) (_ : o.Fair) (rules : List (Rule N T E)) (_ : gram rules g.start = g) (p : Parser N T E)
      (_ : MakesParser o rules g.start p []) (idx : T → Nat) (input : List T),
      ∃ n, n ≤ C ^ (input.length + 1) ∧ ((∃ x c, run idx p n (Cfg.init p input) = .done x c ∧ c.log.length ≤ n) ∨
        (input = [] ∧ run idx p n (Cfg.init p input) = .panic)) :=
  bare_lift hok (f := fun C n => C ^ (n + 1)) fun _ _ ho hm hg => bare_exponential hok hfr ha ho hm hg

/-- C84: for the grammar of C82 the number of calls of callbacks lies between two exponentials, for inputs of all sizes `5 n + 11`. -/
theorem c84_between : ∃ C, ∀ n, ∃ (input : List Nat) (x : Except (PErr Nat) Nat) (c : Cfg Nat Nat), input.length = 5 * n + 11 ∧ ParsesTo id pDo input x c ∧
    2 ^ (n + 2) ≤ c.log.length ∧ c.log.length ≤ C ^ (input.length + 1) := by
  obtain ⟨C, hC⟩ := c84_exponential_bound gDo (by decide) gDo_fruitful gDo_apart
  refine ⟨C, fun n => ?_⟩
  obtain ⟨_, h1, x, c, h2, h3⟩ := c82_exponential idSeeds idSeeds_fair (plainRules gDo) rfl pDo [] pDo_makes id n (nest (n + 2) ++ [1]) (List.map_id _)
  refine ⟨nest (n + 2) ++ [1], x, c, by rw [h1]; omega, h2, ?_, ?_⟩
  · rcases h3 with ⟨e, rfl⟩ | h3
    · obtain ⟨r, args, _, rule, _, h5, h6, _⟩ := (c30_first_failure idSeeds idSeeds_fair (plainRules gDo) 0 (by decide) pDo [] pDo_makes id _ _ c h2).1 e rfl
      have hr := List.mem_of_getElem? h5
      simp only [plainRules, List.mem_map] at hr
      obtain ⟨r', _, rfl⟩ := hr
      cases h6
    · exact h3
  · obtain ⟨m, k1, k2⟩ := hC _ _ _ idSeeds idSeeds_fair (plainRules gDo) rfl pDo pDo_makes id (nest (n + 2) ++ [1])
    rcases k2 with ⟨x', c', k2, k3⟩ | ⟨k2, _⟩
    · obtain ⟨_, rfl⟩ := ParsesTo.unique h2 ⟨m, k2⟩
      omega
    · simp at k2

end Verif.Par
