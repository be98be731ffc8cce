import Verif.Par.ExpProof
import Verif.Props.ParRightmost
import Verif.Props.ParLL1
import Verif.Props.ParLinear
import Verif.Props.ParComplete

/-!
# C82: error recovery can take exponential time
-/

namespace Verif.Par

variable {N T E : Type}

theorem gDo_fruitful : gDo.Fruitful := c71_ranked _ (fun n => if n == 2 then 1 else 0) (by decide)

theorem gDo_apart : gDo.ErrorsApart := by
  intro r hr α β hαβ ρ hd
  have hβ : β = [.tm (.sym 1)] := by
    simp only [gDo, List.mem_cons, List.not_mem_nil, or_false] at hr
    rcases hr with rfl | rfl | rfl | rfl | rfl | rfl <;> rcases α with _ | ⟨Z, _ | ⟨Z', _ | ⟨Z'', α⟩⟩⟩ <;> simp at hαβ
    exact hαβ.symm
  subst hβ
  obtain ⟨v, h1, _⟩ := (gen_iff.2 hd).terminal
  cases h1

theorem step_grows (idx : T → Nat) (p : Parser N T E) (c c' : Cfg N T) (h : step idx p c = .more c' ∨ ∃ x, step idx p c = .done x c') :
    c.log.length ≤ c'.log.length := by
  have hl : (fill idx c).log = c.log := by
    unfold fill
    split
    · rfl
    · split <;> rfl
  unfold step at h
  rw [← hl]
  generalize fill idx c = d at h
  simp only at h
  split at h
  · simp at h
  split at h
  · simp at h
  split at h
  · split at h <;> simp at h <;> subst h <;> simp
  · unfold onReduce at h
    split at h
    · simp at h
    split at h
    · simp at h
    simp only at h
    split at h
    · simp at h
    split at h
    · simp at h; rw [← h]; simp
    split at h
    · simp at h
    · simp at h; rw [← h]; simp
  · split at h
    · simp at h; rw [← h]; omega
    · simp at h
  · unfold onError at h
    split at h
    · simp at h; rw [← h]; simp
    split at h
    · simp at h
    split at h
    · simp at h
    split at h
    · simp at h; rw [← h]; simp
    · simp at h

theorem run_grows (idx : T → Nat) (p : Parser N T E) (n : Nat) : ∀ (c c' : Cfg N T),
    (run idx p n c = .more c' ∨ ∃ x, run idx p n c = .done x c') → c.log.length ≤ c'.log.length := by
  induction n with
  | zero => intro c c' h; simp [run] at h; subst h; exact Nat.le_refl _
  | succ n ih =>
    intro c c' h
    simp only [run] at h
    cases hs : step idx p c with
    | panic => simp [hs] at h
    | done x c1 =>
      have := step_grows idx p c c1 (Or.inr ⟨x, hs⟩)
      simp [hs] at h
      subst h
      exact this
    | more c1 =>
      have h1 := step_grows idx p c c1 (Or.inl hs)
      simp only [hs] at h
      exact Nat.le_trans h1 (ih c1 c' h)

/-- What was called before the end was called in the end. -/
theorem ends_grown {idx : T → Nat} {p : Parser N T E} {input : List T} {m : Nat} {c c' : Cfg N T} {x : Except (PErr E) N}
    (h : run idx p m (Cfg.init p input) = .more c) (h' : ParsesTo idx p input x c') : c.log.length ≤ c'.log.length := by
  obtain ⟨n, h'⟩ := h'
  rcases Nat.le_total m n with hle | hle
  · have := run_add (idx := idx) (p := p) m (n - m) (Cfg.init p input)
    rw [h, Nat.add_sub_cancel' hle, h'] at this
    exact run_grows idx p _ _ _ (.inr ⟨x, this.symm⟩)
  · have := run_add (idx := idx) (p := p) n (m - n) (Cfg.init p input)
    rw [h', Nat.add_sub_cancel' hle, h] at this
    cases this

/-- C82: statements `e ;`, `{ … } w ;` (as in `do { … } while (…);`) and `error ;`: whatever the hash seeds and the callbacks, on
`n + 2` blocks inside of each other, where the `;` is missing behind all but the outermost `w`, `parse` ends, but if no callback
fails it makes at least `2ⁿ⁺²` calls of callbacks. -/
theorem c82_exponential (o : Seeds) (ho : o.Fair) (rules : List (Rule N T E)) (hr : gram rules 0 = gDo)
    (p : Parser N T E) (ws : List Warning) (hm : MakesParser o rules 0 p ws) (idx : T → Nat) (n : Nat) (input : List T)
    (hi : input.map idx = nest (n + 2) ++ [1]) :
    ws = [] ∧ input.length = 5 * (n + 2) + 1 ∧
    ∃ x c, ParsesTo idx p input x c ∧ ((∃ e, x = .error (.reducer e)) ∨ 2 ^ (n + 2) ≤ c.log.length) := by
  have hok : gDo.Ok := by decide
  have hws : ws = [] := by
    have h1 : NewGives o gDo (.ok (p.tab, ws)) := hr ▸ hm.1
    have h2 : NewGives idSeeds gDo (.ok (pDo.tab, [])) := pDo_makes.1
    have := c32_warnings_perm o idSeeds ho idSeeds_fair gDo hok _ _ _ _ h1 h2
    exact List.perm_nil.1 this
  subst hws
  have hlen : input.length = 5 * (n + 2) + 1 := by
    have := congrArg List.length hi
    rw [List.length_map] at this
    rw [this]
    exact doInput_length (n + 2)
  have hne : input ≠ [] := by intro h; rw [h] at hlen; simp at hlen
  refine ⟨rfl, hlen, ?_⟩
  rcases c44_errors_apart o ho rules 0 (by rw [hr]; exact hok) (by rw [hr]; exact gDo_fruitful) (by rw [hr]; exact gDo_apart) p hm idx input with
    ⟨x, c, k, hk⟩ | ⟨h, _⟩
  · refine ⟨x, c, ⟨k, hk⟩, ?_⟩
    by_cases hx : ∃ e, x = .error (.reducer e)
    · exact .inl hx
    right
    have hbare : plains rules = plains (plainRules gDo) := by
      rw [plains_bare (g := gDo) hr, plains_bare (g := gDo) rfl]
    have h1 := run_plainify (idx := idx) (p := p) k input
    rw [hk] at h1
    have hp : ∃ x' : Except (PErr Unit) Unit, ParsesTo id (plainify p) (input.map idx) x' (c.map (fun _ => ()) idx) := by
      cases x with
      | ok v => exact ⟨_, k, h1⟩
      | error e =>
        cases e with
        | noRecovery => exact ⟨_, k, h1⟩
        | reducer e => exact absurd ⟨e, rfl⟩ hx
    obtain ⟨x', hp⟩ := hp
    have hmp := makes_plainify hm
    have hmq := makes_plainify pDo_makes
    rw [hbare] at hmp
    obtain ⟨c2, h2, h3, _⟩ := ((c32_same_outcome o idSeeds ho idSeeds_fair (plains (plainRules gDo)) 0 (by rw [plains_gram]; exact hok) _ _ _ _
      hmp hmq id (input.map idx)).1 _ _ _).1 ⟨_, hp, rfl, rfl⟩
    obtain ⟨m, c3, h4, h5⟩ := do_calls n
    have h6 := run_plainify (idx := id) (p := pDo) m (doInput (n + 2))
    rw [h4, List.map_id] at h6
    rw [hi] at h2
    have h7 := ends_grown h6 h2
    rw [h3] at h7
    simp only [Cfg.map, List.length_map] at h7
    omega
  · exact absurd h hne

/-- Powers of two outgrow all powers. -/
theorem pow_outgrows (C k : Nat) : ∃ n, C * (5 * (n + 2) + 2) ^ k < 2 ^ (n + 2) := by
  have sq : ∀ j, j * j + 9 * j + 20 < 2 ^ (j + 5) := by
    intro j
    induction j with
    | zero => decide
    | succ j ih => rw [show j + 1 + 5 = (j + 5) + 1 by omega, Nat.pow_succ, Nat.add_mul, Nat.mul_add]; omega
  -- `2 ^ j` for a large `j`
  have h1 := sq (C + k)
  refine ⟨2 ^ (C + k + 5) - 2, ?_⟩
  have hd : 2 ^ (C + k + 5) - 2 + 2 = 2 ^ (C + k + 5) := by omega
  rw [hd]
  have h2 : 5 * 2 ^ (C + k + 5) + 2 ≤ 2 ^ (C + k + 8) := by
    rw [show C + k + 8 = (C + k + 5) + 3 by omega, Nat.pow_add 2 (C + k + 5) 3]
    omega
  have h3 : (5 * 2 ^ (C + k + 5) + 2) ^ k ≤ 2 ^ ((C + k + 8) * k) := by
    rw [Nat.pow_mul]
    exact Nat.pow_le_pow_left h2 k
  have h4 : C < 2 ^ C := Nat.lt_two_pow_self
  have h5 : C * (5 * 2 ^ (C + k + 5) + 2) ^ k < 2 ^ C * 2 ^ ((C + k + 8) * k) :=
    Nat.lt_of_le_of_lt (Nat.mul_le_mul_left C h3) (Nat.mul_lt_mul_of_pos_right h4 (Nat.pow_pos (by omega)))
  rw [← Nat.pow_add] at h5
  refine Nat.lt_of_lt_of_le h5 (Nat.pow_le_pow_right (by omega) ?_)
  have h6 : (C + k + 8) * k ≤ (C + k + 8) * (C + k) := Nat.mul_le_mul_left _ (by omega)
  rw [Nat.add_mul (C + k) 8 (C + k)] at h6
  omega

/-- C82: so there is no polynomial bound on the number of calls, although the grammar has no warnings, `parse` ends on every input
(C44) and what follows an `error` is a single token. -/
theorem c82_no_polynomial (o : Seeds) (ho : o.Fair) (rules : List (Rule N Nat E)) (hr : gram rules 0 = gDo)
    (htot : ∀ r ∈ rules, ∀ args, ∃ v, r.gen args = .ok v) (p : Parser N Nat E) (ws : List Warning) (hm : MakesParser o rules 0 p ws) :
    ¬ ∃ C k, ∀ input x c, ParsesTo id p input x c → c.log.length ≤ C * (input.length + 1) ^ k := by
  rintro ⟨C, k, h⟩
  obtain ⟨n, hn⟩ := pow_outgrows C k
  obtain ⟨_, h1, x, c, h2, h3⟩ := c82_exponential o ho rules hr p ws hm id n (nest (n + 2) ++ [1]) (List.map_id _)
  have h4 := h _ x c h2
  rw [h1] at h4
  rcases h3 with ⟨e, rfl⟩ | h3
  · obtain ⟨r, args, _, rule, _, h5, h6, _⟩ := (c30_first_failure o ho rules 0 (by rw [hr]; decide) p ws hm id _ _ c h2).1 e rfl
    obtain ⟨v, hv⟩ := htot rule (List.mem_of_getElem? h5) args
    rw [hv] at h6
    cases h6
  · exact absurd (Nat.lt_of_lt_of_le hn (Nat.le_trans h3 h4)) (Nat.lt_irrefl _)

/-! ## Examples -/

/-- There are such parsers: `pDo` (and one for all hash seeds by C20 and C32).  The smallest input of the family, and the same with
all `;`. -/
example : MakesParser idSeeds (plainRules gDo) 0 pDo [] ∧ nest 2 ++ [1] = [2, 0, 1, 2, 0, 1, 3, 4, 3, 4, 1] ∧
    (∃ c, ParsesTo id pDo [2, 0, 1, 2, 0, 1, 3, 4, 3, 4, 1] (.ok 2) c ∧ c.log.length = 19) ∧
    ∃ c, ParsesTo id pDo [2, 0, 1, 2, 0, 1, 3, 4, 1, 3, 4, 1] (.ok 2) c ∧ c.log.length = 13 :=
  ⟨pDo_makes, rfl, ⟨_, ⟨60, rfl⟩, rfl⟩, ⟨_, ⟨60, rfl⟩, rfl⟩⟩

end Verif.Par
