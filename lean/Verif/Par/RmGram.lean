import Verif.Par.RmProof
import Verif.Par.Machine

/-!
# Valid items of a grammar and its rightmost derivations
-/

namespace Verif.Par

variable {g : Gram} {fresh : Nat}

theorem Gram.aug_start : (g.aug fresh)[g.rules.length]? = some ⟨fresh, [.nt g.start]⟩ := by simp [Gram.aug]

theorem Gram.aug_get {r : Nat} {rule : PRule} (h : g.rules[r]? = some rule) : (g.aug fresh)[r]? = some rule ∧ r ≠ g.rules.length := by
  have hlt : r < g.rules.length := by rw [List.getElem?_eq_some_iff] at h; exact h.1
  exact ⟨by rw [Gram.aug, List.getElem?_append_left hlt, h], by omega⟩

theorem Gram.aug_get' {r : Nat} {rule : PRule} (h : (g.aug fresh)[r]? = some rule) (hr : r ≠ g.rules.length) : g.rules[r]? = some rule := by
  have hlt : r < g.rules.length := by
    rw [List.getElem?_eq_some_iff] at h
    have := h.1
    simp [Gram.aug] at this
    omega
  rw [Gram.aug, List.getElem?_append_left hlt] at h
  exact h

theorem Gram.aug_only (hf : ¬ g.Used fresh) : ∀ j r', (g.aug fresh)[j]? = some r' → r'.lhs = fresh → j = g.rules.length := by
  intro j r' h1 h2
  apply Classical.byContradiction
  intro hne
  exact hf ⟨r', List.mem_of_getElem? (aug_get' h1 hne), Or.inl h2⟩

theorem Gram.Fruitful.rule (hfr : g.Fruitful) : ∃ r ∈ g.rules, r.lhs = g.start := by
  obtain ⟨w, hw⟩ := hfr [] g.start [] (.refl _)
  rcases gen_single (gen_iff.2 hw) with h | ⟨r, h1, h2, _⟩
  · exfalso
    cases w with
    | nil => cases h
    | cons t w => cases h
  · exact ⟨r, h1, (Sym.nt.inj h2).symm⟩

theorem Gram.Fruitful.fresh_ne (hfr : g.Fruitful) (hf : ¬ g.Used fresh) : fresh ≠ g.start := by
  rintro rfl
  obtain ⟨r, h1, h2⟩ := hfr.rule
  exact hf ⟨r, h1, Or.inl h2⟩

/-- Derivations from the start symbol do not use the appended rule. -/
theorem Gram.gen_aug (hf : ¬ g.Used fresh) (hne : fresh ≠ g.start) {w : List Sym} (h : Gen (g.aug fresh) [.nt fresh] w) :
    w = [.nt fresh] ∨ Gen g.rules [.nt g.start] w := by
  rcases gen_single h with h | ⟨r, hr, h1, h2⟩
  · exact Or.inl h
  · right
    have hrr : r = ⟨fresh, [.nt g.start]⟩ := by
      rcases List.mem_append.1 hr with h' | h
      · exfalso
        cases h1
        exact hf ⟨r, h', Or.inl rfl⟩
      · simpa using h
    subst hrr
    refine Gen.drop_rule (r0 := ⟨fresh, [.nt g.start]⟩) ?_ h2 (by simpa using hne) (by simpa using hne)
    intro r hr hm
    exact hf ⟨r, hr, Or.inr hm⟩

theorem Gram.Fruitful.aug (hfr : g.Fruitful) (hf : ¬ g.Used fresh) : ∀ x n y,
    Gen (g.aug fresh) [.nt fresh, .tm .eoi] (x ++ .nt n :: y) → ∃ w, Gen (g.aug fresh) [.nt n] (tms w) := by
  have hne := hfr.fresh_ne hf
  have hmono : ∀ r ∈ g.rules, r ∈ g.aug fresh := fun r h => List.mem_append_left _ h
  intro x n y h
  obtain ⟨u, v, h1, h2, h3⟩ := h.split_cons
  obtain ⟨v', rfl, h4⟩ := h3.terminal
  have := h4.nil_left
  subst this
  have h1' : u ++ [] ++ tms [.eoi] = x ++ .nt n :: y := by simpa using h1.symm
  rcases nt_before h1' with ⟨c, k1, _⟩ | ⟨c, d, k1, _, _⟩
  · rcases g.gen_aug hf hne h2 with h5 | h5
    · rw [h5] at k1
      have : n = fresh := by
        cases x with
        | nil => simp at k1; exact k1.1.symm
        | cons Z x => cases x <;> simp at k1
      subst this
      obtain ⟨w, hw⟩ := hfr [] g.start [] (.refl _)
      exact ⟨w, (Gen.rule (r := ⟨n, [.nt g.start]⟩) (by simp [Gram.aug])).trans ((gen_iff.2 hw).mono hmono)⟩
    · rw [k1] at h5
      obtain ⟨w, hw⟩ := hfr x n c (gen_iff.1 h5)
      exact ⟨w, (gen_iff.2 hw).mono hmono⟩
  · simp at k1

theorem Gram.rm_aug (hf : ¬ g.Used fresh) (hne : fresh ≠ g.start) {n : Nat} {ζ : List Sym} (h : Rm (g.aug fresh) [.nt fresh, .tm .eoi] n ζ) :
    (n = 0 ∧ ζ = [.nt fresh, .tm .eoi]) ∨ ∃ n' ζ', n = n' + 1 ∧ ζ = ζ' ++ [.tm .eoi] ∧ Rm g.rules [.nt g.start] n' ζ' := by
  induction h with
  | zero => exact Or.inl ⟨rfl, rfl⟩
  | step n x r w h0 hr ih =>
    right
    rcases ih with ⟨rfl, h1⟩ | ⟨n', ζ', rfl, h1, h2⟩
    · refine ⟨0, [.nt g.start], rfl, ?_, .zero⟩
      cases x with
      | nil =>
        simp only [List.nil_append, List.cons.injEq, Sym.nt.injEq] at h1
        have hrr : r = ⟨fresh, [.nt g.start]⟩ := by
          rcases List.mem_append.1 hr with h' | h
          · exact absurd ⟨r, h', Or.inl h1.1⟩ hf
          · simpa using h
        subst hrr
        rw [h1.2]
        rfl
      | cons Z x =>
        cases x with
        | nil => simp at h1
        | cons Z' x => simp at h1
    · rcases List.eq_nil_or_concat w with rfl | ⟨w', t, rfl⟩
      · exfalso
        rw [show x ++ .nt r.lhs :: tms [] = x ++ [.nt r.lhs] from rfl] at h1
        have := (List.append_inj' h1 rfl).2
        cases this
      · have h1' : (x ++ .nt r.lhs :: tms w') ++ [.tm t] = ζ' ++ [.tm .eoi] := by simpa using h1
        obtain ⟨h3, h4⟩ := List.append_inj' h1' rfl
        simp only [List.cons.injEq, Sym.tm.injEq, and_true] at h4
        subst h4
        rw [← h3] at h2
        have hr' : r ∈ g.rules := by
          rcases List.mem_append.1 hr with h' | h
          · exact h'
          · exfalso
            simp at h
            subst h
            have hm := (gen_iff.1 h2.gen)
            have key : ∀ ζ, Derives g.rules [.nt g.start] ζ → Sym.nt fresh ∉ ζ := by
              intro ζ hd
              induction hd with
              | refl => simpa using hne
              | step a b r _ hr ih =>
                intro hm
                simp only [List.mem_append] at hm
                rcases hm with (hm | hm) | hm
                · exact ih (by simp [hm])
                · exact hf ⟨r, hr, Or.inr hm⟩
                · exact ih (by simp [hm])
            exact key _ hm (by simp)
        exact ⟨n' + 1, x ++ r.rhs ++ tms w', rfl, by simp, .step n' x r w' h2 hr'⟩

theorem Gram.rm_to_aug {n : Nat} {ζ : List Sym} (h : Rm g.rules [.nt g.start] n ζ) :
    Rm (g.aug fresh) [.nt fresh, .tm .eoi] (n + 1) (ζ ++ [.tm .eoi]) := by
  induction h with
  | zero =>
    have := Rm.step (R := g.aug fresh) (u := [.nt fresh, .tm .eoi]) 0 [] ⟨fresh, [.nt g.start]⟩ [.eoi] .zero (by simp [Gram.aug])
    simpa using this
  | step n x r w _ hr ih =>
    have hr' : r ∈ g.aug fresh := List.mem_append.2 (Or.inl hr)
    have := Rm.step (n + 1) x r (w ++ [.eoi]) (by simpa using ih) hr'
    simpa using this

/-- The items of the rules of the grammar. -/
theorem Gram.valid_iff (hfr : g.Fruitful) (hf : ¬ g.Used fresh) {γ : List Sym} {r k : Nat} {a : Term} (hr : r ≠ g.rules.length) :
    Valid (g.aug fresh) g.rules.length γ ⟨r, k, a⟩ ↔
      ∃ rule x v, g.rules[r]? = some rule ∧ g.Handle r x v ∧ k ≤ rule.rhs.length ∧ γ = x ++ rule.rhs.take k ∧ a = v.head?.getD .eoi := by
  have hne := hfr.fresh_ne hf
  constructor
  · intro h
    obtain ⟨rule, x, w, n, h1, h2, h3, h4⟩ := h.rm (r0 := ⟨fresh, [.nt g.start]⟩) Gram.aug_start (hfr.aug hf)
    simp only at h1 h2 h3 h4
    have h1' := aug_get' h1 hr
    rcases g.rm_aug hf hne h4 with ⟨rfl, h5⟩ | ⟨n', ζ', rfl, h5, h6⟩
    · exfalso
      have : rule.lhs = fresh := by
        cases x with
        | nil => simp only [List.nil_append, List.cons.injEq, Sym.nt.injEq] at h5; exact h5.1
        | cons Z x =>
          cases x with
          | nil => simp at h5
          | cons Z' x => simp at h5
      exact hf ⟨rule, List.mem_of_getElem? h1', Or.inl this⟩
    · obtain ⟨w', t, hw⟩ : ∃ w' t, a :: w = w' ++ [t] := by
        rcases List.eq_nil_or_concat (a :: w) with h | ⟨w', t, h⟩
        · cases h
        · exact ⟨w', t, by simpa using h⟩
      rw [hw] at h5
      have h5' : (x ++ .nt rule.lhs :: tms w') ++ [.tm t] = ζ' ++ [.tm .eoi] := by simpa using h5
      obtain ⟨h7, h8⟩ := List.append_inj' h5' rfl
      simp only [List.cons.injEq, Sym.tm.injEq, and_true] at h8
      subst h8
      refine ⟨rule, x, w', h1', ⟨rule, n', h1', by rw [h7]; exact h6⟩, h2, h3, ?_⟩
      cases w' with
      | nil => simp at hw; simp [hw]
      | cons b w' => simp at hw; simp [hw]
  · rintro ⟨rule, x, v, h1, ⟨rule', n, h2, h3⟩, h4, rfl, rfl⟩
    rw [h1] at h2
    cases h2
    have h5 := Gram.rm_to_aug (fresh := fresh) h3
    obtain ⟨w, hw⟩ : ∃ w, v ++ [.eoi] = v.head?.getD .eoi :: w := by
      cases v with
      | nil => exact ⟨[], rfl⟩
      | cons b v => exact ⟨v ++ [.eoi], rfl⟩
    have h6 : Rm (g.aug fresh) [.nt fresh, .tm .eoi] (n + 1) (x ++ .nt rule.lhs :: tms (v.head?.getD .eoi :: w)) := by
      rw [← hw]; simpa using h5
    exact Rm.valid_at (r0 := ⟨fresh, [.nt g.start]⟩) (g.aug_only hf) (aug_get h1).1 h6 k h4

/-- Items of the appended rule. -/
theorem Gram.valid_start (hf : ¬ g.Used fresh) {γ : List Sym} {k : Nat} {a : Term} :
    Valid (g.aug fresh) g.rules.length γ ⟨g.rules.length, k, a⟩ ↔ a = .eoi ∧ ((k = 0 ∧ γ = []) ∨ (k = 1 ∧ γ = [.nt g.start])) := by
  constructor
  · intro h; exact start_items hf h rfl
  · rintro ⟨rfl, ⟨rfl, rfl⟩ | ⟨rfl, rfl⟩⟩
    · exact .start
    · exact .advance [] ⟨g.rules.length, 0, .eoi⟩ ⟨fresh, [.nt g.start]⟩ _ .start Gram.aug_start rfl

theorem Gram.viable_iff (hfr : g.Fruitful) (hf : ¬ g.Used fresh) {γ : List Sym} :
    (∃ i, Valid (g.aug fresh) g.rules.length γ i) ↔ g.ViablePrefix γ := by
  constructor
  · rintro ⟨⟨r, k, a⟩, h⟩
    by_cases hr : r = g.rules.length
    · subst hr
      left
      rcases ((Gram.valid_start hf).1 h).2 with ⟨_, rfl⟩ | ⟨_, rfl⟩
      · exact List.nil_prefix
      · exact List.prefix_rfl
    · obtain ⟨rule, x, v, h1, h2, _, rfl, _⟩ := (Gram.valid_iff hfr hf hr).1 h
      exact .inr ⟨r, rule, x, v, h1, h2, (List.prefix_append_right_inj x).2 (List.take_prefix _ _)⟩
  · have hpre : ∀ ζ, (∃ i, Valid (g.aug fresh) g.rules.length ζ i) → γ <+: ζ → ∃ i, Valid (g.aug fresh) g.rules.length γ i := by
      rintro ζ ⟨i, hi⟩ ⟨u, rfl⟩
      cases u with
      | nil => exact ⟨i, by simpa using hi⟩
      | cons X u =>
        obtain ⟨i', _, h, _⟩ := hi.expects_prefix γ X u rfl
        exact ⟨i', h⟩
    rintro (h | ⟨r, rule, x, v, h1, h2, h3⟩)
    · exact hpre _ ⟨_, (Gram.valid_start hf).2 ⟨rfl, .inr ⟨rfl, rfl⟩⟩⟩ h
    · refine hpre _ ⟨⟨r, rule.rhs.length, v.head?.getD .eoi⟩, (Gram.valid_iff hfr hf (aug_get (fresh := fresh) h1).2).2
        ⟨rule, x, v, h1, h2, Nat.le_refl _, by simp, rfl⟩⟩ h3

theorem Gram.expects_iff (hfr : g.Fruitful) (hf : ¬ g.Used fresh) {γ : List Sym} {X : Sym} :
    Expects (g.aug fresh) g.rules.length γ X ↔ g.ViablePrefix (γ ++ [X]) := by
  rw [← Gram.viable_iff hfr hf]
  constructor
  · rintro ⟨i, rule, h1, h2, h3⟩
    exact ⟨_, .advance γ i rule X h1 h2 h3⟩
  · rintro ⟨i, h⟩
    exact h.expects_prefix γ X [] rfl

theorem Gram.complete_iff (hfr : g.Fruitful) (hf : ¬ g.Used fresh) {γ : List Sym} {r : Nat} {a : Term} (hr : r ≠ g.rules.length) :
    Complete (g.aug fresh) g.rules.length γ r a ↔ g.HandleAt r γ a := by
  constructor
  · rintro ⟨rule, h1, h2⟩
    obtain ⟨rule', x, v, h3, h4, _, rfl, h5⟩ := (Gram.valid_iff hfr hf hr).1 h2
    rw [aug_get' h1 hr] at h3
    cases h3
    exact ⟨rule, x, v, aug_get' h1 hr, h4, by simp, h5⟩
  · rintro ⟨rule, x, v, h1, h2, h3, h4⟩
    exact ⟨rule, (aug_get h1).1, (Gram.valid_iff hfr hf hr).2 ⟨rule, x, v, h1, h2, Nat.le_refl _, by simpa using h3, h4⟩⟩

theorem Gram.handleAt_ne {γ : List Sym} {r : Nat} {a : Term} (h : g.HandleAt r γ a) : r ≠ g.rules.length := by
  obtain ⟨rule, x, v, h1, _⟩ := h
  exact (aug_get (fresh := 0) h1).2

theorem Gram.errRule_iff (hfr : g.Fruitful) (hf : ¬ g.Used fresh) {γ : List Sym} {r : Nat} :
    ErrRule (g.aug fresh) g.rules.length γ r ↔ g.ErrorAt r γ := by
  constructor
  · rintro ⟨⟨r', k, a⟩, rule, h1, rfl, h2, h3⟩
    simp only at h2 h3
    have hr : r' ≠ g.rules.length := by
      rintro rfl
      rw [Gram.aug_start] at h2
      cases h2
      simp only at h3
      cases k with
      | zero => cases h3
      | succ k => cases h3
    have h2' := aug_get' h2 hr
    obtain ⟨rule', x, v, h4, h5, h6, rfl, h7⟩ := (Gram.valid_iff hfr hf hr).1 h1
    rw [h2'] at h4
    cases h4
    have hlt : k < rule.rhs.length := by rw [List.getElem?_eq_some_iff] at h3; exact h3.1
    refine ⟨rule, x, v, rule.rhs.take k, rule.rhs.drop (k + 1), h2', h5, ?_, rfl⟩
    have := List.take_append_drop k rule.rhs
    rw [List.drop_eq_getElem_cons hlt] at this
    rw [List.getElem?_eq_getElem hlt] at h3
    rw [Option.some.inj h3] at this
    exact this.symm
  · rintro ⟨rule, x, v, α, β, h1, h2, h3, rfl⟩
    refine ⟨⟨r, α.length, v.head?.getD .eoi⟩, rule, (Gram.valid_iff hfr hf (aug_get (fresh := fresh) h1).2).2
      ⟨rule, x, v, h1, h2, by simp [h3], by simp [h3], rfl⟩, rfl, (aug_get h1).1, by simp [h3]⟩

end Verif.Par
