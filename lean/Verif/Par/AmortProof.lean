import Verif.Par.LinearProof

/-!
# Rounds of the loop and steps that read, insert or give up something

Reductions are paid for by the other rounds, also when errors are recovered from: the number of rounds is bounded by a constant times
the number of rounds that push a token or an error symbol.
-/

namespace Verif.Par

variable {N T E : Type} {p : Parser N T E} {idx : T → Nat} {input : List T}

/-- The topmost symbol is a non-terminal. -/
def Cfg.topNt (c : Cfg N T) : Bool :=
  match c.stack with
  | (_, .nt _ _) :: _ => true
  | _ => false

/-- The number of rounds that push a token or an error symbol. -/
def busy (idx : T → Nat) (p : Parser N T E) : Nat → Cfg N T → Nat
  | 0, _ => 0
  | n + 1, c =>
    match step idx p c with
    | .more c' => (if c'.topNt then 0 else 1) + busy idx p n c'
    | _ => 0

theorem busy_add (m k : Nat) : ∀ {c c' : Cfg N T}, run idx p m c = .more c' → busy idx p (m + k) c = busy idx p m c + busy idx p k c' := by
  induction m with
  | zero => intro c c' h; cases h; simp [busy]
  | succ m ih =>
    intro c c' h
    simp only [run] at h
    rw [Nat.succ_add]
    simp only [busy]
    cases hs : step idx p c with
    | panic => rw [hs] at h; cases h
    | done x c1 => rw [hs] at h; cases h
    | more c1 =>
      rw [hs] at h
      simp only at h ⊢
      rw [ih h, Nat.add_assoc]

theorem busy_fill (c : Cfg N T) (n : Nat) : busy idx p (n + 1) (fill idx c) = busy idx p (n + 1) c := by
  simp only [busy, step_fill']

theorem recover_suffix {errors : List (Nat × List Nat)} {isEoi : Bool} {recov : List Nat} : ∀ {stack : List (Nat × SSym N)}
    {state head errHead : Nat} {back : Bool} {state' stack' recov' head' errHead' back'},
    recover errors isEoi recov stack state head errHead back = some (state', stack', recov', head', errHead', back') →
    state' :: stack'.map Prod.fst <:+ state :: stack.map Prod.fst := by
  intro stack
  induction stack with
  | nil =>
    intro state head errHead back state' stack' recov' head' errHead' back' h
    simp only [recover, Option.map_eq_some_iff] at h
    obtain ⟨rs, _, h⟩ := h
    cases h
    exact List.suffix_refl _
  | cons x st ih =>
    intro state head errHead back state' stack' recov' head' errHead' back' h
    obtain ⟨s, y⟩ := x
    simp only [recover] at h
    split at h
    · cases h; exact List.suffix_refl _
    · split at h <;> exact (ih h).trans (List.suffix_cons _ _)

/-- The action that is taken; what becomes of the states. -/
theorem step_states {c c' : Cfg N T} {a : Term} {i : Nat} {b : List (Term × Nat)} (hb : c.buffer = (a, i) :: b) (h : step idx p c = .more c') :
    (∃ s, p.tab.act c.state a = some (.shift s) ∧ c'.states = s :: c.states ∧ c'.topNt = false) ∨
    (∃ r, p.tab.act c.state a = some (.reduce r) ∧ onReduce p c r = .more c') ∨
    ∃ s q L, p.tab.act q .err = some (.shift s) ∧ c'.states = s :: q :: L ∧ q :: L <:+ c.states ∧ c'.topNt = false := by
  unfold step at h
  rw [fill_id hb] at h
  simp only [hb] at h
  split at h
  · cases h
  rename_i acts hacts
  split at h
  · rename_i s hs
    left
    refine ⟨s, by simp [Tables.act, hacts, hs], ?_⟩
    split at h
    · cases h; exact ⟨rfl, rfl⟩
    · cases h
    · cases h; exact ⟨rfl, rfl⟩
  · rename_i r hr
    exact Or.inr (Or.inl ⟨r, by simp [Tables.act, hacts, hr], h⟩)
  · split at h <;> cases h
  · right; right
    unfold onError at h
    split at h
    · cases h
    · rename_i state stack recov head errHead back hrec
      split at h
      · cases h
      · split at h
        · cases h
        · rename_i acts' hacts'
          split at h
          · rename_i s hs
            cases h
            exact ⟨s, state, stack.map Prod.fst, by simp [Tables.act, hacts', hs], rfl, recover_suffix hrec, rfl⟩
          · cases h

/-- All states met are in the tables. -/
theorem all_states_mem (n : Nat) : ∀ {c : Cfg N T}, run idx p n (Cfg.init p input) = .more c → ∀ q ∈ c.states, q ∈ allStates p := by
  induction n with
  | zero =>
    intro c h q hq
    cases h
    simp [Cfg.states, Cfg.init] at hq
    subst hq
    exact List.mem_append_left _ List.mem_cons_self
  | succ n ih =>
    intro c h
    rw [run_add n 1] at h
    cases hr : run idx p n (Cfg.init p input) with
    | panic => rw [hr] at h; cases h
    | done r c0 => rw [hr] at h; cases h
    | more c0 =>
      rw [hr] at h
      have hq0 := ih hr
      simp only [run] at h
      have hs : step idx p c0 = .more c := by
        cases hs : step idx p c0 <;> rw [hs] at h <;> simp_all
      rw [← step_fill'] at hs
      rw [← states_fill (idx := idx)] at hq0
      have hf := fill_front (idx := idx) c0
      generalize fill idx c0 = d at hs hq0 hf
      cases hb : d.buffer with
      | nil => exact absurd hb hf
      | cons x b =>
        obtain ⟨a, i⟩ := x
        rcases step_states hb hs with ⟨s, h1, h2, _⟩ | ⟨r, h1, h2⟩ | ⟨s, q, L, h1, h2, h3, _⟩
        · rw [h2]
          intro q hq
          rcases List.mem_cons.1 hq with rfl | hq
          · exact shift_mem h1
          · exact hq0 q hq
        · obtain ⟨rule, s, q', L', k1, k2, k3, k4, _⟩ := onReduce_more h2
          rw [k4]
          intro q hq
          rcases List.mem_cons.1 hq with rfl | hq
          · exact goto_mem k3
          · rw [← k2] at hq
            exact hq0 q (List.mem_of_mem_drop hq)
        · rw [h2]
          intro q' hq
          rcases List.mem_cons.1 hq with rfl | hq
          · exact shift_mem h1
          · exact hq0 q' (h3.subset hq)

section
variable (hg : ∀ r ∈ p.rules, ∀ l, ∃ v, r.gen l = .ok v) {B : Nat}
  (hB : ∀ (I : List Nat) (a : Term), I.length ≤ 2 → (∀ q ∈ I, q ∈ allStates p) → (∃ b, siter p a b I = none) → siter p a B I = none)
  (hnp : ∀ n, run idx p n (Cfg.init p input) ≠ .panic) (hend : ∃ m, ∀ c', run idx p m (Cfg.init p input) ≠ .more c')

include hg hB hnp hend

/-- After a bounded number of rounds the loop ends, or the stack is shorter, or a token or an error symbol has been pushed. -/
theorem busy_phase {n : Nat} {c : Cfg N T} (hr : run idx p n (Cfg.init p input) = .more c) :
    ∃ m, 1 ≤ m ∧ m ≤ B + 1 ∧ ((∀ c', run idx p m c ≠ .more c') ∨ ∃ c', run idx p m c = .more c' ∧
      (c'.states.length + 1 ≤ c.states.length ∨
       (1 ≤ busy idx p m c ∧ c'.states.length ≤ c.states.length + B))) := by
  by_cases h1 : ∃ c1, step idx p c = .more c1
  case neg =>
    refine ⟨1, by omega, by omega, Or.inl ?_⟩
    intro c' h
    simp only [run] at h
    cases hs : step idx p c with
    | more c1 => exact h1 ⟨c1, hs⟩
    | done r c1 => rw [hs] at h; cases h
    | panic => rw [hs] at h; cases h
  obtain ⟨c1, h1⟩ := h1
  have hrun : ∀ k, run idx p (n + k) (Cfg.init p input) = run idx p k c := by intro k; rw [run_add, hr]
  have hmem : ∀ q ∈ (fill idx c).states, q ∈ allStates p := by
    rw [states_fill]
    exact all_states_mem n hr
  have hnpf : ∀ k, run idx p k (fill idx c) ≠ .panic := by
    intro k hk
    cases k with
    | zero => cases hk
    | succ k =>
      rw [run_fill, ← hrun] at hk
      exact hnp _ hk
  have hfr := fill_front (idx := idx) c
  have hst := states_fill (idx := idx) c
  rw [← hst]
  have hrf : ∀ k, run idx p (k + 1) c = run idx p (k + 1) (fill idx c) := fun k => (run_fill c k).symm
  have hbf : ∀ k, busy idx p (k + 1) c = busy idx p (k + 1) (fill idx c) := fun k => (busy_fill c k).symm
  generalize hd : fill idx c = d at *
  cases hb : d.buffer with
  | nil => exact absurd hb hfr
  | cons x b =>
    obtain ⟨a, i⟩ := x
    have hsplit : d.states.take 2 ++ d.states.drop 2 = d.states := List.take_append_drop 2 _
    have hstop : ∃ k, siter p a k (d.states.take 2) = none := by
      apply Classical.byContradiction
      intro hall
      obtain ⟨m, hm⟩ := hend
      cases hL : siter p a (m + 1) (d.states.take 2) with
      | none => exact hall ⟨_, hL⟩
      | some L =>
        have h2 := siter_append (d.states.drop 2) hL
        rw [hsplit] at h2
        obtain ⟨c', h3, _⟩ := siter_real (idx := idx) hg hnpf hb h2
        rw [← hrf, ← hrun] at h3
        have h4 : run idx p (n + (m + 1)) (Cfg.init p input) = .more c' := h3
        rw [show n + (m + 1) = m + (n + 1) by omega, run_add] at h4
        cases h5 : run idx p m (Cfg.init p input) with
        | more c2 => exact hm c2 h5
        | done r c2 => rw [h5] at h4; cases h4
        | panic => rw [h5] at h4; cases h4
    have hnone := hB (d.states.take 2) a (by simp; omega) (fun q hq => hmem q (List.mem_of_mem_take hq)) hstop
    obtain ⟨k, I, hk, hI, hstuck⟩ := siter_last hnone
    have hIM := siter_append (d.states.drop 2) hI
    rw [hsplit] at hIM
    obtain ⟨e, k1, k2, k3, k4⟩ := siter_real (idx := idx) hg hnpf hb hIM
    have hlenI := siter_length hI
    rw [hb] at k3
    refine ⟨k + 1, by omega, by omega, ?_⟩
    have hrun1 : run idx p (k + 1) c = run idx p 1 e := by
      rw [hrf, run_add, k1]
    rw [hrun1]
    cases hs : step idx p e with
    | done r c' => left; intro c'; simp [run, hs]
    | panic => left; intro c'; simp [run, hs]
    | more c' =>
      right
      refine ⟨c', by simp [run, hs], ?_⟩
      have hlen : d.states.length = (d.states.take 2).length + (d.states.drop 2).length := by
        rw [← List.length_append, hsplit]
      have hbusy : c'.topNt = false → 1 ≤ busy idx p (k + 1) c := by
        intro ht
        rw [hbf, busy_add k 1 k1]
        simp [busy, hs, ht]
      rcases step_states k3 hs with ⟨s, l1, l2, l3⟩ | ⟨r, l1, l2⟩ | ⟨s, q, L, l1, l2, l3, l4⟩
      · right
        refine ⟨hbusy l3, ?_⟩
        rw [l2, k2]
        simp only [List.length_cons, List.length_append]
        omega
      · left
        obtain ⟨rule, s, q', L', m1, m2, m3, m4, m5, m6⟩ := onReduce_more l2
        rw [m4]
        have hIne : I ≠ [] := by
          intro h0
          subst h0
          exact siter_ne (L := d.states.take 2) (by simp [Cfg.states]) hI rfl
        have hge : I.length ≤ rule.rhs.length := by
          apply Classical.byContradiction
          intro hlt
          rw [k2, List.drop_append_of_le_length (by omega)] at m2
          cases hI2 : I.drop rule.rhs.length with
          | nil =>
            have := congrArg List.length hI2
            simp at this
            omega
          | cons q1 L1 =>
            rw [hI2] at m2
            cases m2
            cases I with
            | nil => exact hIne rfl
            | cons q0 I =>
              have hq0 : e.state = q0 := by
                have := k2
                simp only [Cfg.states, List.cons_append, List.cons.injEq] at this
                exact this.1
              rw [hq0] at l1
              simp only [sstep, l1, m1, hI2, m3] at hstuck
              cases hstuck
        rw [k2] at m2
        have := congrArg List.length m2
        simp only [List.length_drop, List.length_append, List.length_cons] at this ⊢
        have h2 : (d.states.take 2).length = 2 := by
          simp only [List.length_take]
          omega
        omega
      · right
        refine ⟨hbusy l4, ?_⟩
        have := l3.length_le
        rw [k2] at this
        rw [l2]
        simp only [List.length_cons, List.length_append] at this ⊢
        omega

/-- The rounds are paid for by the busy ones. -/
theorem busy_pays (M : Nat) : ∀ (n : Nat) (c c' : Cfg N T), run idx p n (Cfg.init p input) = .more c → run idx p M c = .more c' →
    M ≤ (B + 1) * (c.states.length + (B + 1) * busy idx p M c + 1) := by
  induction M using Nat.strongRecOn with
  | _ M ih =>
    intro n c c' hr hM
    obtain ⟨m, h1, h2, h3⟩ := busy_phase hg hB hnp hend hr
    by_cases hlt : M < m
    · exact Nat.le_trans (by omega) (Nat.le_mul_of_pos_right (B + 1) (by omega))
    · obtain ⟨k, rfl⟩ : ∃ k, M = m + k := ⟨M - m, by omega⟩
      rcases h3 with h3 | ⟨c1, h3, h4⟩
      · exfalso
        rw [run_add] at hM
        cases h5 : run idx p m c with
        | more c2 => exact h3 c2 h5
        | done r c2 => rw [h5] at hM; cases hM
        | panic => rw [h5] at hM; cases hM
      · have hk := ih k (by omega) (n + m) c1 c' (by rw [run_add, hr]; exact h3) (by rw [run_add, h3] at hM; exact hM)
        rw [busy_add m k h3]
        generalize busy idx p k c1 = b at hk
        generalize c1.states.length = s1 at *
        generalize c.states.length = s at *
        generalize busy idx p m c = u at *
        have hfin : (B + 1) + (B + 1) * (s1 + (B + 1) * b + 1) ≤ (B + 1) * (s + (B + 1) * (u + b) + 1) := by
          rw [Nat.add_comm (B + 1), ← Nat.mul_succ]
          refine Nat.mul_le_mul_left _ ?_
          rw [Nat.mul_add (B + 1) u b]
          rcases h4 with h4 | ⟨h4, h5⟩
          · omega
          · have : B + 1 ≤ (B + 1) * u := Nat.le_mul_of_pos_right _ h4
            omega
        omega

end

end Verif.Par
