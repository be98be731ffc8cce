import Verif.Par.TermProof
import Verif.Par.SourceProof

/-!
# Proof that parsing takes linear time

Between two shifts only the states on the stack matter.  What the reductions do before they reach below the two topmost states depends on
these two states and on the look-ahead alone; there are finitely many such triples, so if the loop always ends there is a common bound.
Reductions that reach below make the stack shorter, and only shifts and the bounded phases make it longer.
-/

namespace Verif.Par

variable {N T E : Type} {p : Parser N T E} {idx : T → Nat} {input : List T}

/-- The states on the stack, the current one first. -/
def Cfg.states (c : Cfg N T) : List Nat := c.state :: c.stack.map Prod.fst

/-- A reduction on the states alone, as long as it stays within them. -/
def sstep (p : Parser N T E) (a : Term) : List Nat → Option (List Nat)
  | [] => none
  | q :: L =>
    match p.tab.act q a with
    | some (.reduce r) =>
      match p.rules[r]? with
      | none => none
      | some rule =>
        match (q :: L).drop rule.rhs.length with
        | [] => none
        | q' :: L' => ((get q' p.tab.goto).bind (get rule.lhs)).map fun s => s :: q' :: L'
    | _ => none

def siter (p : Parser N T E) (a : Term) : Nat → List Nat → Option (List Nat)
  | 0, L => some L
  | n + 1, L => (sstep p a L).bind (siter p a n)

theorem sstep_append {a : Term} {L L' : List Nat} (M : List Nat) (h : sstep p a L = some L') : sstep p a (L ++ M) = some (L' ++ M) := by
  cases L with
  | nil => cases h
  | cons q L =>
    simp only [sstep, List.cons_append] at h ⊢
    split at h
    · split at h
      · cases h
      · rename_i r hr rule hrule
        split at h
        · cases h
        · rename_i q' L1 hd
          have : (q :: (L ++ M)).drop rule.rhs.length = q' :: (L1 ++ M) := by
            have hle : rule.rhs.length ≤ (q :: L).length := by
              apply Classical.byContradiction
              intro hn
              rw [List.drop_of_length_le (by omega)] at hd
              cases hd
            rw [← List.cons_append, List.drop_append_of_le_length hle, hd]
            rfl
          rw [this]
          obtain ⟨s, hs, rfl⟩ := Option.map_eq_some_iff.1 h
          simp [hs]
    · cases h

theorem siter_append {a : Term} (M : List Nat) : ∀ {n : Nat} {L L' : List Nat}, siter p a n L = some L' →
    siter p a n (L ++ M) = some (L' ++ M) := by
  intro n
  induction n with
  | zero => intro L L' h; cases h; rfl
  | succ n ih =>
    intro L L' h
    simp only [siter] at h ⊢
    obtain ⟨L1, h1, h2⟩ := Option.bind_eq_some_iff.1 h
    rw [sstep_append M h1]
    exact ih h2

theorem sstep_length {a : Term} {L L' : List Nat} (h : sstep p a L = some L') : L'.length ≤ L.length + 1 := by
  cases L with
  | nil => cases h
  | cons q L =>
    simp only [sstep] at h
    split at h
    · split at h
      · cases h
      · rename_i r hr rule hrule
        split at h
        · cases h
        · rename_i q' L1 hd
          obtain ⟨s, hs, rfl⟩ := Option.map_eq_some_iff.1 h
          have := congrArg List.length hd
          simp at this ⊢
          omega
    · cases h

theorem siter_length {a : Term} : ∀ {n : Nat} {L L' : List Nat}, siter p a n L = some L' → L'.length ≤ L.length + n := by
  intro n
  induction n with
  | zero => intro L L' h; cases h; simp
  | succ n ih =>
    intro L L' h
    simp only [siter] at h
    obtain ⟨L1, h1, h2⟩ := Option.bind_eq_some_iff.1 h
    have := sstep_length h1
    have := ih h2
    omega

theorem siter_ne {a : Term} : ∀ {n : Nat} {L L' : List Nat}, L ≠ [] → siter p a n L = some L' → L' ≠ [] := by
  intro n
  induction n with
  | zero => intro L L' hL h; cases h; exact hL
  | succ n ih =>
    intro L L' hL h
    simp only [siter] at h
    obtain ⟨L1, h1, h2⟩ := Option.bind_eq_some_iff.1 h
    refine ih ?_ h2
    cases L with
    | nil => cases h1
    | cons q L =>
      simp only [sstep] at h1
      split at h1
      · split at h1
        · cases h1
        · split at h1
          · cases h1
          · obtain ⟨s, hs, rfl⟩ := Option.map_eq_some_iff.1 h1
            simp
      · cases h1

theorem siter_none_mono {a : Term} : ∀ {n m : Nat} {L : List Nat}, n ≤ m → siter p a n L = none → siter p a m L = none := by
  intro n
  induction n with
  | zero => intro m L _ h; cases h
  | succ n ih =>
    intro m L hm h
    obtain ⟨m, rfl⟩ : ∃ m', m = m' + 1 := ⟨m - 1, by omega⟩
    simp only [siter] at h ⊢
    cases hs : sstep p a L with
    | none => rfl
    | some L1 =>
      rw [hs] at h
      exact ih (by omega) h

/-- The last moment of a stopping row of reductions. -/
theorem siter_last {a : Term} : ∀ {n : Nat} {L : List Nat}, siter p a n L = none →
    ∃ k L', k < n ∧ siter p a k L = some L' ∧ sstep p a L' = none := by
  intro n
  induction n with
  | zero => intro L h; cases h
  | succ n ih =>
    intro L h
    simp only [siter] at h
    cases hs : sstep p a L with
    | none => exact ⟨0, L, by omega, rfl, hs⟩
    | some L1 =>
      rw [hs] at h
      obtain ⟨k, L', h1, h2, h3⟩ := ih h
      refine ⟨k + 1, L', by omega, ?_, h3⟩
      simp only [siter, hs]
      exact h2

/-! ## Finitely many phases -/

/-- The states a run can meet. -/
def allStates (p : Parser N T E) : List Nat :=
  p.tab.start :: (p.tab.action.flatMap fun x => x.2.filterMap fun y => match y.2 with
    | .shift s => some s
    | _ => none) ++ p.tab.goto.flatMap fun x => x.2.map Prod.snd

def allTerms (p : Parser N T E) : List Term := p.tab.action.flatMap fun x => x.2.map Prod.fst

theorem act_mem {q : Nat} {a : Term} {x : Action Nat} (h : p.tab.act q a = some x) : a ∈ allTerms p := by
  obtain ⟨row, h1, h2⟩ := Option.bind_eq_some_iff.1 h
  exact List.mem_flatMap.2 ⟨_, get_mem h1, List.mem_map.2 ⟨_, get_mem h2, rfl⟩⟩

theorem shift_mem {q s : Nat} {a : Term} (h : p.tab.act q a = some (.shift s)) : s ∈ allStates p := by
  obtain ⟨row, h1, h2⟩ := Option.bind_eq_some_iff.1 h
  refine List.mem_append_left _ (List.mem_cons_of_mem _ ?_)
  exact List.mem_flatMap.2 ⟨_, get_mem h1, List.mem_filterMap.2 ⟨_, get_mem h2, rfl⟩⟩

theorem goto_mem {q s n : Nat} (h : (get q p.tab.goto).bind (get n) = some s) : s ∈ allStates p := by
  obtain ⟨row, h1, h2⟩ := Option.bind_eq_some_iff.1 h
  refine List.mem_append_right _ ?_
  exact List.mem_flatMap.2 ⟨_, get_mem h1, List.mem_map.2 ⟨_, get_mem h2, rfl⟩⟩

theorem uniform {X : Type} (P : X → Nat → Prop) (hmono : ∀ x n m, n ≤ m → P x n → P x m) (xs : List X) :
    ∃ B, ∀ x ∈ xs, (∃ b, P x b) → P x B := by
  induction xs with
  | nil => exact ⟨0, by simp⟩
  | cons x xs ih =>
    obtain ⟨B, hB⟩ := ih
    by_cases h : ∃ b, P x b
    · obtain ⟨b, hb⟩ := h
      refine ⟨max b B, ?_⟩
      intro y hy hby
      rcases List.mem_cons.1 hy with rfl | hy
      · exact hmono _ _ _ (Nat.le_max_left _ _) hb
      · exact hmono _ _ _ (Nat.le_max_right _ _) (hB y hy hby)
    · refine ⟨B, ?_⟩
      intro y hy hby
      rcases List.mem_cons.1 hy with rfl | hy
      · exact absurd hby h
      · exact hB y hy hby

/-- A common bound for all stopping phases that begin with at most two states. -/
theorem phase_bound (p : Parser N T E) : ∃ B, ∀ (I : List Nat) (a : Term), I.length ≤ 2 → (∀ q ∈ I, q ∈ allStates p) →
    (∃ b, siter p a b I = none) → siter p a B I = none := by
  let Q := allStates p
  let xs : List (List Nat × Term) := (([] :: (Q.map fun q => [q]) ++ Q.flatMap fun q => Q.map fun q' => [q, q']).flatMap fun I =>
    (allTerms p).map fun a => (I, a))
  obtain ⟨B, hB⟩ := uniform (fun (x : List Nat × Term) n => siter p x.2 n x.1 = none) (fun x n m h => siter_none_mono h) xs
  refine ⟨B + 1, ?_⟩
  intro I a hl hq hb
  by_cases ha : a ∈ allTerms p
  · refine siter_none_mono (Nat.le_succ B) (hB (I, a) ?_ hb)
    refine List.mem_flatMap.2 ⟨I, ?_, List.mem_map.2 ⟨a, ha, rfl⟩⟩
    match I, hl, hq with
    | [], _, _ => simp
    | [q], _, hq => exact List.mem_append_left _ (List.mem_cons_of_mem _ (List.mem_map.2 ⟨q, hq q (by simp), rfl⟩))
    | [q, q'], _, hq =>
      exact List.mem_append_right _ (List.mem_flatMap.2 ⟨q, hq q (by simp), List.mem_map.2 ⟨q', hq q' (by simp), rfl⟩⟩)
  · cases I with
    | nil => simp [siter, sstep]
    | cons q I =>
      simp only [siter, sstep]
      split
      · rename_i r hr; exact absurd (act_mem hr) ha
      · rfl

/-! ## The loop -/

theorem states_fill (c : Cfg N T) : (fill idx c).states = c.states := by
  unfold fill
  split
  · rfl
  · split <;> rfl

theorem step_fill' (c : Cfg N T) : step idx p (fill idx c) = step idx p c := by
  unfold step
  rw [fill_fill]

theorem run_fill (c : Cfg N T) (n : Nat) : run idx p (n + 1) (fill idx c) = run idx p (n + 1) c := by
  simp only [run, step_fill']

theorem fill_id {c : Cfg N T} {x : Term × Nat} {b : List (Term × Nat)} (h : c.buffer = x :: b) : fill idx c = c := by
  unfold fill
  rw [h]

theorem onReduce_more {c c' : Cfg N T} {r : Nat} (h : onReduce p c r = .more c') :
    ∃ rule s q' L', p.rules[r]? = some rule ∧ c.states.drop rule.rhs.length = q' :: L' ∧
      (get q' p.tab.goto).bind (get rule.lhs) = some s ∧ c'.states = s :: q' :: L' ∧ c'.buffer = c.buffer ∧ c'.pulls = c.pulls := by
  unfold onReduce at h
  split at h
  · cases h
  rename_i rule hrule
  split at h
  · cases h
  rename_i hlen
  simp only at h
  split at h
  · cases h
  split at h
  · cases h
  split at h
  · cases h
  rename_i s hs
  cases h
  have hd : c.states.drop rule.rhs.length = ((((c.stack.take rule.rhs.length).reverse).head?.map Prod.fst).getD c.state) ::
      (c.stack.drop rule.rhs.length).map Prod.fst := by
    cases hk : rule.rhs.length with
    | zero => simp [Cfg.states]
    | succ k =>
      rw [hk] at hlen
      have hlt : k < c.stack.length := by omega
      rw [Cfg.states, List.drop_succ_cons, ← List.map_drop, List.drop_eq_getElem_cons hlt, List.map_cons]
      rw [List.head?_reverse, List.getLast?_take, if_neg (by omega), Nat.add_sub_cancel, List.getElem?_eq_getElem hlt]
      simp
  exact ⟨rule, s, _, _, hrule, hd, hs, rfl, rfl, rfl⟩

theorem onReduce_progress (hg : ∀ r ∈ p.rules, ∀ l, ∃ v, r.gen l = .ok v) {c : Cfg N T} {r : Nat} :
    onReduce p c r = .panic ∨ ∃ c', onReduce p c r = .more c' := by
  unfold onReduce
  split
  · exact Or.inl rfl
  rename_i rule hrule
  split
  · exact Or.inl rfl
  simp only
  split
  · exact Or.inl rfl
  rename_i args _
  obtain ⟨v, hv⟩ := hg rule (List.mem_of_getElem? hrule) args
  rw [hv]
  simp only
  split
  · exact Or.inl rfl
  · exact Or.inr ⟨_, rfl⟩

/-- The action that is taken. -/
theorem step_more {c c' : Cfg N T} {a : Term} {i : Nat} {b : List (Term × Nat)} (hb : c.buffer = (a, i) :: b) (h : step idx p c = .more c') :
    (∃ s, p.tab.act c.state a = some (.shift s) ∧ c'.states = s :: c.states ∧ c'.buffer = b ∧ c'.pulls = c.pulls) ∨
    (∃ r, p.tab.act c.state a = some (.reduce r) ∧ onReduce p c r = .more c') ∨
    ∃ q lo hi st, c'.stack = (q, .err lo hi) :: st := by
  unfold step at h
  rw [fill_id hb] at h
  simp only [hb] at h
  split at h
  · cases h
  rename_i acts hacts
  split at h
  · rename_i s hs
    left
    refine ⟨s, by simp [Tables.act, hacts, hs], ?_⟩
    split at h
    · cases h; exact ⟨rfl, rfl, rfl⟩
    · cases h
    · cases h; exact ⟨rfl, rfl, rfl⟩
  · rename_i r hr
    exact Or.inr (Or.inl ⟨r, by simp [Tables.act, hacts, hr], h⟩)
  · split at h <;> cases h
  · right; right
    unfold onError at h
    split at h
    · cases h
    · split at h
      · cases h
      · split at h
        · cases h
        · split at h
          · cases h
            exact ⟨_, _, _, _, rfl⟩
          · cases h

theorem step_reduce {c : Cfg N T} {a : Term} {i r : Nat} {b : List (Term × Nat)} (hb : c.buffer = (a, i) :: b)
    (h : p.tab.act c.state a = some (.reduce r)) : step idx p c = onReduce p c r := by
  unfold step
  rw [fill_id hb]
  simp only [hb]
  obtain ⟨row, h1, h2⟩ := Option.bind_eq_some_iff.1 h
  simp only [h1, h2]

/-- The reductions on states are those of the loop. -/
theorem sstep_real (hg : ∀ r ∈ p.rules, ∀ l, ∃ v, r.gen l = .ok v) {c : Cfg N T} {a : Term} {i : Nat} {b : List (Term × Nat)}
    (hb : c.buffer = (a, i) :: b) {L : List Nat} (h : sstep p a c.states = some L) :
    step idx p c = .panic ∨ ∃ c', step idx p c = .more c' ∧ c'.states = L ∧ c'.buffer = c.buffer ∧ c'.pulls = c.pulls := by
  simp only [Cfg.states, sstep] at h
  split at h
  · rename_i r hr
    rw [step_reduce hb hr]
    rcases onReduce_progress (c := c) (r := r) hg with h1 | ⟨c', h1⟩
    · exact Or.inl h1
    · refine Or.inr ⟨c', h1, ?_⟩
      obtain ⟨rule, s, q', L', k1, k2, k3, k4, k5, k6⟩ := onReduce_more h1
      simp only [k1] at h
      simp only [Cfg.states] at k2
      simp only [k2, k3] at h
      cases h
      exact ⟨k4, k5, k6⟩
  · cases h

theorem siter_real (hg : ∀ r ∈ p.rules, ∀ l, ∃ v, r.gen l = .ok v) : ∀ {n : Nat} {c : Cfg N T} {a : Term} {i : Nat} {b : List (Term × Nat)},
    (∀ n, run idx p n c ≠ .panic) → c.buffer = (a, i) :: b → ∀ {L : List Nat}, siter p a n c.states = some L →
    ∃ c', run idx p n c = .more c' ∧ c'.states = L ∧ c'.buffer = c.buffer ∧ c'.pulls = c.pulls := by
  intro n
  induction n with
  | zero => intro c a i b _ hb L h; cases h; exact ⟨c, rfl, rfl, rfl, rfl⟩
  | succ n ih =>
    intro c a i b hnp hb L h
    simp only [siter] at h
    obtain ⟨L1, h1, h2⟩ := Option.bind_eq_some_iff.1 h
    rcases sstep_real (idx := idx) hg hb h1 with h3 | ⟨c1, h3, h4, h5, h6⟩
    · exact absurd (by simp only [run, h3]) (hnp 1)
    · rw [← h4] at h2
      obtain ⟨c', k1, k2, k3, k4⟩ := ih (c := c1) (a := a) (i := i) (b := b) (fun m hm => hnp (m + 1) (by simp only [run, h3]; exact hm)) (h5.trans hb) h2
      exact ⟨c', by simp only [run, h3]; exact k1, k2, k3.trans h5, k4.trans h6⟩

/-- All states met are in the tables. -/
theorem states_mem (n : Nat) : ∀ {c : Cfg N T}, run idx p n (Cfg.init p input) = .more c →
    (∀ n c, run idx p n (Cfg.init p input) = .more c → ∀ q lo hi st, c.stack ≠ (q, .err lo hi) :: st) → ∀ q ∈ c.states, q ∈ allStates p := by
  induction n with
  | zero =>
    intro c h _ q hq
    cases h
    simp [Cfg.states, Cfg.init] at hq
    subst hq
    exact List.mem_append_left _ List.mem_cons_self
  | succ n ih =>
    intro c h hne
    rw [run_add n 1] at h
    cases hr : run idx p n (Cfg.init p input) with
    | panic => rw [hr] at h; cases h
    | done r c0 => rw [hr] at h; cases h
    | more c0 =>
      rw [hr] at h
      have hq0 := ih hr hne
      simp only [run] at h
      have hs : step idx p c0 = .more c := by
        cases hs : step idx p c0 <;> rw [hs] at h <;> simp_all
      have hrc : run idx p (n + 1) (Cfg.init p input) = .more c := by
        rw [run_add n 1, hr]
        simp only [run, hs]
      rw [← step_fill'] at hs
      rw [← states_fill (idx := idx)] at hq0
      have hf := fill_front (idx := idx) c0
      generalize fill idx c0 = d at hs hq0 hf
      cases hb : d.buffer with
      | nil => exact absurd hb hf
      | cons x b =>
        obtain ⟨a, i⟩ := x
        rcases step_more hb hs with ⟨s, h1, h2, _⟩ | ⟨r, h1, h2⟩ | ⟨q, lo, hi, st, h1⟩
        · rw [h2]
          intro q hq
          rcases List.mem_cons.1 hq with rfl | hq
          · exact shift_mem h1
          · exact hq0 q hq
        · obtain ⟨rule, s, q', L', k1, k2, k3, k4, _⟩ := onReduce_more h2
          rw [k4]
          intro q hq
          rcases List.mem_cons.1 hq with rfl | hq
          · exact goto_mem k3
          · rw [← k2] at hq
            exact hq0 q (List.mem_of_mem_drop hq)
        · exact absurd h1 (hne _ _ hrc _ _ _ _)

/-- The number of tokens still to be shifted. -/
def Cfg.todo (len : Nat) (c : Cfg N T) : Nat := len + 1 - c.pulls + c.buffer.length

section
variable (hg : ∀ r ∈ p.rules, ∀ l, ∃ v, r.gen l = .ok v) {B : Nat}
  (hB : ∀ (I : List Nat) (a : Term), I.length ≤ 2 → (∀ q ∈ I, q ∈ allStates p) → (∃ b, siter p a b I = none) → siter p a B I = none)
  (hnp : ∀ n, run idx p n (Cfg.init p input) ≠ .panic) (hend : ∃ m, ∀ c', run idx p m (Cfg.init p input) ≠ .more c')
  (hpull : ∀ n c, run idx p n (Cfg.init p input) = .more c → c.pulls ≤ input.length + 1)
  (hne : ∀ n c, run idx p n (Cfg.init p input) = .more c → ∀ q lo hi st, c.stack ≠ (q, .err lo hi) :: st)

include hg hB hnp hend hpull hne

/-- After a bounded number of rounds the loop ends, or the stack is shorter, or a token has been shifted. -/
theorem phase {n : Nat} {c : Cfg N T} (hr : run idx p n (Cfg.init p input) = .more c) :
    ∃ m, m ≤ B + 1 ∧ ((∀ c', run idx p m c ≠ .more c') ∨ ∃ c', run idx p m c = .more c' ∧
      ((c'.todo input.length ≤ c.todo input.length ∧ c'.states.length + 1 ≤ c.states.length) ∨
       (c'.todo input.length + 1 ≤ c.todo input.length ∧ c'.states.length ≤ c.states.length + B))) := by
  by_cases h1 : ∃ c1, step idx p c = .more c1
  case neg =>
    refine ⟨1, by omega, Or.inl ?_⟩
    intro c' h
    simp only [run] at h
    cases hs : step idx p c with
    | more c1 => exact h1 ⟨c1, hs⟩
    | done r c1 => rw [hs] at h; cases h
    | panic => rw [hs] at h; cases h
  obtain ⟨c1, h1⟩ := h1
  have hrun : ∀ k, run idx p (n + k) (Cfg.init p input) = run idx p k c := by intro k; rw [run_add, hr]
  have hp1 : c1.pulls ≤ input.length + 1 := hpull (n + 1) c1 (by rw [hrun]; simp only [run, h1])
  have hp2 : c1.pulls = (fill idx c).pulls := by
    have h2 := (step_src (idx := idx) (p := p) c c.src rfl).2
    have h3 := (fill_src (idx := idx) c c.src rfl).2.2
    rw [h1] at h2
    rw [h3]
    exact h2.2
  have htodo : (fill idx c).todo input.length = c.todo input.length := by
    rw [hp2] at hp1
    revert hp1
    unfold fill Cfg.todo
    split
    · intro _; rfl
    · rename_i hb
      split
      · simp only [hb, List.length_cons, List.length_nil]; omega
      · simp only [hb, List.length_cons, List.length_nil]; omega
  have hmem : ∀ q ∈ (fill idx c).states, q ∈ allStates p := by
    rw [states_fill]
    exact states_mem n hr hne
  have hnpf : ∀ k, run idx p k (fill idx c) ≠ .panic := by
    intro k hk
    cases k with
    | zero => cases hk
    | succ k =>
      rw [run_fill, ← hrun] at hk
      exact hnp _ hk
  have hfr := fill_front (idx := idx) c
  have hst := states_fill (idx := idx) c
  have hrf : ∀ k, run idx p (k + 1) c = run idx p (k + 1) (fill idx c) := fun k => (run_fill c k).symm
  rw [← htodo, ← hst]
  simp only [← hrun] at hrf
  have hrf' : ∀ k, run idx p (k + 1) c = run idx p (k + 1) (fill idx c) := fun k => (run_fill c k).symm
  generalize hd : fill idx c = d at *
  cases hb : d.buffer with
  | nil => exact absurd hb hfr
  | cons x b =>
    obtain ⟨a, i⟩ := x
    have hsplit : d.states.take 2 ++ d.states.drop 2 = d.states := List.take_append_drop 2 _
    have hstop : ∃ k, siter p a k (d.states.take 2) = none := by
      apply Classical.byContradiction
      intro hall
      obtain ⟨m, hm⟩ := hend
      cases hL : siter p a (m + 1) (d.states.take 2) with
      | none => exact hall ⟨_, hL⟩
      | some L =>
        have h2 := siter_append (d.states.drop 2) hL
        rw [hsplit] at h2
        obtain ⟨c', h3, _⟩ := siter_real (idx := idx) hg hnpf hb h2
        rw [← hrf] at h3
        have h4 : run idx p (n + (m + 1)) (Cfg.init p input) = .more c' := h3
        rw [show n + (m + 1) = m + (n + 1) by omega, run_add] at h4
        cases h5 : run idx p m (Cfg.init p input) with
        | more c2 => exact hm c2 h5
        | done r c2 => rw [h5] at h4; cases h4
        | panic => rw [h5] at h4; cases h4
    have hnone := hB (d.states.take 2) a (by simp; omega) (fun q hq => hmem q (List.mem_of_mem_take hq)) hstop
    obtain ⟨k, I, hk, hI, hstuck⟩ := siter_last hnone
    have hIM := siter_append (d.states.drop 2) hI
    rw [hsplit] at hIM
    obtain ⟨e, k1, k2, k3, k4⟩ := siter_real (idx := idx) hg hnpf hb hIM
    have hlenI := siter_length hI
    rw [hb] at k3
    refine ⟨k + 1, by omega, ?_⟩
    have hrun1 : run idx p (k + 1) c = run idx p 1 e := by
      rw [hrf', run_add, k1]
    rw [hrun1]
    cases hs : step idx p e with
    | done r c' => left; intro c'; simp [run, hs]
    | panic => left; intro c'; simp [run, hs]
    | more c' =>
      right
      refine ⟨c', by simp [run, hs], ?_⟩
      have hlen : d.states.length = (d.states.take 2).length + (d.states.drop 2).length := by
        rw [← List.length_append, hsplit]
      rcases step_more k3 hs with ⟨s, l1, l2, l3, l4⟩ | ⟨r, l1, l2⟩ | ⟨q, lo, hi, st, l1⟩
      · right
        constructor
        · unfold Cfg.todo
          rw [l3, l4, k4, hb]
          simp
          omega
        · rw [l2, k2]
          simp only [List.length_cons, List.length_append]
          omega
      · left
        obtain ⟨rule, s, q', L', m1, m2, m3, m4, m5, m6⟩ := onReduce_more l2
        constructor
        · unfold Cfg.todo
          rw [m5, m6, k4, k3, hb]
          exact Nat.le_refl _
        · rw [m4]
          have hIne : I ≠ [] := by
            intro h0
            subst h0
            exact siter_ne (L := d.states.take 2) (by simp [Cfg.states]) hI rfl
          have hge : I.length ≤ rule.rhs.length := by
            apply Classical.byContradiction
            intro hlt
            rw [k2, List.drop_append_of_le_length (by omega)] at m2
            cases hI2 : I.drop rule.rhs.length with
            | nil =>
              have := congrArg List.length hI2
              simp at this
              omega
            | cons q1 L1 =>
              rw [hI2] at m2
              cases m2
              cases I with
              | nil => exact hIne rfl
              | cons q0 I =>
                have hq0 : e.state = q0 := by
                  have := k2
                  simp only [Cfg.states, List.cons_append, List.cons.injEq] at this
                  exact this.1
                rw [hq0] at l1
                simp only [sstep, l1, m1, hI2, m3] at hstuck
                cases hstuck
          rw [k2] at m2
          have := congrArg List.length m2
          simp only [List.length_drop, List.length_append, List.length_cons] at this ⊢
          have h2 : (d.states.take 2).length = 2 := by
            simp only [List.length_take]
            omega
          omega
      · exact absurd l1 (hne (n + (k + 1)) c' (by rw [hrun, hrun1]; simp [run, hs]) _ _ _ _)

/-- The number of rounds. -/
theorem linear : ∃ n, n ≤ (B + 1) * (B + 4) * (input.length + 1) ∧ ∀ c', run idx p n (Cfg.init p input) ≠ .more c' := by
  have key : ∀ d h n c, run idx p n (Cfg.init p input) = .more c → c.todo input.length ≤ d → c.states.length ≤ h →
      ∃ m, m ≤ (B + 1) * (h + (B + 2) * d + 1) ∧ ∀ c', run idx p m c ≠ .more c' := by
    intro d
    induction d with
    | zero =>
      intro h
      induction h with
      | zero => intro n c _ _ hh; simp [Cfg.states] at hh
      | succ h ihh =>
        intro n c hr hd hh
        obtain ⟨m, hm, h1 | ⟨c', h1, ⟨h2, h3⟩ | ⟨h2, h3⟩⟩⟩ := phase hg hB hnp hend hpull hne hr
        · refine ⟨m, ?_, h1⟩
          refine Nat.le_trans hm (Nat.le_mul_of_pos_right _ (by omega))
        · obtain ⟨m', h4, h5⟩ := ihh (n + m) c' (by rw [run_add, hr]; exact h1) (by omega) (by omega)
          refine ⟨m + m', ?_, ?_⟩
          · have : (B + 1) * (h + 1 + (B + 2) * 0 + 1) = (B + 1) * (h + (B + 2) * 0 + 1) + (B + 1) := by
              rw [← Nat.mul_succ]; congr 1 <;> omega
            omega
          · intro c2; rw [run_add, h1]; exact h5 c2
        · omega
    | succ d ihd =>
      intro h
      induction h with
      | zero => intro n c _ _ hh; simp [Cfg.states] at hh
      | succ h ihh =>
        intro n c hr hd hh
        obtain ⟨m, hm, h1 | ⟨c', h1, ⟨h2, h3⟩ | ⟨h2, h3⟩⟩⟩ := phase hg hB hnp hend hpull hne hr
        · refine ⟨m, ?_, h1⟩
          refine Nat.le_trans hm (Nat.le_mul_of_pos_right _ (by omega))
        · obtain ⟨m', h4, h5⟩ := ihh (n + m) c' (by rw [run_add, hr]; exact h1) (by omega) (by omega)
          refine ⟨m + m', ?_, ?_⟩
          · have : (B + 1) * (h + 1 + (B + 2) * (d + 1) + 1) = (B + 1) * (h + (B + 2) * (d + 1) + 1) + (B + 1) := by
              rw [← Nat.mul_succ]; congr 1 <;> omega
            omega
          · intro c2; rw [run_add, h1]; exact h5 c2
        · obtain ⟨m', h4, h5⟩ := ihd (h + 1 + B) (n + m) c' (by rw [run_add, hr]; exact h1) (by omega) (by omega)
          refine ⟨m + m', ?_, ?_⟩
          · have : (B + 1) * (h + 1 + (B + 2) * (d + 1) + 1) = (B + 1) * (h + 1 + B + (B + 2) * d + 1) + 2 * (B + 1) := by
              rw [Nat.mul_comm 2, ← Nat.mul_add]; congr 1; rw [Nat.mul_succ]; omega
            omega
          · intro c2; rw [run_add, h1]; exact h5 c2
  obtain ⟨m, h1, h2⟩ := key (input.length + 1) 1 0 (Cfg.init p input) rfl (by simp [Cfg.todo, Cfg.init]) (by simp [Cfg.states, Cfg.init])
  refine ⟨m, Nat.le_trans h1 ?_, h2⟩
  rw [Nat.mul_assoc]
  refine Nat.mul_le_mul_left _ ?_
  have : (B + 4) * (input.length + 1) = (B + 2) * (input.length + 1) + 2 * (input.length + 1) := by rw [← Nat.add_mul]
  omega

end

end Verif.Par
