import Verif.Par.Source
import Verif.Par.SrcProof

/-! # Helper lemmas: parsing from a source is parsing the list of its answers -/

namespace Verif.Par

variable {N T E σ : Type} {idx : T → Nat} {p : Parser N T E} {nxt : Source σ T}

theorem after_add (m k : Nat) (s : σ) : after nxt (m + k) s = after nxt k (after nxt m s) := by
  induction m generalizing s with
  | zero => rw [Nat.zero_add]; rfl
  | succ m ih => rw [Nat.succ_add]; exact ih _

theorem answer_add (m k : Nat) (s : σ) : answer nxt (m + k) s = answer nxt k (after nxt m s) := by
  unfold answer
  rw [after_add]

theorem fill_front (c : Cfg N T) : (fill idx c).buffer ≠ [] := by
  unfold fill
  split
  · rename_i h; rw [h]; simp
  · split <;> simp

theorem fill_fill (c : Cfg N T) : fill idx (fill idx c) = fill idx c := by
  have h := fill_front (idx := idx) c
  generalize fill idx c = d at h
  unfold fill
  split
  · rfl
  · rename_i h'; exact absurd h' h

theorem pull_fill {c : Cfg N T} {s : σ} (h : c.next = 1 → answer nxt 0 s = c.src[0]?) :
    pull idx nxt (c.withSrc []) s = ((fill idx c).withSrc [], after nxt c.next s) := by
  obtain ⟨state, read, src, buffer, stack, recov, log, pulls⟩ := c
  unfold Cfg.next at h ⊢
  cases buffer with
  | cons b buffer => rfl
  | nil =>
    have h := h rfl
    unfold answer after at h
    cases hn : nxt s with
    | mk a s' =>
      rw [hn] at h
      cases src with
      | nil =>
        cases a with
        | some t => simp at h
        | none => simp [pull, fill, Cfg.withSrc, hn, after]
      | cons t src =>
        cases a with
        | none => simp at h
        | some t' =>
          simp at h
          subst h
          simp [pull, fill, Cfg.withSrc, hn, after]

theorem step_fill (c : Cfg N T) : step idx p ((fill idx c).withSrc []) = (step idx p c).withSrc [] := by
  have h1 : (fill idx c).next = 0 := by
    unfold Cfg.next
    rw [if_neg]
    rw [List.isEmpty_iff]
    exact fill_front c
  have h2 := (step_src (idx := idx) (p := p) (fill idx c) [] (by rw [h1]; rfl)).1
  rw [h2, h1]
  have h3 : step idx p (fill idx c) = step idx p c := by
    unfold step
    rw [fill_fill]
  rw [h3]
  rfl

theorem runFrom_run (n : Nat) : ∀ (c c' : Cfg N T) (s : σ), (run idx p n c).cfg? = some c' →
    (∀ k, k < c'.pulls - c.pulls → answer nxt k s = c.src[k]?) →
    runFrom idx nxt p n (c.withSrc []) s = ((run idx p n c).withSrc [], after nxt (c'.pulls - c.pulls) s) := by
  induction n with
  | zero =>
    intro c c' s h _
    cases h
    rw [Nat.sub_self]
    rfl
  | succ n ih =>
    intro c c' s h ha
    simp only [run] at h ⊢
    have hall := (step_src (idx := idx) (p := p) c c.src rfl).2
    cases hstep : step idx p c with
    | panic => rw [hstep] at h; cases h
    | done r c1 =>
      rw [hstep] at h hall
      cases h
      have e : c'.pulls - c.pulls = c.next := by have := hall.2; omega
      rw [e] at ha ⊢
      simp only [runFrom]
      rw [pull_fill (fun h1 => ha 0 (by omega))]
      simp only
      rw [step_fill, hstep]
      rfl
    | more c1 =>
      rw [hstep] at h hall
      simp only at h
      obtain ⟨k, g1, g2, _⟩ := run_src n c1 c' [] h
      have hp : c1.pulls = c.pulls + c.next := hall.2
      have e : c'.pulls - c.pulls = c.next + (c'.pulls - c1.pulls) := by omega
      rw [e] at ha ⊢
      simp only [runFrom]
      rw [pull_fill (fun h1 => ha 0 (by omega))]
      simp only
      rw [step_fill, hstep]
      simp only [Step.withSrc]
      have := ih c1 c' (after nxt c.next s) h (fun j hj => by
        rw [← answer_add, ha _ (by omega)]
        have : c1.src = c.src.drop c.next := hall.1
        rw [this, List.getElem?_drop])
      rw [this, after_add]
      rfl

/-- Rounds only add pulls, at most one each. -/
theorem run_pulls (n : Nat) : ∀ (c c' : Cfg N T), (run idx p n c).cfg? = some c' → c.pulls ≤ c'.pulls ∧ c'.pulls ≤ c.pulls + n := by
  induction n with
  | zero => intro c c' h; cases h; omega
  | succ n ih =>
    intro c c' h
    simp only [run] at h
    have hall := (step_src (idx := idx) (p := p) c c.src rfl).2
    have hn : c.next ≤ 1 := by unfold Cfg.next; split <;> omega
    cases hstep : step idx p c with
    | panic => rw [hstep] at h; cases h
    | done r c1 =>
      rw [hstep] at h hall
      cases h
      have : c'.pulls = c.pulls + c.next := hall.2
      omega
    | more c1 =>
      rw [hstep] at h hall
      have h1 := ih c1 c' h
      have : c1.pulls = c.pulls + c.next := hall.2
      omega

/-- From the start. -/
theorem runFrom_init {n : Nat} {l : List T} {c' : Cfg N T} {s : σ} (h : (run idx p n (Cfg.init p l)).cfg? = some c')
    (ha : ∀ k, k < c'.pulls → answer nxt k s = l[k]?) :
    runFrom idx nxt p n (Cfg.init p []) s = ((run idx p n (Cfg.init p l)).withSrc [], after nxt c'.pulls s) :=
  runFrom_run n (Cfg.init p l) c' s h ha

/-- `n` rounds make at most `n` calls of the source. -/
theorem runFrom_all (n : Nat) : ∀ (c : Cfg N T) (s : σ), (∀ k, k < n → answer nxt k s = c.src[k]?) →
    (runFrom idx nxt p n (c.withSrc []) s).1 = (run idx p n c).withSrc [] := by
  induction n with
  | zero => intro c s _; rfl
  | succ n ih =>
    intro c s ha
    have hall := (step_src (idx := idx) (p := p) c c.src rfl).2
    have hn : c.next ≤ 1 := by unfold Cfg.next; split <;> omega
    simp only [runFrom, run]
    rw [pull_fill (fun _ => ha 0 (by omega))]
    simp only
    rw [step_fill]
    cases hstep : step idx p c with
    | panic => rfl
    | done r c1 => rfl
    | more c1 =>
      rw [hstep] at hall
      simp only [Step.withSrc]
      refine ih c1 _ (fun k hk => ?_)
      rw [← answer_add, ha _ (by omega)]
      have : c1.src = c.src.drop c.next := hall.1
      rw [this, List.getElem?_drop]

/-- A panic happens in some round. -/
theorem run_panic (n : Nat) : ∀ (c : Cfg N T), run idx p n c = .panic → ∃ m c', run idx p m c = .more c' ∧ step idx p c' = .panic := by
  induction n with
  | zero => intro c h; cases h
  | succ n ih =>
    intro c h
    simp only [run] at h
    cases hstep : step idx p c with
    | panic => exact ⟨0, c, rfl, hstep⟩
    | done r c1 => rw [hstep] at h; cases h
    | more c1 =>
      rw [hstep] at h
      obtain ⟨m, c', h1, h2⟩ := ih c1 h
      refine ⟨m + 1, c', ?_, h2⟩
      simp only [run]
      rw [hstep]
      exact h1

theorem runFrom_more (m : Nat) : ∀ (c c' : Cfg N T) (s s' : σ) (k : Nat), runFrom idx nxt p m c s = (.more c', s') →
    runFrom idx nxt p (m + k) c s = runFrom idx nxt p k c' s' := by
  induction m with
  | zero => intro c c' s s' k h; cases h; rw [Nat.zero_add]
  | succ m ih =>
    intro c c' s s' k h
    rw [Nat.succ_add]
    simp only [runFrom] at h ⊢
    cases hstep : step idx p (pull idx nxt c s).1 with
    | panic => rw [hstep] at h; cases h
    | done r c1 => rw [hstep] at h; cases h
    | more c1 =>
      rw [hstep] at h
      exact ih _ _ _ _ k h

/-- What `runFrom` gives does not change once it has ended. -/
theorem runFrom_end (m : Nat) : ∀ (c : Cfg N T) (s : σ) (k : Nat), (∀ c', (runFrom idx nxt p m c s).1 ≠ .more c') →
    runFrom idx nxt p (m + k) c s = runFrom idx nxt p m c s := by
  induction m with
  | zero => intro c s k h; exact absurd rfl (h c)
  | succ m ih =>
    intro c s k h
    rw [Nat.succ_add]
    simp only [runFrom] at h ⊢
    cases hstep : step idx p (pull idx nxt c s).1 with
    | panic => rfl
    | done r c1 => rfl
    | more c1 =>
      rw [hstep] at h
      exact ih _ _ k h

/-- The first `n` items of an endless source. -/
theorem Endless.begins {s : σ} (h : Endless nxt s) (n : Nat) : ∃ l, l.length = n ∧ Begins nxt s l := by
  induction n with
  | zero => exact ⟨[], rfl, fun k hk => by simp at hk⟩
  | succ n ih =>
    obtain ⟨l, hl, hb⟩ := ih
    cases ha : answer nxt n s with
    | none => exact absurd ha (h n)
    | some t =>
      refine ⟨l ++ [t], by simp [hl], ?_⟩
      intro k hk
      simp at hk
      by_cases hlt : k < l.length
      · rw [List.getElem?_append_left hlt]
        exact hb k hlt
      · obtain rfl : k = l.length := by omega
        rw [hl, ha, List.getElem?_append_right (by omega)]
        simp [hl]

end Verif.Par
