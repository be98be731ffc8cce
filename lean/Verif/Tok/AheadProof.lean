import Verif.Tok.Ahead
import Verif.Tok.IterProof
import Verif.Common.OSet

/-!
# Walks in the tables, and shortening and pumping them
-/

namespace Verif.Tok

/-- The text `x` leads from `q` to `q'`, and `P` holds for the states after each character. -/
inductive Walk (d : DFA) (P : Nat → Bool) : Nat → List Nat → Nat → Prop
  | nil (q) : Walk d P q [] q
  | cons (q c n x q') : d.next q c = some n → P n = true → IsChar c → Walk d P n x q' → Walk d P q (c :: x) q'

variable {d : DFA} {P : Nat → Bool} {p : Nat}

theorem Walk.append {q q' q'' : Nat} {x y : List Nat} (h : Walk d P q x q') (h' : Walk d P q' y q'') : Walk d P q (x ++ y) q'' := by
  induction h with
  | nil q => exact h'
  | cons q c n x q' h1 h2 h3 _ ih => exact .cons _ _ _ _ _ h1 h2 h3 (ih h')

theorem Walk.run {q q' : Nat} {x : List Nat} (h : Walk d P q x q') : d.run q x = some q' := by
  induction h with
  | nil q => rfl
  | cons q c n x q' h1 h2 h3 _ ih => simp [DFA.run, h1, ih]

theorem Walk.text {q q' : Nat} {x : List Nat} (h : Walk d P q x q') : IsText x := by
  induction h with
  | nil q => intro c hc; cases hc
  | cons q c n x q' h1 h2 h3 _ ih =>
    intro c' hc
    rcases List.mem_cons.1 hc with rfl | hc
    · exact h3
    · exact ih c' hc

/-- Where a prefix leads. -/
theorem Walk.split {q q' : Nat} {y z : List Nat} (h : Walk d P q (y ++ z) q') : ∃ n, Walk d P q y n ∧ Walk d P n z q' := by
  induction y generalizing q with
  | nil => exact ⟨q, .nil q, h⟩
  | cons c y ih =>
    cases h with
    | cons _ _ n _ _ h1 h2 h3 h4 =>
      obtain ⟨m, k1, k2⟩ := ih h4
      exact ⟨m, .cons _ _ _ _ _ h1 h2 h3 k1, k2⟩

theorem Walk.last {q q' : Nat} {x : List Nat} (h : Walk d P q x q') (hx : x ≠ []) : P q' = true := by
  induction h with
  | nil q => exact absurd rfl hx
  | cons q c n x q' h1 h2 h3 h4 ih =>
    cases x with
    | nil => cases h4; exact h2
    | cons c' x => exact ih (by simp)

theorem walk_of_run {q q' : Nat} {x : List Nat} (ht : IsText x) (h : d.run q x = some q') (hP : ∀ y z n, x = y ++ z → y ≠ [] → d.run q y = some n → P n = true) :
    Walk d P q x q' := by
  induction x generalizing q with
  | nil => simp only [DFA.run, Option.some.injEq] at h; subst h; exact .nil _
  | cons c x ih =>
    simp only [DFA.run, Option.bind_eq_some_iff] at h
    obtain ⟨n, h1, h2⟩ := h
    refine .cons _ _ n _ _ h1 (hP [c] x n rfl (by simp) (by simp [DFA.run, h1])) (ht c (by simp)) ?_
    refine ih (fun c' hc => ht c' (by simp [hc])) h2 ?_
    intro y z m hx hy hr
    exact hP (c :: y) z m (by simp [hx]) (by simp) (by simp [DFA.run, h1, hr])

/-- The states after each character. -/
theorem Walk.visits {q q' : Nat} {x : List Nat} (hd : d.WF p) (hq : q < d.rows.length) (h : Walk d P q x q') :
    ∃ l : List Nat, l.length = x.length ∧ (∀ m ∈ l, m < d.rows.length ∧ P m = true) ∧
      ∀ a m b, l = a ++ m :: b → ∃ u v, x = u ++ v ∧ u.length = a.length + 1 ∧ Walk d P q u m ∧ Walk d P m v q' := by
  induction h with
  | nil q => exact ⟨[], rfl, by simp, fun a m b h => by simp at h⟩
  | cons q c n x q' h1 h2 h3 h4 ih =>
    have hn : n < d.rows.length := run_lt hd [c] q n hq (by simp [DFA.run, h1])
    obtain ⟨l, k1, k2, k3⟩ := ih hn
    refine ⟨n :: l, by simp [k1], ?_, ?_⟩
    · intro m hm
      rcases List.mem_cons.1 hm with rfl | hm
      · exact ⟨hn, h2⟩
      · exact k2 m hm
    · intro a m b hab
      cases a with
      | nil =>
        simp only [List.nil_append, List.cons.injEq] at hab
        obtain ⟨rfl, rfl⟩ := hab
        exact ⟨[c], x, rfl, rfl, .cons _ _ _ _ _ h1 h2 h3 (.nil _), h4⟩
      | cons a0 a =>
        simp only [List.cons_append, List.cons.injEq] at hab
        obtain ⟨rfl, hab⟩ := hab
        obtain ⟨u, v, e1, e2, e3, e4⟩ := k3 a m b hab
        exact ⟨c :: u, v, by simp [e1], by simp [e2], .cons _ _ _ _ _ h1 h2 h3 e3, e4⟩

theorem twice {l : List Nat} (h : ¬ l.Nodup) : ∃ a m b c, l = a ++ m :: b ++ m :: c := by
  induction l with
  | nil => exact absurd List.nodup_nil h
  | cons x l ih =>
    by_cases hx : x ∈ l
    · obtain ⟨b, c, rfl⟩ := List.append_of_mem hx
      exact ⟨[], x, b, c, by simp⟩
    · obtain ⟨a, m, b, c, rfl⟩ := ih (fun hl => h (List.nodup_cons.2 ⟨hx, hl⟩))
      exact ⟨x :: a, m, b, c, by simp⟩

/-- A walk with more steps than states with `P` contains a loop. -/
theorem Walk.loop {q q' : Nat} {x : List Nat} (hd : d.WF p) (hq : q < d.rows.length) (h : Walk d P q x q')
    (hl : ((List.range d.rows.length).filter P).length < x.length) :
    ∃ u v w m, x = u ++ v ++ w ∧ v ≠ [] ∧ Walk d P q u m ∧ Walk d P m v m ∧ Walk d P m w q' := by
  obtain ⟨l, k1, k2, k3⟩ := h.visits hd hq
  have hnd : ¬ l.Nodup := by
    intro hnd
    have := length_le_of_nodup_subset (t := (List.range d.rows.length).filter P) hnd (by
      intro m hm
      obtain ⟨a, b⟩ := k2 m hm
      exact List.mem_filter.2 ⟨List.mem_range.2 a, b⟩)
    omega
  obtain ⟨a, m, b, c, hab⟩ := twice hnd
  obtain ⟨u, v, e1, e2, e3, e4⟩ := k3 a m (b ++ m :: c) (by simp [hab])
  obtain ⟨u', v', e1', e2', e3', e4'⟩ := k3 (a ++ m :: b) m c hab
  have hu : ∃ v1, u' = u ++ v1 := by
    have := e1.symm.trans e1'
    rw [List.append_eq_append_iff] at this
    rcases this with ⟨as, h1, h2⟩ | ⟨bs, h1, h2⟩
    · exact ⟨as, h1⟩
    · have := congrArg List.length h1
      simp only [List.length_append, List.length_cons] at this e2'
      omega
  obtain ⟨v1, rfl⟩ := hu
  obtain ⟨m', f1, f2⟩ := e3'.split
  have : m' = m := by
    have := f1.run.symm.trans e3.run
    simpa using this
  subst this
  refine ⟨u, v1, v', m', e1', ?_, e3, f2, e4'⟩
  rintro rfl
  simp only [List.length_append, List.length_cons, List.length_nil] at e2' e2
  omega

/-- A loop can be cut out. -/
theorem Walk.short {q q' : Nat} {x : List Nat} (hd : d.WF p) (hq : q < d.rows.length) (h : Walk d P q x q') :
    ∃ x', x'.length ≤ ((List.range d.rows.length).filter P).length ∧ Walk d P q x' q' := by
  generalize hn : x.length = n
  induction n using Nat.strongRecOn generalizing x with
  | _ n ih =>
    by_cases hl : ((List.range d.rows.length).filter P).length < x.length
    · obtain ⟨u, v, w, m, rfl, hv, h1, h2, h3⟩ := h.loop hd hq hl
      refine ih (u ++ w).length ?_ (h1.append h3) rfl
      have := List.length_pos_iff.2 hv
      simp only [List.length_append] at hn ⊢
      omega
    · exact ⟨x, by omega, h⟩

/-- A loop can be repeated. -/
theorem Walk.long {q q' : Nat} {x : List Nat} (hd : d.WF p) (hq : q < d.rows.length) (h : Walk d P q x q')
    (hl : ((List.range d.rows.length).filter P).length < x.length) (n : Nat) : ∃ x', n ≤ x'.length ∧ Walk d P q x' q' := by
  obtain ⟨u, v, w, m, rfl, hv, h1, h2, h3⟩ := h.loop hd hq hl
  have key : ∀ n, ∃ y, n ≤ y.length ∧ Walk d P m y m := by
    intro n
    induction n with
    | zero => exact ⟨[], by simp, .nil _⟩
    | succ n ih =>
      obtain ⟨y, k1, k2⟩ := ih
      refine ⟨v ++ y, ?_, h2.append k2⟩
      have := List.length_pos_iff.2 hv
      simp only [List.length_append]
      omega
  obtain ⟨y, k1, k2⟩ := key n
  exact ⟨u ++ y ++ w, by simp only [List.length_append]; omega, (h1.append k2).append h3⟩

/-! ## The check -/

theorem hasChar_iff {r : Nat × Nat} : hasChar r = true ↔ ∃ c, IsChar c ∧ r.1 ≤ c ∧ c < r.2 := by
  obtain ⟨lo, hi⟩ := r
  simp only [hasChar, IsChar, Bool.and_eq_true, Bool.or_eq_true, decide_eq_true_eq]
  constructor
  · rintro ⟨h1, h2 | ⟨h2, h3⟩⟩
    · exact ⟨lo, .inl h2, Nat.le_refl _, h1⟩
    · exact ⟨max lo 0xE000, .inr ⟨by omega, by omega⟩, by omega, by omega⟩
  · rintro ⟨c, h1, h2, h3⟩
    omega

theorem mem_succs (hd : d.WF p) {S : List Nat} (hS : ∀ q ∈ S, q < d.rows.length) {m : Nat} :
    m ∈ d.succs P S ↔ P m = true ∧ ∃ q ∈ S, ∃ c, IsChar c ∧ d.next q c = some m := by
  have hnext : ∀ q, q < d.rows.length → ∀ c n, d.next q c = some n ↔ ∃ lo hi, ((lo, hi), n) ∈ d.rows.getD q [] ∧ lo ≤ c ∧ c < hi := by
    intro q hq c n
    rw [next_eq hq]
    refine nextInRow_iff (len := d.rows.length) (hd.rows _ ?_)
    rw [List.getD_eq_getElem?_getD, List.getElem?_eq_getElem hq]
    exact List.getElem_mem _
  simp only [DFA.succs, List.mem_filter, List.mem_range, Bool.and_eq_true, List.any_eq_true, beq_iff_eq]
  constructor
  · rintro ⟨h1, h2, q, h3, ⟨⟨lo, hi⟩, m'⟩, h4, rfl, h5⟩
    obtain ⟨c, k1, k2, k3⟩ := hasChar_iff.1 h5
    exact ⟨h2, q, h3, c, k1, (hnext q (hS q h3) c _).2 ⟨lo, hi, h4, k2, k3⟩⟩
  · rintro ⟨h1, q, h2, c, h3, h4⟩
    obtain ⟨lo, hi, k1, k2, k3⟩ := (hnext q (hS q h2) c m).1 h4
    exact ⟨run_lt hd [c] q m (hS q h2) (by simp [DFA.run, h4]), h1, q, h2, ⟨(lo, hi), m⟩, k1, rfl, hasChar_iff.2 ⟨c, h3, k2, k3⟩⟩

theorem mem_after (hd : d.WF p) (n : Nat) : ∀ {S : List Nat}, (∀ q ∈ S, q < d.rows.length) → ∀ {m : Nat},
    m ∈ d.after P n S ↔ ∃ q ∈ S, ∃ x, x.length = n ∧ Walk d P q x m := by
  induction n with
  | zero =>
    intro S hS m
    simp only [DFA.after]
    constructor
    · intro h; exact ⟨m, h, [], rfl, .nil _⟩
    · rintro ⟨q, h, x, h1, h2⟩
      cases List.length_eq_zero_iff.1 h1
      cases h2
      exact h
  | succ n ih =>
    intro S hS m
    simp only [DFA.after]
    rw [ih (S := d.succs P S) (fun q hq => List.mem_range.1 (List.mem_filter.1 hq).1)]
    constructor
    · rintro ⟨q, h, x, h1, h2⟩
      obtain ⟨k1, q0, k2, c, k3, k4⟩ := (mem_succs hd hS).1 h
      exact ⟨q0, k2, c :: x, by simp [h1], .cons _ _ _ _ _ k4 k1 k3 h2⟩
    · rintro ⟨q, h, x, h1, h2⟩
      cases h2 with
      | nil => cases h1
      | cons _ c k y _ k1 k2 k3 k4 => exact ⟨k, (mem_succs hd hS).2 ⟨k2, q, h, c, k3, k1⟩, y, by simpa using h1, k4⟩

theorem mem_accepting (hd : d.WF p) {q : Nat} : q ∈ d.accepting ↔ ∃ w k, IsText w ∧ d.run d.b w = some q ∧ d.accept q = some k := by
  have hb : ∀ q ∈ [d.b], q < d.rows.length := by simpa using hd.b
  simp only [DFA.accepting, List.mem_filter, List.mem_flatMap, List.mem_range, mem_after hd _ hb, List.mem_singleton, exists_eq_left, Option.isSome_iff_exists]
  constructor
  · rintro ⟨⟨n, h1, x, h2, h3⟩, k, h4⟩
    exact ⟨x, k, h3.text, h3.run, h4⟩
  · rintro ⟨w, k, h1, h2, h3⟩
    obtain ⟨x, k1, k2⟩ := (walk_of_run (P := fun _ => true) h1 h2 (by simp)).short hd hd.b
    have : ((List.range d.rows.length).filter fun _ => true).length ≤ d.rows.length := by
      have := List.length_filter_le (fun _ => true) (List.range d.rows.length)
      rwa [List.length_range] at this
    exact ⟨⟨x.length, by omega, x, rfl, k2⟩, k, h3⟩

end Verif.Tok
