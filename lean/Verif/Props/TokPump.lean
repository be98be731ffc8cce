import Verif.Props.TokAgree

/-!
# Property C102: long tokens
-/

namespace Verif.Tok

/-- A text repeated. -/
def times (i : Nat) (y : List Nat) : List Nat := (List.replicate i y).flatten

theorem times_succ (i : Nat) (y : List Nat) : times (i + 1) y = y ++ times i y := by simp [times, List.replicate_succ]

theorem run_some_take {d : DFA} {w : List Nat} {i q : Nat} (h : d.run i w = some q) (m : Nat) :
    ∃ p, d.run i (w.take m) = some p ∧ d.run p (w.drop m) = some q := by
  rw [← List.take_append_drop m w, DFA.run_append] at h
  cases hr : d.run i (w.take m) with
  | none => rw [hr] at h; cases h
  | some p => rw [hr] at h; exact ⟨p, rfl, h⟩

/-- A long path goes in a circle. -/
theorem circle {d : DFA} {pn : Nat} (hd : d.WF pn) {w : List Nat} {q : Nat} (h : d.run d.b w = some q) (hl : d.rows.length ≤ w.length) :
    ∃ x y z p, w = x ++ (y ++ z) ∧ y ≠ [] ∧ (x ++ y).length ≤ d.rows.length ∧ d.run d.b x = some p ∧ d.run p y = some p ∧ d.run p z = some q := by
  let f : Nat → Nat := fun i => (d.run d.b (w.take i)).getD 0
  have hf : ∀ i, d.run d.b (w.take i) = some (f i) := by
    intro i
    obtain ⟨p, hp, _⟩ := run_some_take h i
    simp [f, hp]
  have hnd : ¬ ((List.range (d.rows.length + 1)).map f).Nodup := by
    intro hn
    have := length_le_of_nodup_subset hn (t := List.range d.rows.length) (by
      intro a ha
      obtain ⟨i, _, rfl⟩ := List.mem_map.1 ha
      exact List.mem_range.2 (run_lt hd _ _ _ hd.b (hf i)))
    simp at this
    omega
  obtain ⟨i, j, hij, hj, e⟩ : ∃ i j, i < j ∧ j ≤ d.rows.length ∧ f i = f j := by
    apply Classical.byContradiction
    intro hno
    apply hnd
    rw [List.Nodup, List.pairwise_map]
    refine List.Pairwise.imp_of_mem ?_ (List.pairwise_lt_range (n := d.rows.length + 1))
    intro a b _ hb hab e
    exact hno ⟨a, b, hab, by have := List.mem_range.1 hb; omega, e⟩
  refine ⟨w.take i, (w.drop i).take (j - i), w.drop j, f i, ?_, ?_, ?_, hf i, ?_, ?_⟩
  · have : w.drop j = (w.drop i).drop (j - i) := by rw [List.drop_drop]; congr 1; omega
    rw [this, List.take_append_drop, List.take_append_drop]
  · intro h0
    have := congrArg List.length h0
    simp only [List.length_take, List.length_drop, List.length_nil] at this
    omega
  · simp only [List.length_append, List.length_take, List.length_drop]
    omega
  · obtain ⟨p, h1, h2⟩ := run_some_take (hf j) i
    rw [List.take_take, show min i j = i by omega, hf i] at h1
    cases h1
    rw [List.drop_take] at h2
    rw [h2, e]
  · obtain ⟨p, h1, h2⟩ := run_some_take h j
    rw [hf j, ← e] at h1
    cases h1
    exact h2

theorem run_times {d : DFA} {p : Nat} {y : List Nat} (h : d.run p y = some p) (i : Nat) : d.run p (times i y) = some p := by
  induction i with
  | zero => rfl
  | succ i ih => rw [times_succ, DFA.run_append, h]; exact ih

variable {π ρ α E : Type} {parse : π → Except ρ Hir} {s : Seeds} {ps : List (π × (List Nat → List α → E))}
  {t : Tokenizer α E} {ws : List (Nat × Nat)}

theorem accepts_some {w : List Nat} {k : Nat} (h : t.accepts w = some k) : ∃ q, t.dfa.run t.dfa.b w = some q ∧ t.dfa.accept q = some k := by
  unfold Tokenizer.accepts DFA.obs at h
  cases hr : t.dfa.run t.dfa.b w with
  | none => rw [hr] at h; cases h
  | some q => rw [hr] at h; exact ⟨q, rfl, by simpa using h⟩

theorem accepts_of_run {w : List Nat} {k q : Nat} (h : t.dfa.run t.dfa.b w = some q) (ha : t.dfa.accept q = some k) : t.accepts w = some k := by
  unfold Tokenizer.accepts DFA.obs
  rw [h]
  simpa using ha

/-- C102: a text at least as long as there are states, for which a pattern wins, has a part near its beginning that can be left out or
repeated any number of times: the same pattern wins. -/
theorem c102_pump (hparse : ParserOk parse) (hs : s.Fair) (hb : BuildsTo s parse ps (.ok (t, ws))) (k : Nat) (w : List Nat)
    (h : t.accepts w = some k) (hl : t.dfa.rows.length ≤ w.length) :
    ∃ x y z, w = x ++ y ++ z ∧ y ≠ [] ∧ (x ++ y).length ≤ t.dfa.rows.length ∧ ∀ i, t.accepts (x ++ times i y ++ z) = some k := by
  obtain ⟨_, _, _, _, h4⟩ := builds_spec hparse hs hb
  obtain ⟨q, hq, ha⟩ := accepts_some h
  obtain ⟨x, y, z, p, rfl, h1, h2, h3, h5, h6⟩ := circle h4.wf hq hl
  refine ⟨x, y, z, by simp, h1, h2, fun i => accepts_of_run ?_ ha⟩
  rw [List.append_assoc, DFA.run_append, h3, Option.bind_some, DFA.run_append, run_times h5, Option.bind_some, h6]

/-- C102: a pattern that ever wins, wins for a text that has fewer letters than there are states. -/
theorem c102_short (hparse : ParserOk parse) (hs : s.Fair) (hb : BuildsTo s parse ps (.ok (t, ws))) (k : Nat) (P : Nat → Prop)
    (h : ∃ w : List Nat, (∀ c ∈ w, P c) ∧ t.accepts w = some k) :
    ∃ w : List Nat, w.length < t.dfa.rows.length ∧ (∀ c ∈ w, P c) ∧ t.accepts w = some k := by
  obtain ⟨w, hP, hw⟩ := h
  generalize hn : w.length = n
  induction n using Nat.strongRecOn generalizing w with
  | ind n ih =>
    by_cases hl : w.length < t.dfa.rows.length
    · exact ⟨w, hl, hP, hw⟩
    · obtain ⟨x, y, z, rfl, h1, h2, h3⟩ := c102_pump hparse hs hb k w hw (by omega)
      have h0 : t.accepts (x ++ z) = some k := by simpa [times] using h3 0
      have : 0 < y.length := List.length_pos_iff.2 h1
      simp only [List.length_append] at hn
      refine ih (x ++ z).length (by simp only [List.length_append]; omega) (x ++ z) ?_ h0 rfl
      intro c hc
      rcases List.mem_append.1 hc with hc | hc
      · exact hP c (by simp [hc])
      · exact hP c (by simp [hc])

/-- C102: either all tokens have fewer items than there are states, or there is no bound: for a pattern that makes a token of at least so
many items there are inputs for which it makes a token of any length. -/
theorem c102_unbounded (hparse : ParserOk parse) (hs : s.Fair) (hb : BuildsTo s parse ps (.ok (t, ws))) (map : α → Nat) (it : It α)
    (n k : Nat) (hl : t.dfa.rows.length ≤ n) (hn : n ≤ it.rest.length) (ha : t.accepts ((it.rest.take n).map map) = some k) (N : Nat) :
    ∃ (input : List α) (p : π × (List Nat → List α → E)), N ≤ input.length ∧ ps[k]? = some p ∧
      (t.next map (It.start input)).1 = .token (p.2 (input.map map) input) := by
  obtain ⟨x, y, z, e, h1, h2, h3⟩ := c102_pump hparse hs hb k _ ha (by simpa using by omega)
  have hw := h3 N
  obtain ⟨input, hin⟩ : ∃ input : List α, input.map map = x ++ times N y ++ z := by
    apply words_of
    have hsub : ∀ c ∈ x ++ times N y ++ z, c ∈ x ++ y ++ z := by
      intro c hc
      simp only [List.mem_append, times, List.mem_flatten, List.mem_replicate] at hc ⊢
      rcases hc with (hc | ⟨l, ⟨_, rfl⟩, hc⟩) | hc
      · exact .inl (.inl hc)
      · exact .inl (.inr hc)
      · exact .inr hc
    intro c hc
    have := hsub c hc
    rw [← e] at this
    obtain ⟨a, _, rfl⟩ := List.mem_map.1 this
    exact ⟨a, rfl⟩
  rw [← hin] at hw
  have hlen : N ≤ input.length := by
    have := congrArg List.length hin
    simp only [List.length_map, List.length_append, times, List.length_flatten, List.map_replicate, List.sum_replicate_nat] at this
    have h0 : 0 < y.length := List.length_pos_iff.2 h1
    have : N * 1 ≤ N * y.length := Nat.mul_le_mul_left _ h0
    omega
  obtain ⟨r, _, _, _, _, ⟨_, _, c3⟩ | ⟨m, k', p, c0, _, c1, c2, c3, c4, _⟩⟩ := next_built map hparse hs hb (It.start input)
  · have := c3 input.length
    rw [show (It.start input).rest = input from rfl, List.take_of_length_le (by simp), hw] at this
    cases this
  · rw [show (It.start input).rest = input from rfl] at c0 c2 c3 c4
    have hm : m = input.length := by
      apply Classical.byContradiction
      intro hne
      have := c3 input.length (by omega) (Nat.le_refl _)
      rw [List.take_of_length_le (by simp), hw] at this
      cases this
    subst hm
    rw [List.take_of_length_le (by simp), hw] at c2
    cases c2
    rw [List.take_of_length_le (by simp), List.take_of_length_le (by simp)] at c4
    exact ⟨input, p, hlen, c1, c4⟩

/-- C102: whether the lengths of the texts for which patterns win are bounded can be seen at the texts with at least as many letters as
there are states and fewer than twice as many; and if there is a bound, the number of states is one. -/
theorem c102_bounded (hparse : ParserOk parse) (hs : s.Fair) (hb : BuildsTo s parse ps (.ok (t, ws))) :
    ((∃ B, ∀ w k, t.accepts w = some k → w.length ≤ B) ↔
      ∀ w : List Nat, t.dfa.rows.length ≤ w.length → w.length < 2 * t.dfa.rows.length → t.accepts w = none) ∧
    ((∃ B, ∀ w k, t.accepts w = some k → w.length ≤ B) ↔ ∀ w k, t.accepts w = some k → w.length < t.dfa.rows.length) := by
  have h1 : (∃ B, ∀ w k, t.accepts w = some k → w.length ≤ B) → ∀ w k, t.accepts w = some k → w.length < t.dfa.rows.length := by
    rintro ⟨B, hB⟩ w k h
    apply Nat.lt_of_not_le
    intro hl
    obtain ⟨x, y, z, e, h1, h2, h3⟩ := c102_pump hparse hs hb k w h hl
    have := hB _ _ (h3 (B + 1))
    simp only [List.length_append, times, List.length_flatten, List.map_replicate, List.sum_replicate_nat] at this
    have h0 : 0 < y.length := List.length_pos_iff.2 h1
    have : (B + 1) * 1 ≤ (B + 1) * y.length := Nat.mul_le_mul_left _ h0
    omega
  have h2 : (∀ w : List Nat, t.dfa.rows.length ≤ w.length → w.length < 2 * t.dfa.rows.length → t.accepts w = none) →
      ∀ w k, t.accepts w = some k → w.length < t.dfa.rows.length := by
    intro hno w k h
    generalize hn : w.length = n
    induction n using Nat.strongRecOn generalizing w with
    | ind n ih =>
      apply Nat.lt_of_not_le
      intro hl
      by_cases hlt : n < 2 * t.dfa.rows.length
      · rw [hno w (by omega) (by omega)] at h
        cases h
      · obtain ⟨x, y, z, rfl, g1, g2, g3⟩ := c102_pump hparse hs hb k w h (by omega)
        have h0 : t.accepts (x ++ z) = some k := by simpa [times] using g3 0
        have : 0 < y.length := List.length_pos_iff.2 g1
        simp only [List.length_append] at hn g2
        have := ih (x ++ z).length (by simp only [List.length_append]; omega) (x ++ z) h0 rfl
        simp only [List.length_append] at this
        omega
  have h3 : (∀ w k, t.accepts w = some k → w.length < t.dfa.rows.length) → ∃ B, ∀ w k, t.accepts w = some k → w.length ≤ B :=
    fun h => ⟨_, fun w k hw => Nat.le_of_lt (h w k hw)⟩
  refine ⟨⟨fun h w hw _ => ?_, fun h => h3 (h2 h)⟩, h1, h3⟩
  cases ha : t.accepts w with
  | none => rfl
  | some k =>
    have := h1 h w k ha
    omega

/-- C102: whether a pattern is ever the first to match can be seen at the texts that have fewer letters than there are states. -/
theorem c102_dead (hparse : ParserOk parse) (hs : s.Fair) (hc : Calm s parse ps) (hb : BuildsTo s parse ps (.ok (t, ws))) (k : Nat) :
    (∃ w, Least (PatCode parse ps) k w) ↔ ∃ w, w.length < t.dfa.rows.length ∧ Least (PatCode parse ps) k w := by
  simp only [← accepts_least hparse hs hc hb]
  constructor
  · rintro ⟨w, hw⟩
    obtain ⟨w', h1, _, h2⟩ := c102_short hparse hs hb k (fun _ => True) ⟨w, fun _ _ => trivial, hw⟩
    exact ⟨w', h1, h2⟩
  · rintro ⟨w, _, hw⟩
    exact ⟨w, hw⟩

/-! ## Examples -/

/-- `ab*`: `abbb` has at least as many letters as there are states, so there are tokens of any length. -/
example (N : Nat) : ∃ r, BuildsTo seeds0 parse0 (tagged [.concat [ra, .rep .zeroOrMore rb]]) (.ok r) ∧
    ∃ input : List Nat, N ≤ input.length ∧ (r.1.next id (It.start input)).1 = .token (0, input) := by
  obtain ⟨r, hb, e⟩ := tok0_spec (s := seeds0) (hs := [.concat [ra, .rep .zeroOrMore rb]])
    (g := fun r => (r.1.dfa.rows.length, r.1.accepts [97, 98, 98, 98])) (x := (2, some 0)) (by decide +kernel)
  simp only [Prod.mk.injEq] at e
  obtain ⟨input, p, h1, h2, h3⟩ := c102_unbounded parse0_ok seeds0_fair hb id (It.start [97, 98, 98, 98]) 4 0 (by omega) (Nat.le_refl _) e.2 N
  refine ⟨r, hb, input, h1, ?_⟩
  rw [h3]
  cases h2
  rfl

/-- `a{3}` has four states, and its only text has three letters; so `c102_short` cannot be improved. -/
example : (tok0 seeds0 [.rep (.exactly 3) ra]).map (fun r => (r.1.dfa.rows.length, (List.range 6).map fun k => r.1.accepts (List.replicate k 97))) =
    some (4, [none, none, none, some 0, none, none]) := by decide +kernel

/-- So all tokens have at most three letters. -/
example : ∃ r, BuildsTo seeds0 parse0 (tagged [.rep (.exactly 3) ra]) (.ok r) ∧ ∀ w k, r.1.accepts w = some k → w.length < 4 := by
  let tab : List Row × Nat × List (Option Nat) := ([[((97, 98), 1)], [((97, 98), 2)], [((97, 98), 3)], []], 0, [none, none, none, some 0])
  obtain ⟨r, hb, e⟩ := tok0_spec (s := seeds0) (hs := [.rep (.exactly 3) ra])
    (g := fun r => (r.1.dfa.rows, r.1.dfa.b, r.1.dfa.ends)) (x := tab) (by decide +kernel)
  simp only [tab, Prod.mk.injEq] at e
  refine ⟨r, hb, ?_⟩
  have hl : r.1.dfa.rows.length = 4 := by rw [e.1]; rfl
  rw [← hl]
  apply (c102_bounded parse0_ok seeds0_fair hb).2.1
  refine ⟨3, ?_⟩
  have hstep : ∀ i c m, r.1.dfa.next i c = some m → i < m ∧ m ≤ 3 := by
    intro i c m h
    unfold DFA.next at h
    rw [e.1] at h
    rcases i with _ | _ | _ | _ | i
    all_goals
      simp [nextInRow, lastLE] at h
      try
        by_cases h1 : 97 ≤ c <;> simp only [h1, if_true, if_false] at h
        · split at h <;> cases h
          omega
        · cases h
  have hrun : ∀ (w : List Nat) i q, r.1.dfa.run i w = some q → i ≤ 3 → i + w.length ≤ 3 := by
    intro w
    induction w with
    | nil => intro i q _ hi; exact hi
    | cons c w ih =>
      intro i q h hi
      simp only [DFA.run] at h
      cases hn : r.1.dfa.next i c with
      | none => rw [hn] at h; cases h
      | some m =>
        rw [hn] at h
        obtain ⟨a, b⟩ := hstep i c m hn
        have := ih m q h b
        simp only [List.length_cons]
        omega
  intro w k h
  obtain ⟨q, hq, _⟩ := accepts_some h
  have := hrun w _ q hq (by rw [e.2.1]; omega)
  omega

end Verif.Tok
