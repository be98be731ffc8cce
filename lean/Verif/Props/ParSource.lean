import Verif.Par.SourceProof
import Verif.Props.ParRightmost

/-!
# Property C46: parsing an arbitrary iterator
-/

namespace Verif.Par

variable {N T E σ : Type}

/-- A built parser on a source that gives `l` and then `None`: the same rounds. -/
theorem rounds_from {o : Seeds} (ho : o.Fair) {rules : List (Rule N T E)} {start : Nat} (hok : (gram rules start).Ok)
    {p : Parser N T E} {ws : List Warning} (hm : MakesParser o rules start p ws) {idx : T → Nat} {nxt : Source σ T} {s : σ} {l : List T}
    (hg : Gives nxt s l) (n : Nat) :
    (∃ c, (run idx p n (Cfg.init p l)).cfg? = some c ∧ c.pulls ≤ l.length + 1 ∧
      runFrom idx nxt p n (Cfg.init p []) s = ((run idx p n (Cfg.init p l)).withSrc [], after nxt c.pulls s)) ∨
    (run idx p n (Cfg.init p l) = .panic ∧ ∃ s', runFrom idx nxt p n (Cfg.init p []) s = (.panic, s')) := by
  have key : ∀ n c, (run idx p n (Cfg.init p l)).cfg? = some c → c.pulls ≤ l.length + 1 ∧
      runFrom idx nxt p n (Cfg.init p []) s = ((run idx p n (Cfg.init p l)).withSrc [], after nxt c.pulls s) := by
    intro n c hc
    have hp : c.pulls ≤ l.length + 1 := by
      apply c31_pulls o ho rules start hok p ws hm idx l n c
      cases hr : run idx p n (Cfg.init p l) with
      | more c => rw [hr] at hc; cases hc; exact Or.inl rfl
      | done x c => rw [hr] at hc; cases hc; exact Or.inr ⟨x, rfl⟩
      | panic => rw [hr] at hc; cases hc
    exact ⟨hp, runFrom_init hc (fun k hk => hg k (by omega))⟩
  cases hr : run idx p n (Cfg.init p l) with
  | more c =>
    have hc : (run idx p n (Cfg.init p l)).cfg? = some c := by rw [hr]; rfl
    have := key n c hc
    rw [hr] at this
    exact Or.inl ⟨c, rfl, this⟩
  | done x c =>
    have hc : (run idx p n (Cfg.init p l)).cfg? = some c := by rw [hr]; rfl
    have := key n c hc
    rw [hr] at this
    exact Or.inl ⟨c, rfl, this⟩
  | panic =>
    right
    refine ⟨rfl, ?_⟩
    obtain ⟨m, c, h1, h2⟩ := run_panic n _ hr
    have hc : (run idx p m (Cfg.init p l)).cfg? = some c := by rw [h1]; rfl
    obtain ⟨h3, h4⟩ := key m c hc
    rw [h1] at h4
    have hlt : m < n := by
      apply Classical.byContradiction
      intro hle
      obtain ⟨k, rfl⟩ : ∃ k, m = n + k := ⟨m - n, by omega⟩
      have := run_add (idx := idx) (p := p) n k (Cfg.init p l)
      rw [hr] at this
      rw [h1] at this
      cases this
    obtain ⟨k, rfl⟩ : ∃ k, n = m + 1 + k := ⟨n - m - 1, by omega⟩
    obtain ⟨fresh, hx⟩ := ctx_of_makes ho hok hm
    have hpull : c.next = 1 → c.pulls ≤ l.length := by
      intro h
      have hb : c.buffer = [] := by
        unfold Cfg.next at h
        split at h
        · rename_i h'; exact List.isEmpty_iff.1 h'
        · cases h
      rcases Reach.run (idx := idx) hx (Reach.init (input := l)) m with ⟨c', g1, g2⟩ | g1
      · rw [h1] at g1
        cases g1
        obtain ⟨_, _, _, _, _, g2, _⟩ := g2
        have e := g2.pulls
        rw [hb, if_neg (by simp)] at e
        have e2 := congrArg List.length g2.read
        simp at e2
        omega
      · rw [h1] at g1; cases g1
    have hsrc : c.next = 1 → answer nxt 0 (after nxt c.pulls s) = c.src[0]? := by
      intro h
      have g1 := hpull h
      obtain ⟨k, e1, e2, _⟩ := run_src m (Cfg.init p l) c [] (by rw [h1]; rfl)
      have e1 : c.pulls = 0 + k := e1
      have e2 : c.src = l.drop k := e2
      rw [← answer_add, Nat.add_zero, hg _ g1, e2, List.getElem?_drop]
      congr 1
      omega
    have hstep : runFrom idx nxt p 1 (c.withSrc []) (after nxt c.pulls s) = (.panic, after nxt c.next (after nxt c.pulls s)) := by
      simp only [runFrom]
      rw [pull_fill hsrc]
      simp only
      rw [step_fill, h2]
      rfl
    have e1 := runFrom_more m _ _ _ _ 1 h4
    rw [hstep] at e1
    have e2 := runFrom_end (m + 1) (Cfg.init p []) s (k := k) (idx := idx) (nxt := nxt) (p := p) (by rw [e1]; intro c' h; cases h)
    exact ⟨_, e2.trans e1⟩

/-! ## C46 -/

/-- C46: parsing a source that gives the items `l` and then `None` has the outcome of parsing `l`, with the same calls of callbacks; the
source has been called as often as is said by `pulls`, and never after it answered `None`.  So it does not matter what it would answer
later. -/
theorem c46_source (o : Seeds) (ho : o.Fair) (rules : List (Rule N T E)) (start : Nat) (hok : (gram rules start).Ok)
    (p : Parser N T E) (ws : List Warning) (hm : MakesParser o rules start p ws) (idx : T → Nat) (nxt : Source σ T) (s : σ) (l : List T)
    (hg : Gives nxt s l) :
    (∀ x c s', ParsesFrom idx nxt p s x c s' → c.pulls ≤ l.length + 1 ∧ s' = after nxt c.pulls s ∧
      ∃ c0, ParsesTo idx p l x c0 ∧ c0.log = c.log ∧ c0.pulls = c.pulls) ∧
    (∀ x c0, ParsesTo idx p l x c0 → ∃ c s', ParsesFrom idx nxt p s x c s') ∧
    (PanicsFrom idx nxt p s ↔ ParsePanics idx p l) ∧ (DivergesFrom idx nxt p s ↔ ParseDiverges idx p l) := by
  have key := rounds_from (idx := idx) ho hok hm hg
  refine ⟨?_, ?_, ?_, ?_⟩
  · rintro x c s' ⟨n, hn⟩
    rcases key n with ⟨c0, h1, h2, h3⟩ | ⟨_, s1, h3⟩
    · rw [hn] at h3
      cases hr : run idx p n (Cfg.init p l) with
      | more c1 => rw [hr] at h3; cases h3
      | panic => rw [hr] at h1; cases h1
      | done x1 c1 =>
        rw [hr] at h1 h3
        cases h1
        cases h3
        exact ⟨h2, rfl, c0, ⟨n, hr⟩, rfl, rfl⟩
    · rw [hn] at h3; cases h3
  · rintro x c0 ⟨n, hn⟩
    rcases key n with ⟨c1, _, _, h3⟩ | ⟨h1, _⟩
    · rw [hn] at h3
      exact ⟨_, _, n, h3⟩
    · rw [hn] at h1; cases h1
  · constructor
    · rintro ⟨n, s', hn⟩
      rcases key n with ⟨c1, h1, _, h3⟩ | ⟨h1, _⟩
      · rw [hn] at h3
        refine ⟨n, ?_⟩
        cases hr : run idx p n (Cfg.init p l) with
        | more c1 => rw [hr] at h3; cases h3
        | done x1 c1 => rw [hr] at h3; cases h3
        | panic => rfl
      · exact ⟨n, h1⟩
    · rintro ⟨n, hn⟩
      rcases key n with ⟨c1, h1, _, _⟩ | ⟨_, s', h3⟩
      · rw [hn] at h1; cases h1
      · exact ⟨n, s', h3⟩
  · constructor
    · intro h n
      obtain ⟨c, s', hn⟩ := h n
      rcases key n with ⟨c1, h1, _, h3⟩ | ⟨_, s1, h3⟩
      · rw [hn] at h3
        cases hr : run idx p n (Cfg.init p l) with
        | more c1 => exact ⟨c1, rfl⟩
        | done x1 c1 => rw [hr] at h3; cases h3
        | panic => rw [hr] at h1; cases h1
      · rw [hn] at h3; cases h3
    · intro h n
      obtain ⟨c, hn⟩ := h n
      rcases key n with ⟨c1, h1, _, h3⟩ | ⟨h1, _⟩
      · rw [hn] at h3
        exact ⟨_, _, h3⟩
      · rw [hn] at h1; cases h1

/-- C46: on an endless source `parse` never returns `Ok` and does not panic; if it returns an error, then it has read finitely many
items, and every list that begins with them gives the same error with the same calls of callbacks. -/
theorem c46_endless (o : Seeds) (ho : o.Fair) (rules : List (Rule N T E)) (start : Nat) (hok : (gram rules start).Ok)
    (p : Parser N T E) (ws : List Warning) (hm : MakesParser o rules start p ws) (idx : T → Nat) (nxt : Source σ T) (s : σ)
    (he : Endless nxt s) :
    (∀ v c s', ¬ ParsesFrom idx nxt p s (.ok v) c s') ∧ ¬ PanicsFrom idx nxt p s ∧
    (∀ x c s', ParsesFrom idx nxt p s x c s' → s' = after nxt c.pulls s ∧ ∀ l, Begins nxt s l → c.pulls ≤ l.length →
      ∃ c0, ParsesTo idx p l x c0 ∧ c0.log = c.log ∧ c0.pulls = c.pulls) := by
  have key : ∀ n, ∃ l, Begins nxt s l ∧ n < l.length ∧ (runFrom idx nxt p n (Cfg.init p []) s).1 = (run idx p n (Cfg.init p l)).withSrc [] := by
    intro n
    obtain ⟨l, hl, hb⟩ := he.begins (n + 1)
    exact ⟨l, hb, by omega, runFrom_all n (Cfg.init p l) s (fun k hk => hb k (by omega))⟩
  have key2 : ∀ n x c s', runFrom idx nxt p n (Cfg.init p []) s = (.done x c, s') → ∃ l c0, Begins nxt s l ∧ n < l.length ∧
      run idx p n (Cfg.init p l) = .done x c0 ∧ c = c0.withSrc [] ∧ c0.pulls ≤ n ∧ s' = after nxt c.pulls s := by
    intro n x c s' hn
    obtain ⟨l, h1, h2, h3⟩ := key n
    rw [hn] at h3
    cases hr : run idx p n (Cfg.init p l) with
    | more c1 => rw [hr] at h3; cases h3
    | panic => rw [hr] at h3; cases h3
    | done x1 c1 =>
      rw [hr] at h3
      cases h3
      have h4 := (run_pulls n (Cfg.init p l) c1 (by rw [hr]; rfl)).2
      have h4 : c1.pulls ≤ 0 + n := h4
      have h5 := runFrom_init (idx := idx) (p := p) (nxt := nxt) (s := s) (l := l) (n := n) (c' := c1) (by rw [hr]; rfl)
        (fun k hk => h1 k (by omega))
      rw [hn] at h5
      exact ⟨l, c1, h1, h2, hr, rfl, by omega, congrArg Prod.snd h5⟩
  refine ⟨?_, ?_, ?_⟩
  · rintro v c s' ⟨n, hn⟩
    obtain ⟨l, c0, h1, h2, h3, h4, h5, h6⟩ := key2 n _ c s' hn
    have := c31_ok o ho rules start hok p ws hm idx l v c0 ⟨n, h3⟩
    omega
  · rintro ⟨n, s', hn⟩
    obtain ⟨l, h1, h2, h3⟩ := key n
    rw [hn] at h3
    cases hr : run idx p n (Cfg.init p l) with
    | more c1 => rw [hr] at h3; cases h3
    | done x1 c1 => rw [hr] at h3; cases h3
    | panic =>
      refine c29_no_panic o ho rules start hok p ws hm idx l (Or.inl ?_) ⟨n, hr⟩
      intro h
      rw [h] at h2
      simp at h2
  · rintro x c s' ⟨n, hn⟩
    obtain ⟨l, c0, h1, h2, h3, h4, h5, h6⟩ := key2 n _ c s' hn
    refine ⟨h6, fun l' hb hl' => ?_⟩
    subst h4
    have hl' : c0.pulls ≤ l'.length := hl'
    have : l'.take c0.pulls = l.take c0.pulls := by
      apply List.ext_getElem?
      intro k
      rw [List.getElem?_take, List.getElem?_take]
      split
      · rename_i hk
        rw [← hb k (by omega), ← h1 k (by omega)]
      · rfl
    obtain ⟨c1, g1, g2, g3⟩ := c31_causal p idx l l' x c0 ⟨n, h3⟩ this
    exact ⟨c1, g1, g3, g2⟩

/-- C46: on an endless source, a parser that ends on every non-empty list (C27, C44) either returns an error, or goes on reading for
ever: it never falls into a loop without reading. -/
theorem c46_progress (o : Seeds) (ho : o.Fair) (rules : List (Rule N T E)) (start : Nat) (hok : (gram rules start).Ok)
    (p : Parser N T E) (ws : List Warning) (hm : MakesParser o rules start p ws) (idx : T → Nat)
    (hend : ∀ input, input ≠ [] → ∃ x c, ParsesTo idx p input x c) (nxt : Source σ T) (s : σ) (he : Endless nxt s) :
    (∃ e c s', ParsesFrom idx nxt p s (.error e) c s') ∨
    ∀ k, ∃ n c s', runFrom idx nxt p n (Cfg.init p []) s = (.more c, s') ∧ k < c.pulls := by
  obtain ⟨e1, e2, e3⟩ := c46_endless o ho rules start hok p ws hm idx nxt s he
  by_cases hd : ∃ x c s', ParsesFrom idx nxt p s x c s'
  · obtain ⟨x, c, s', h⟩ := hd
    cases x with
    | ok v => exact absurd h (e1 v c s')
    | error e => exact Or.inl ⟨e, c, s', h⟩
  · right
    intro k
    apply Classical.byContradiction
    intro hk
    have hmore : ∀ n, ∃ c s', runFrom idx nxt p n (Cfg.init p []) s = (.more c, s') ∧ c.pulls ≤ k := by
      intro n
      cases hr : runFrom idx nxt p n (Cfg.init p []) s with
      | mk r s' =>
        cases r with
        | more c => exact ⟨c, s', rfl, Nat.le_of_not_lt fun h => hk ⟨n, c, s', hr, h⟩⟩
        | done x c => exact absurd ⟨x, c, s', n, hr⟩ hd
        | panic => exact absurd ⟨n, s', hr⟩ e2
    obtain ⟨l, hl, hb⟩ := he.begins (k + 1)
    obtain ⟨x, c, n, hn⟩ := hend l (by intro h; rw [h] at hl; cases hl)
    obtain ⟨c1, s1, h1, h2⟩ := hmore n
    obtain ⟨l2, hl2, hb2⟩ := he.begins (k + n + 1)
    have h3 := runFrom_all (idx := idx) (p := p) (nxt := nxt) n (Cfg.init p l2) s (fun j hj => hb2 j (by omega))
    have h3 : (runFrom idx nxt p n (Cfg.init p []) s).1 = (run idx p n (Cfg.init p l2)).withSrc [] := h3
    rw [h1] at h3
    cases hr : run idx p n (Cfg.init p l2) with
    | done x c2 => rw [hr] at h3; cases h3
    | panic => rw [hr] at h3; cases h3
    | more c2 =>
      rw [hr] at h3
      cases h3
      have h2 : c2.pulls ≤ k := h2
      have : l.take c2.pulls = l2.take c2.pulls := by
        apply List.ext_getElem?
        intro j
        rw [List.getElem?_take, List.getElem?_take]
        split
        · rw [← hb j (by omega), ← hb2 j (by omega)]
        · rfl
      have h4 := causal (idx := idx) (p := p) (input := l2) (n := n) (c' := c2) (by rw [hr]; rfl) this
      rw [hr, hn] at h4
      cases h4

/-! ## Examples -/

/-- A source that gives `0, 0, 1`, then `None`, then `7` for ever. -/
def moody : Source Nat Nat := fun k => (if k < 2 then some 0 else if k = 2 then some 1 else if k = 3 then none else some 7, k + 1)

example : Gives moody 0 [0, 0, 1] := by
  intro k hk
  have : k = 0 ∨ k = 1 ∨ k = 2 ∨ k = 3 := by simp at hk; omega
  rcases this with rfl | rfl | rfl | rfl <;> rfl

/-- `S → a S | b` accepts it, after four calls. -/
example : ∃ v c, ParsesFrom id moody pRight 0 (.ok v) c 4 ∧ c.pulls = 4 := ⟨_, _, ⟨30, rfl⟩, rfl⟩

/-- The source `0, 1, 0, 1, …` is endless; the error is found at the third item. -/
example : Endless (fun k => (some (k % 2), k + 1) : Source Nat Nat) 0 := by
  intro k h
  cases h

example : ∃ c, ParsesFrom id (fun k => (some (k % 2), k + 1) : Source Nat Nat) pRight 0 (.error .noRecovery) c 3 := ⟨_, ⟨30, rfl⟩⟩

/-- `S → a S | b` meets the hypotheses of `c46_progress` for the source `0, 0, 0, …` -/
example : (∃ e c s', ParsesFrom id (fun _ => (some 0, ()) : Source Unit Nat) pRight () (.error e) c s') ∨
    ∀ k, ∃ n c s', runFrom id (fun _ => (some 0, ()) : Source Unit Nat) pRight n (Cfg.init pRight []) () = (.more c, s') ∧ k < c.pulls :=
  c46_progress idSeeds idSeeds_fair rRight 0 (by decide) pRight [] pRight_makes id
    (fun input _ => c27_terminates idSeeds idSeeds_fair rRight 0 (by decide) (by unfold Gram.NoError; decide) gRight_productive pRight pRight_makes id input)
    (fun _ => (some 0, ()) : Source Unit Nat) () (by intro k h; cases h)

end Verif.Par
