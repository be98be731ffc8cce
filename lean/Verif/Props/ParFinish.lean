import Verif.Par.Finish
import Verif.Props.ParPump

/-!
# Property C107: beginnings of inputs can be completed with few tokens
-/

namespace Verif.Par

variable {N T E : Type} {o : Seeds} {rules : List (Rule N T E)} {start : Nat} {p : Parser N T E} {idx : T → Nat}

/-- How many tokens are enough to complete a beginning of `n` tokens, for `m` non-terminals and right-hand sides of at most `k` symbols. -/
def endBound (k m n : Nat) : Nat := k ^ (m + 1) * (m * (n + 1))

theorem sentence_finish {g : Gram} (k : Nat) (hk : 1 ≤ k) (hR : ∀ r ∈ g.rules, r.rhs.length ≤ k) {u z : List Nat} (h : g.Sentence (u ++ z)) :
    ∃ z' : List Nat, z'.Sublist z ∧ z'.length ≤ endBound k (g.rules.map PRule.lhs).eraseDups.length u.length ∧ g.Sentence (u ++ z') := by
  rw [sentence_gen] at h
  obtain ⟨z1, h1, h2, h3⟩ := gen_finish k hk hR (u := syms u) (z := syms z) (by simpa [syms] using h)
  obtain ⟨z', hz, rfl⟩ := List.sublist_map_iff.1 h1
  refine ⟨z', hz, by simpa [syms, endBound, heads] using h2, ?_⟩
  rw [sentence_gen]
  simpa [syms] using h3

theorem heads_plain (rules : List (Rule N T E)) (start : Nat) : (gram rules start).rules.map PRule.lhs = rules.map Rule.lhs := by
  simp [gram, Function.comp_def, Rule.plain]

theorem plain_le {k : Nat} (hR : ∀ r ∈ rules, r.rhs.length ≤ k) : ∀ r ∈ (gram rules start).rules, r.rhs.length ≤ k := by
  intro r hr
  obtain ⟨r', hr', rfl⟩ := List.mem_map.1 hr
  exact hR r' hr'

/-- C107: let there be no warnings, no error rules and no failing callbacks; let `m` be the number of different non-terminals with
rules and let no right-hand side be longer than `k`.  If an input is accepted, then, for each of its beginnings, tokens can be left out
behind it so that no more than `k ^ (m + 1) · m · (n + 1)` remain there, `n` the length of the beginning, and the result is accepted. -/
theorem c107_rest (ho : o.Fair) (hok : (gram rules start).Ok) (hn : (gram rules start).NoError)
    (hg : ∀ r ∈ rules, ∀ l, ∃ v, r.gen l = .ok v) (hm : MakesParser o rules start p []) (k : Nat) (hk : 1 ≤ k)
    (hR : ∀ r ∈ rules, r.rhs.length ≤ k) (u z : List T) (h : Takes idx p (u ++ z)) :
    ∃ z' : List T, z'.Sublist z ∧ z'.length ≤ endBound k (rules.map Rule.lhs).eraseDups.length u.length ∧ Takes idx p (u ++ z') := by
  obtain ⟨a, c, h⟩ := h
  have hs := c23_sentence o ho rules start hok hn p [] hm idx _ a c h
  rw [List.map_append] at hs
  obtain ⟨z1, h1, h2, h3⟩ := sentence_finish k hk (plain_le hR) hs
  obtain ⟨z', hz, rfl⟩ := List.sublist_map_iff.1 h1
  rw [heads_plain] at h2
  refine ⟨z', hz, by simpa using h2, ?_⟩
  apply c24_accepts o ho rules start hok hg p hm idx
  rw [List.map_append]
  exact h3

/-- C107: when `parse` gives up, what has been read before the offending token (or before the missing one, at the end of the input)
can be completed to an accepted input, with few tokens.  Every reachable non-terminal is assumed to derive some tokens. -/
theorem c107_error (ho : o.Fair) (hok : (gram rules start).Ok) (hn : (gram rules start).NoError) (hp : (gram rules start).Productive)
    (hg : ∀ r ∈ rules, ∀ l, ∃ v, r.gen l = .ok v) (hm : MakesParser o rules start p []) (k : Nat) (hk : 1 ≤ k)
    (hR : ∀ r ∈ rules, r.rhs.length ≤ k) (input : List T) (c : Cfg N T) (h : ParsesTo idx p input (.error .noRecovery) c) :
    ∃ z : List Nat, z.length ≤ endBound k (rules.map Rule.lhs).eraseDups.length (c.pulls - 1) ∧
      ∀ v : List T, v.map idx = z → Takes idx p (input.take (c.pulls - 1) ++ v) := by
  obtain ⟨n, hr⟩ := h
  obtain ⟨w, hw⟩ := c28_viable_prefix o ho rules start hok hn hp p [] hm idx input n c (Or.inr ⟨_, hr⟩)
  obtain ⟨z, _, h2, h3⟩ := sentence_finish k hk (plain_le hR) hw
  rw [heads_plain] at h2
  refine ⟨z, Nat.le_trans h2 ?_, fun v hv => ?_⟩
  · unfold endBound
    apply Nat.mul_le_mul_left
    apply Nat.mul_le_mul_left
    simp
    omega
  · apply c24_accepts o ho rules start hok hg p hm idx
    rw [List.map_append, List.map_take, hv]
    exact h3

/-- C107: that the bound grows with the length of the beginning cannot be helped: after `n` opening brackets and `a`, all of the accepted
inputs have `n` more tokens. -/
theorem c107_grows (ho : o.Fair) (p : Parser Nat T E) (hp : MakesParser o (rBrackets T E) 0 p []) (u z : List T) (n : Nat)
    (hu : u.map idx = List.replicate n 0 ++ [2]) (h : Takes idx p (u ++ z)) : z.length = n := by
  obtain ⟨v, h⟩ := h
  have e := ((((c103_parser o ho).2 p [] hp).2 idx (u ++ z)).1 v).1 h
  rw [List.map_append, hu] at e
  have hlen := congrArg List.length e
  have hc := congrArg (List.takeWhile (· == 0)) e
  have t : ∀ (n : Nat) (l : List Nat), (List.replicate n 0 ++ 2 :: l).takeWhile (· == 0) = List.replicate n 0 := by
    intro n l
    induction n with
    | zero => simp
    | succ n ih => simp [List.replicate_succ, ih]
  simp only [nested, List.append_assoc, List.singleton_append] at hc
  rw [t, t] at hc
  have := congrArg List.length hc
  simp [nested] at this hlen
  omega

/-! ## Examples -/

/-- The bound for `( ( a` is `3 ^ 2 · 1 · 4`; two tokens are needed. -/
example : endBound 3 1 3 = 36 := by decide

/-- `( ( a ( ) )` is given up at the third bracket; `( ( a` can be completed. -/
example (o : Seeds) (ho : o.Fair) (p : Parser Nat Nat Unit) (hp : MakesParser o (rBrackets Nat Unit) 0 p []) :
    ∃ c, ParsesTo id p [0, 0, 2, 0, 1, 1] (.error .noRecovery) c ∧ ∃ z, Takes id p ([0, 0, 2, 0, 1, 1].take (c.pulls - 1) ++ z) := by
  obtain ⟨_, h⟩ := (c103_parser (T := Nat) (E := Unit) o ho).2 p [] hp
  obtain ⟨c, hc⟩ := (h id [0, 0, 2, 0, 1, 1]).2.2 (by
    intro n hn
    have h1 := congrArg List.length hn
    simp [nested] at h1
    omega)
  have hg : ∀ r ∈ rBrackets Nat Unit, ∀ l, ∃ v, r.gen l = .ok v := by
    intro r hr l
    simp only [rBrackets, List.mem_cons, List.not_mem_nil, or_false] at hr
    rcases hr with rfl | rfl
    · simp only
      split <;> exact ⟨_, rfl⟩
    · exact ⟨_, rfl⟩
  have hok : (gram (rBrackets Nat Unit) 0).Ok := by rw [rBrackets_gram]; decide
  have hne : (gram (rBrackets Nat Unit) 0).NoError := by rw [rBrackets_gram]; unfold Gram.NoError; decide
  obtain ⟨z, _, h2⟩ := c107_error (idx := id) ho hok hne (gBrackets_fruitful.productive hok hne) hg hp 3 (by decide) (by
    intro r hr
    simp only [rBrackets, List.mem_cons, List.not_mem_nil, or_false] at hr
    rcases hr with rfl | rfl <;> simp) _ c hc
  exact ⟨c, hc, z, h2 z (by simp)⟩

end Verif.Par
