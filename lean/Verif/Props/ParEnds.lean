import Verif.Par.EndsProof
import Verif.Props.ParSeeds
import Verif.Props.ParLinear
import Verif.Props.ParChosen

/-!
# Conflicts and termination: C64
-/

namespace Verif.Par

variable {N T E : Type}

/-- C64: whatever conflicts the grammar has, if no rule is empty, no non-terminal derives itself by rules with a single non-terminal, and
there are no error rules, then `parse` ends with a result (it does not panic and does not run for ever) on every input, and it needs at most
`(2 R + 4) n + 1` rounds for `R` rules and `n` tokens; it makes no more calls of callbacks. -/
theorem c64_ends (o : Seeds) (ho : o.Fair) (rules : List (Rule N T E)) (start : Nat) (hok : (gram rules start).Ok) (hn : (gram rules start).NoError)
    (hem : ∀ r ∈ rules, r.rhs ≠ []) (hch : ∀ a, ¬ (gram rules start).Chain a a) (p : Parser N T E) (ws : List Warning)
    (hm : MakesParser o rules start p ws) (idx : T → Nat) (input : List T) :
    ∃ n x c, n ≤ (2 * rules.length + 4) * input.length + 1 ∧ run idx p n (Cfg.init p input) = .done x c ∧ c.log.length ≤ n := by
  obtain ⟨fresh, hx⟩ := ctx_of_makes ho hok hm
  obtain ⟨n, x, c, h1, h2⟩ := Left.ends (idx := idx) (input := input) hx hn (by
    intro r hr
    simp only [gram, List.mem_map] at hr
    obtain ⟨r', hr', rfl⟩ := hr
    exact hem r' hr') hch _ (Cfg.init p input) ⟨0, [], [], [], [], .init, rfl, Nat.le_refl _⟩
  refine ⟨n, x, c, ?_, h2, by simpa [Cfg.init] using log_le idx p n _ c (Or.inr ⟨x, h2⟩)⟩
  simpa [Gram.weights] using h1

/-- C64: such a parser returns `RecoveryRuleNotFound` or an error of a callback for everything that is not a sentence. -/
theorem c64_rejects (o : Seeds) (ho : o.Fair) (rules : List (Rule N T E)) (start : Nat) (hok : (gram rules start).Ok) (hn : (gram rules start).NoError)
    (hem : ∀ r ∈ rules, r.rhs ≠ []) (hch : ∀ a, ¬ (gram rules start).Chain a a) (p : Parser N T E) (ws : List Warning)
    (hm : MakesParser o rules start p ws) (idx : T → Nat) (input : List T) (hs : ¬ (gram rules start).Sentence (input.map idx)) :
    (∃ c, ParsesTo idx p input (.error .noRecovery) c) ∨ ∃ e c, ParsesTo idx p input (.error (.reducer e)) c := by
  obtain ⟨n, x, c, _, h, _⟩ := c64_ends o ho rules start hok hn hem hch p ws hm idx input
  cases x with
  | ok v => exact absurd (c23_sentence o ho rules start hok hn p ws hm idx input v c ⟨n, h⟩) hs
  | error e =>
    cases e with
    | noRecovery => exact Or.inl ⟨c, n, h⟩
    | reducer e => exact Or.inr ⟨e, c, n, h⟩

/-! ## The condition is needed -/

/-- `A → B | a; B → A; S → A`, in this order: `A → B`, `B → A`, `A → a`, `S → A`. -/
def gRing : Gram := ⟨[⟨1, [.nt 2]⟩, ⟨2, [.nt 1]⟩, ⟨1, [.tm (.sym 0)]⟩, ⟨0, [.nt 1]⟩], 0⟩

def pRing : Parser Nat Nat Nat :=
  ⟨plainRules gRing ++ [⟨3, [.nt 0], fun _ => .error 0⟩],
   { action := [(0, [(.sym 0, .shift 3)]), (1, [(.eoi, .reduce 0)]), (2, [(.eoi, .reduce 1)]), (3, [(.eoi, .reduce 2)]), (4, [(.eoi, .accept)])]
     goto := [(0, [(2, 1), (1, 2), (0, 4)])]
     errors := []
     start := 0 }⟩

theorem pRing_makes : MakesParser idSeeds (plainRules gRing) 0 pRing [.reduceReduce [⟨1, 1, .eoi⟩, ⟨3, 1, .eoi⟩] 1 3] :=
  ⟨⟨10, by decide, by simp⟩, _, rfl⟩

/-- C64: with a chain from a non-terminal to itself, `parse` may run for ever, on a sentence: it replaces `A` by `B` and `B` by `A`.
(For the other condition see `c35_conflict_diverges`: there two rules are empty.) -/
theorem c64_chain_diverges : (∃ ws, MakesParser idSeeds (plainRules gRing) 0 pRing ws) ∧ gRing.NoError ∧ (∀ r ∈ plainRules gRing, r.rhs ≠ []) ∧
    gRing.Chain 1 1 ∧ gRing.Sentence [0] ∧ ParseDiverges id pRing [0] := by
  refine ⟨⟨_, pRing_makes⟩, by unfold Gram.NoError; decide, ?_, .more (b := 2) (by simp [gRing]) (.one (by simp [gRing])), ?_, ?_⟩
  · intro r hr
    simp [plainRules, gRing] at hr
    rcases hr with rfl | rfl | rfl | rfl <;> simp
  · refine gen_iff.1 ?_
    exact (Gen.rule (r := ⟨0, [.nt 1]⟩) (by simp [gRing])).trans (Gen.rule (r := ⟨1, [.tm (.sym 0)]⟩) (by simp [gRing]))
  · refine diverges_of (fun c => (c.buffer = [] ∧ c.src = [0] ∧ c.state = 0 ∧ c.stack = [] ∧ c.read = []) ∨
      (c.src = [] ∧ c.read = [0] ∧ (c.buffer = [] ∨ c.buffer = [(.eoi, 0)]) ∧
        ((c.state = 3 ∧ c.stack = [(0, .tok 0 0)]) ∨ ∃ v, (c.state = 1 ∨ c.state = 2) ∧ c.stack = [(0, .nt v 0)])))
      (Or.inl ⟨rfl, rfl, rfl, rfl, rfl⟩) ?_
    rintro ⟨state, read, src, buffer, stack, recov, log, pulls⟩ h
    simp only at h
    rcases h with ⟨rfl, rfl, rfl, rfl, rfl⟩ | ⟨rfl, rfl, rfl | rfl, ⟨rfl, rfl⟩ | ⟨v, rfl | rfl, rfl⟩⟩
    · exact ⟨_, rfl, .inr ⟨rfl, rfl, .inl rfl, .inl ⟨rfl, rfl⟩⟩⟩
    · exact ⟨_, rfl, .inr ⟨rfl, rfl, .inr rfl, .inr ⟨_, .inr rfl, rfl⟩⟩⟩
    · exact ⟨_, rfl, .inr ⟨rfl, rfl, .inr rfl, .inr ⟨_, .inr rfl, rfl⟩⟩⟩
    · exact ⟨_, rfl, .inr ⟨rfl, rfl, .inr rfl, .inr ⟨_, .inl rfl, rfl⟩⟩⟩
    · exact ⟨_, rfl, .inr ⟨rfl, rfl, .inr rfl, .inr ⟨_, .inr rfl, rfl⟩⟩⟩
    · exact ⟨_, rfl, .inr ⟨rfl, rfl, .inr rfl, .inr ⟨_, .inr rfl, rfl⟩⟩⟩
    · exact ⟨_, rfl, .inr ⟨rfl, rfl, .inr rfl, .inr ⟨_, .inl rfl, rfl⟩⟩⟩

/-! ## Example -/

theorem gSum_no_chain (a : Nat) : ¬ gSum.Chain a a := by
  intro h
  cases h with
  | one h => simp [gSum] at h
  | more h _ => simp [gSum] at h

/-- `E → E + E | a` meets the conditions, with a warning: at most `8 n + 1` rounds. -/
example : ∃ p w, MakesParser idSeeds (plainRules gSum) 0 p [w] ∧
    ∀ input : List Nat, ∃ n x c, n ≤ 8 * input.length + 1 ∧ run id p n (Cfg.init p input) = .done x c := by
  obtain ⟨w, hw⟩ := tSum_gives
  have hm : MakesParser idSeeds (plainRules gSum) 0 ⟨plainRules gSum ++ [⟨1, [.nt 0], fun _ => .error 0⟩], tSum⟩ [w] := ⟨hw, _, rfl⟩
  refine ⟨_, w, hm, fun input => ?_⟩
  obtain ⟨n, x, c, h1, h2, _⟩ := c64_ends idSeeds idSeeds_fair (plainRules gSum) 0 (by decide) (by unfold Gram.NoError; decide) (by
    intro r hr
    simp [plainRules, gSum] at hr
    rcases hr with rfl | rfl <;> simp) gSum_no_chain _ _ hm id input
  exact ⟨n, x, c, h1, h2⟩

end Verif.Par
