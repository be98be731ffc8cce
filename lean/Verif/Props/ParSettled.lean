import Verif.Par.SettleMain
import Verif.Par.TidyProof
import Verif.Props.ParInline
import Verif.Props.ParLinear
import Verif.Props.ParGiveUp
import Verif.Props.ParExp

/-!
# Property C83: when error recovery takes at most quadratic time
-/

namespace Verif.Par

variable {N T E : Type}

theorem bare_quadratic {g : Gram} (hok : g.Ok) (hfr : g.Fruitful) (ha : g.ErrorsApart) (hgr : g.ErrorsGrouped) (hset : g.Settled) {o : Seeds}
    (ho : o.Fair) {p : Parser Unit Nat Unit} (hm : MakesParser o (bareRules g) g.start p []) (hg : ∀ r ∈ p.rules, ∀ l, ∃ v, r.gen l = .ok v) :
    ∃ C, ∀ input : List Nat, ∃ n, n ≤ C * (input.length + 1) ^ 2 ∧ ∀ c', run id p n (Cfg.init p input) ≠ .more c' := by
  have e := bare_gram g
  have hl : (bareRules g).length = g.rules.length := by simp [bareRules]
  obtain ⟨B, hB⟩ := phase_bound p
  obtain ⟨fresh, hx, hwarn⟩ : ∃ fresh, Ctx p (bareRules g) g.start fresh ∧
      WarnExact ((gram (bareRules g) g.start).aug fresh) (bareRules g).length [] := by
    obtain ⟨⟨fuel, h1, _⟩, d, h2⟩ := hm
    have hok' : (gram (bareRules g) g.start).Ok := by rw [e]; exact hok
    have hs := (new_spec ho hok' fuel).1 _ _ h1
    have hl' : (gram (bareRules g) g.start).rules.length = (bareRules g).length := by simp [gram]
    refine ⟨freshSym (gram (bareRules g) g.start).rules, ⟨hok', freshSym_unused _, ?_, ⟨_, h2⟩⟩, ?_⟩
    · rw [← hl']; exact hs.1
    · rw [← hl']; exact hs.2.1
  have hf : ¬ g.Used fresh := by have := hx.unused; rwa [e] at this
  have hends : ∀ input : List Nat, ∃ m, ∀ c', run id p m (Cfg.init p input) ≠ .more c' := by
    intro input
    rcases c44_errors_apart o ho (bareRules g) g.start (by rw [e]; exact hok) (by rw [e]; exact hfr) (by rw [e]; exact ha) p hm id input with
      ⟨x, c, n, hn⟩ | ⟨_, n, hn⟩
    · exact ⟨n, fun c' h => by rw [hn] at h; cases h⟩
    · exact ⟨n, fun c' h => by rw [hn] at h; cases h⟩
  have htame : Tame ((gram (bareRules g) g.start).aug fresh) (bareRules g).length := by
    rw [e, hl]
    exact tame_of hfr hf (ha.runs hfr) hgr hset
  have hcalm : Calm0 (bareRules g) ((gram (bareRules g) g.start).aug fresh) (bareRules g).length g.start ⟨fresh, [.nt g.start]⟩ := by
    refine hx.calm0 hwarn (by rw [e]; exact hfr) fun γ r => ⟨1, ?_⟩
    rw [e, hl, Gram.errRule_iff hfr hf]
    exact ha.runs hfr γ r
  obtain ⟨m0, hm0⟩ := hends []
  refine ⟨(B + 1) * (5 * B + 7) + 1 + m0, fun input => ?_⟩
  have hS : 1 ≤ (input.length + 1) ^ 2 := Nat.pow_pos (by omega)
  by_cases hne : input = []
  · subst hne
    exact ⟨m0, by simp, hm0⟩
  have hnp : ∀ n, run id p n (Cfg.init p input) ≠ .panic := by
    intro n h
    exact c29_no_panic o ho (bareRules g) g.start (by rw [e]; exact hok) p [] hm id input (Or.inl hne) ⟨n, h⟩
  refine ⟨(B + 1) * (2 + (B + 1) * (5 * (input.length + 1) ^ 2)) + 1, ?_, ?_⟩
  · generalize (input.length + 1) ^ 2 = S at *
    have e1 : ((B + 1) * (5 * B + 7) + 1 + m0) * S = (B + 1) * ((5 * B + 7) * S) + S + m0 * S := by
      rw [Nat.add_mul, Nat.add_mul, Nat.mul_assoc, Nat.one_mul]
    rw [e1]
    have e2 : 2 + (B + 1) * (5 * S) ≤ (5 * B + 7) * S := by
      have : (B + 1) * (5 * S) = (5 * B + 5) * S := by rw [← Nat.mul_assoc]; congr 1; omega
      rw [this, show 5 * B + 7 = 5 * B + 5 + 2 by omega, Nat.add_mul (5 * B + 5)]
      omega
    have := Nat.mul_le_mul_left (B + 1) e2
    omega
  · intro c' h
    obtain ⟨m, e', b, _, _, h3⟩ := busy_bound hx hcalm htame _ h
    have h4 := busy_pays hg hB hnp (hends input) _ 0 (Cfg.init p input) c' rfl h
    have h5 : pot input.length 0 1 0 ≤ 5 * (input.length + 1) ^ 2 := by
      simp only [pot]
      have : (input.length + 1) ^ 2 = (input.length + 1) * (input.length + 1) := Nat.pow_two _
      rw [this]
      have h6 : (input.length + 1 - 0) * (2 * input.length + 3) ≤ 3 * ((input.length + 1) * (input.length + 1)) := by
        rw [Nat.sub_zero, Nat.mul_left_comm]
        exact Nat.mul_le_mul_left _ (by omega)
      have h7 : input.length + 1 ≤ (input.length + 1) * (input.length + 1) := Nat.le_mul_of_pos_right _ (by omega)
      omega
    have h6 : (Cfg.init p input).states.length = 1 := by simp [Cfg.states, Cfg.init]
    rw [h6] at h4
    have h7 := Nat.mul_le_mul_left (B + 1) (show 1 + (B + 1) * busy id p ((B + 1) * (2 + (B + 1) * (5 * (input.length + 1) ^ 2)) + 1) (Cfg.init p input) + 1 ≤
      2 + (B + 1) * (5 * (input.length + 1) ^ 2) by
        have := Nat.mul_le_mul_left (B + 1) (show busy id p ((B + 1) * (2 + (B + 1) * (5 * (input.length + 1) ^ 2)) + 1) (Cfg.init p input) ≤ 5 * (input.length + 1) ^ 2 by omega)
        omega)
    omega

/-- A bound for parsers whose callbacks return nothing is one for all. -/
theorem bare_lift {g : Gram} (hok : g.Ok) {f : Nat → Nat → Nat}
    (hbare : ∀ (o : Seeds) (p : Parser Unit Nat Unit), o.Fair → MakesParser o (bareRules g) g.start p [] → (∀ r ∈ p.rules, ∀ l, ∃ v, r.gen l = .ok v) →
      ∃ C, ∀ input : List Nat, ∃ n, n ≤ f C input.length ∧ ∀ c', run id p n (Cfg.init p input) ≠ .more c') :
    ∃ C, ∀ (N T E : Type) (o : Seeds) (_ : o.Fair) (rules : List (Rule N T E)) (_ : gram rules g.start = g) (p : Parser N T E)
      (_ : MakesParser o rules g.start p []) (idx : T → Nat) (input : List T),
      ∃ n, n ≤ f C input.length ∧ ((∃ x c, run idx p n (Cfg.init p input) = .done x c ∧ c.log.length ≤ n) ∨
        (input = [] ∧ run idx p n (Cfg.init p input) = .panic)) := by
  by_cases hex : ∃ (o : Seeds) (p : Parser Unit Nat Unit), o.Fair ∧ MakesParser o (bareRules g) g.start p [] ∧ ∀ r ∈ p.rules, ∀ l, ∃ v, r.gen l = .ok v
  · obtain ⟨o0, p0, ho0, hm0, hg0⟩ := hex
    obtain ⟨C, hC⟩ := hbare o0 p0 ho0 hm0 hg0
    refine ⟨C, ?_⟩
    intro N T E o ho rules hr p hm idx input
    obtain ⟨n, h1, h2⟩ := hC (input.map idx)
    have hmp := makes_plainify hm
    rw [plains_bare hr] at hmp
    have hnm : ∀ c, run idx p n (Cfg.init p input) ≠ .more c := by
      intro c hc
      have h3 := run_plainify (idx := idx) (p := p) n input
      rw [hc] at h3
      simp only [Step.Mim] at h3
      obtain ⟨⟨fuel, hp1, _⟩, d, hp2⟩ := hmp
      obtain ⟨⟨fuel', hp1', _⟩, d', hp2'⟩ := hm0
      have hok' : (gram (bareRules g) g.start).Ok := by rw [bare_gram]; exact hok
      have ha := ((new_spec ho hok' fuel).1 _ _ hp1).1
      have hb := ((new_spec ho0 hok' fuel').1 _ _ hp1').1
      have h4 := run_rel (p := plainify p) (p' := p0) (idx := id) ha hb (by
        intro r rule hr hs
        have hl := (List.getElem?_eq_some_iff.1 hr).1
        rw [rules'_length] at hl
        have : r < (bareRules g).length := by
          simp only [gram, List.length_map] at hl hs
          omega
        rw [hp2, hp2', List.getElem?_append_left this, List.getElem?_append_left this]) (init_rel (input.map idx)) n
      rw [h3] at h4
      generalize hy : run id p0 n (Cfg.init p0 (input.map idx)) = y at h4
      cases h4 with
      | more _ c' _ => exact h2 c' hy
    rw [List.length_map] at h1
    refine ⟨n, h1, ?_⟩
    cases hrun : run idx p n (Cfg.init p input) with
    | more c => exact absurd hrun (hnm c)
    | panic =>
      refine .inr ⟨?_, rfl⟩
      apply Classical.byContradiction
      intro hne
      exact c29_no_panic o ho rules g.start (by rw [hr]; exact hok) p [] hm idx input (Or.inl hne) ⟨n, hrun⟩
    | done x c => exact .inl ⟨x, c, rfl, by simpa [Cfg.init] using log_le idx p n _ c (Or.inr ⟨x, hrun⟩)⟩
  · refine ⟨0, ?_⟩
    intro N T E o ho rules hr p hm idx input
    refine absurd ⟨o, plainify p, ho, ?_, ?_⟩ hex
    · rw [← plains_bare hr]; exact makes_plainify hm
    · intro r h l
      simp only [plainify, List.mem_map] at h
      obtain ⟨r', _, rfl⟩ := h
      exact ⟨(), rfl⟩

/-- C83: if no error symbol can follow another, error rules come in groups, and every phrase with a place of recovery inside that is not at once
made part of a larger phrase is followed by such a place again (`Settled`), then there is a constant `C` such that every parser made from the
grammar without warnings, whatever the hash seeds and the callbacks, ends after at most `C * (n + 1) ^ 2` rounds on every input of `n` tokens,
with or without errors. -/
theorem c83_quadratic (g : Gram) (hok : g.Ok) (hfr : g.Fruitful) (ha : g.ErrorsApart) (hgr : g.ErrorsGrouped) (hset : g.Settled) :
    ∃ C, ∀ (N T E : Type) (o : Seeds) (_ : o.Fair) (rules : List (Rule N T E)) (_ : gram rules g.start = g) (p : Parser N T E)
      (_ : MakesParser o rules g.start p []) (idx : T → Nat) (input : List T),
      ∃ n, n ≤ C * (input.length + 1) ^ 2 ∧ ((∃ x c, run idx p n (Cfg.init p input) = .done x c ∧ c.log.length ≤ n) ∨
        (input = [] ∧ run idx p n (Cfg.init p input) = .panic)) :=
  bare_lift hok (f := fun C n => C * (n + 1) ^ 2) fun _ _ ho hm hg => bare_quadratic hok hfr ha hgr hset ho hm hg

/-- C83: a check of the rules is enough.  `tidy`: every non-terminal with a place of recovery inside is a list, or stands at the end of every
right-hand side it occurs in; `spaced`: no `error` can begin behind an `error`; `sameErrors`: all error rules are `A → α error …`. -/
theorem c83_check (g : Gram) (hfr : g.Fruitful) (s : Sorts) (A : Nat) (α : List Sym) (h1 : g.tidy s = true) (h2 : g.spaced s = true)
    (h3 : g.sameErrors A α = true) : g.ErrorsApart ∧ g.ErrorsGrouped ∧ g.Settled :=
  ⟨tidy_apart h1 h2, same_grouped h3, tidy_settled (freshSym_unused g) hfr h1⟩

theorem gDo_grouped : gDo.ErrorsGrouped := same_grouped (A := 1) (α := []) (by decide)

/-- C83, the role of `Settled`: the grammar of C82 meets the other conditions, but there is no polynomial bound; so it is not settled. -/
theorem c83_not_settled : gDo.Ok ∧ gDo.Fruitful ∧ gDo.ErrorsApart ∧ gDo.ErrorsGrouped ∧ ¬ gDo.Settled := by
  refine ⟨by decide, gDo_fruitful, gDo_apart, gDo_grouped, fun hset => ?_⟩
  obtain ⟨C, hC⟩ := c83_quadratic gDo (by decide) gDo_fruitful gDo_apart gDo_grouped hset
  refine c82_no_polynomial idSeeds idSeeds_fair (plainRules gDo) rfl ?_ pDo [] pDo_makes ⟨C, 2, ?_⟩
  · intro r hr args
    simp only [plainRules, List.mem_map] at hr
    obtain ⟨r', _, rfl⟩ := hr
    exact ⟨_, rfl⟩
  · rintro input x c ⟨m, hm⟩
    obtain ⟨n, h1, h2⟩ := hC _ _ _ idSeeds idSeeds_fair (plainRules gDo) rfl pDo pDo_makes id input
    rcases h2 with ⟨x', c', h2, h3⟩ | ⟨_, h2⟩
    · obtain ⟨_, rfl⟩ := ParsesTo.unique ⟨m, hm⟩ ⟨n, h2⟩
      omega
    · have h4 := run_add (idx := id) (p := pDo) m n (Cfg.init pDo input)
      rw [hm] at h4
      rw [Nat.add_comm, run_add, h2] at h4
      cases h4

/-- C83, the remedy: with its helper `S → { B }` written out, `B → ε | B I`, `I → e ; | { B } w ; | error ;`, the same grammar (C81) has a
quadratic bound. -/
theorem c83_written_out : Helper gDo.rules 0 2 ∧ (∀ w, (Gram.mk (inlinePlain gDo.rules 2) 0).Sentence w ↔ gDo.Sentence w) ∧
    (Gram.mk (inlinePlain gDo.rules 2) 0).Fruitful ∧ (Gram.mk (inlinePlain gDo.rules 2) 0).ErrorsApart ∧
    (Gram.mk (inlinePlain gDo.rules 2) 0).ErrorsGrouped ∧ (Gram.mk (inlinePlain gDo.rules 2) 0).Settled := by
  have hA : Helper gDo.rules 0 2 := by unfold Helper; decide
  have hfr : (Gram.mk (inlinePlain gDo.rules 2) 0).Fruitful := inline_fruitful (rules := plainRules gDo) hA gDo_fruitful
  exact ⟨hA, fun w => inline_sentence (rules := plainRules gDo) hA w, hfr,
    c83_check _ hfr ⟨[0], [0, 1], [0, 1], [0]⟩ 1 [] (by decide) (by decide) (by decide)⟩

theorem gQuad_fruitful : gQuad.Fruitful := c71_ranked _ (fun _ => 0) (by decide)

/-- C83: the exponent cannot be improved.  The grammar of C52 meets the conditions, and there is no linear bound. -/
theorem c83_tight : gQuad.Ok ∧ gQuad.Fruitful ∧ gQuad.ErrorsApart ∧ gQuad.ErrorsGrouped ∧ gQuad.Settled ∧
    MakesParser idSeeds (plainRules gQuad) 0 pQuad [] ∧
    ¬ ∃ C, ∀ input : List Nat, ∃ n x c, n ≤ C * (input.length + 1) ∧ run id pQuad n (Cfg.init pQuad input) = .done x c ∧ c.log.length ≤ n := by
  have h := c83_check gQuad gQuad_fruitful ⟨[0], [0], [0], [0]⟩ 0 [.nt 0] (by decide) (by decide) (by decide)
  exact ⟨by decide, gQuad_fruitful, h.1, h.2.1, h.2.2, pQuad_makes, c52_recovery_quadratic.2.2⟩

/-! ## Examples -/

/-- The grammar with the helper written out. -/
def gOut : Gram := ⟨[⟨0, []⟩, ⟨0, [.nt 0, .nt 1]⟩, ⟨1, [.tm (.sym 0), .tm (.sym 1)]⟩,
  ⟨1, [.tm (.sym 2), .nt 0, .tm (.sym 3), .tm (.sym 4), .tm (.sym 1)]⟩, ⟨1, [.tm .err, .tm (.sym 1)]⟩], 0⟩

example : gOut = ⟨inlinePlain gDo.rules 2, 0⟩ := by decide

def tOut : Tables :=
  { action := [(0, [(.sym 0, .reduce 0), (.sym 2, .reduce 0), (.err, .reduce 0), (.eoi, .reduce 0)]),
      (1, [(.sym 0, .shift 3), (.sym 2, .shift 4), (.err, .shift 5), (.eoi, .accept)]),
      (2, [(.sym 0, .reduce 1), (.sym 2, .reduce 1), (.err, .reduce 1), (.eoi, .reduce 1)]),
      (3, [(.sym 1, .shift 6)]),
      (4, [(.sym 0, .reduce 0), (.sym 2, .reduce 0), (.sym 3, .reduce 0), (.err, .reduce 0)]),
      (5, [(.sym 1, .shift 8)]),
      (6, [(.sym 0, .reduce 2), (.sym 2, .reduce 2), (.err, .reduce 2), (.eoi, .reduce 2)]),
      (7, [(.sym 0, .shift 10), (.sym 2, .shift 11), (.sym 3, .shift 12), (.err, .shift 13)]),
      (8, [(.sym 0, .reduce 4), (.sym 2, .reduce 4), (.err, .reduce 4), (.eoi, .reduce 4)]),
      (9, [(.sym 0, .reduce 1), (.sym 2, .reduce 1), (.sym 3, .reduce 1), (.err, .reduce 1)]),
      (10, [(.sym 1, .shift 14)]),
      (11, [(.sym 0, .reduce 0), (.sym 2, .reduce 0), (.sym 3, .reduce 0), (.err, .reduce 0)]),
      (12, [(.sym 4, .shift 16)]),
      (13, [(.sym 1, .shift 17)]),
      (14, [(.sym 0, .reduce 2), (.sym 2, .reduce 2), (.sym 3, .reduce 2), (.err, .reduce 2)]),
      (15, [(.sym 0, .shift 10), (.sym 2, .shift 11), (.sym 3, .shift 18), (.err, .shift 13)]),
      (16, [(.sym 1, .shift 19)]),
      (17, [(.sym 0, .reduce 4), (.sym 2, .reduce 4), (.sym 3, .reduce 4), (.err, .reduce 4)]),
      (18, [(.sym 4, .shift 20)]),
      (19, [(.sym 0, .reduce 3), (.sym 2, .reduce 3), (.err, .reduce 3), (.eoi, .reduce 3)]),
      (20, [(.sym 1, .shift 21)]),
      (21, [(.sym 0, .reduce 3), (.sym 2, .reduce 3), (.sym 3, .reduce 3), (.err, .reduce 3)])]
    goto := [(0, [(0, 1)]), (1, [(1, 2)]), (4, [(0, 7)]), (7, [(1, 9)]), (11, [(0, 15)]), (15, [(1, 9)])]
    errors := [(1, [4, 4, 4, 4]), (7, [4, 4, 4, 4]), (15, [4, 4, 4, 4])]
    start := 0 }

def pOut : Parser Nat Nat Nat := ⟨plainRules gOut ++ [⟨2, [.nt 0], fun _ => .error 0⟩], tOut⟩

theorem pOut_makes : MakesParser idSeeds (plainRules gOut) 0 pOut [] := ⟨⟨60, by decide +kernel, by simp⟩, _, rfl⟩

/-- C83: the price of the remedy.  Both grammars have the same sentences (C81), but on the smallest input of C82 error recovery succeeds with
the helper, after 19 calls of callbacks, and fails with the helper written out, after 7. -/
theorem c83_recovery_differs :
    (∃ c, ParsesTo id pDo [2, 0, 1, 2, 0, 1, 3, 4, 3, 4, 1] (.ok 2) c ∧ c.log.length = 19) ∧
    ∃ e c, ParsesTo id pOut [2, 0, 1, 2, 0, 1, 3, 4, 3, 4, 1] (.error e) c ∧ c.log.length = 7 :=
  ⟨⟨_, ⟨60, rfl⟩, rfl⟩, _, _, ⟨60, rfl⟩, rfl⟩

/-- Without the error, both parsers accept. -/
example : (∃ c, ParsesTo id pDo [2, 0, 1, 2, 0, 1, 3, 4, 1, 3, 4, 1] (.ok 2) c ∧ c.log.length = 13) ∧
    ∃ c, ParsesTo id pOut [2, 0, 1, 2, 0, 1, 3, 4, 1, 3, 4, 1] (.ok 2) c ∧ c.log.length = 11 :=
  ⟨⟨_, ⟨60, rfl⟩, rfl⟩, ⟨_, ⟨60, rfl⟩, rfl⟩⟩

/-- `c83_quadratic` applies to this parser, and to those made with other hash seeds or callbacks. -/
example : ∃ C, ∀ input : List Nat, ∃ n, n ≤ C * (input.length + 1) ^ 2 ∧ ((∃ x c, run id pOut n (Cfg.init pOut input) = .done x c ∧ c.log.length ≤ n) ∨
    (input = [] ∧ run id pOut n (Cfg.init pOut input) = .panic)) := by
  have e : gOut = ⟨inlinePlain gDo.rules 2, 0⟩ := by decide
  obtain ⟨_, _, h1, h2, h3, h4⟩ := c83_written_out
  rw [← e] at h1 h2 h3 h4
  obtain ⟨C, h⟩ := c83_quadratic gOut (by decide) h1 h2 h3 h4
  exact ⟨C, fun input => h _ _ _ idSeeds idSeeds_fair (plainRules gOut) rfl pOut pOut_makes id input⟩

end Verif.Par
