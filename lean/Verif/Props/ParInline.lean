import Verif.Par.InlineTree
import Verif.Props.ParFamily

/-!
# Doing without a helper non-terminal: C81

`rules` is a grammar without warnings; `A` is a non-terminal other than the start symbol that does not occur in its own rules.
`inlineRules rules A` is the grammar with every `A` replaced, in all rules, by each of its right-hand sides.
-/

namespace Verif.Par

variable {N T E : Type}

/-- No warnings and no cycle: LR(1), also with error rules. -/
theorem lr1_of_new (o : Seeds) (ho : o.Fair) (g : Gram) (hok : g.Ok) (hfr : g.Fruitful) (tab : Tables)
    (h : NewGives o g (.ok (tab, []))) (hcy : ¬ g.Cyclic) : g.LR1 := by
  obtain ⟨fuel, h1, _⟩ := h
  have hnc := (warn_iff (rules'_start g) ((new_spec ho hok fuel).1 tab [] h1).2.1).1 rfl
  rintro ⟨γ, a, r, k1, k2, k3⟩
  rcases k3 with k3 | ⟨rfl, k3⟩ | k3
  · exact hnc ⟨γ, a, r, k1, k2, .inl k3⟩
  · rw [Gram.full, accepts_iff (freshSym_unused g)] at k3
    subst k3
    exact hcy (cyclic_of_complete ho hok ⟨fuel, h1, by simp⟩ hfr k1 k2)
  · exact hnc ⟨γ, a, r, k1, k2, .inr k3⟩

/-- C79: a grammar is LR(1) exactly if the next terminal decides the next move: two successful sequences of reading and reducing,
of any two inputs, do not part while the next terminal is the same. -/
theorem c79_decided (g : Gram) (hok : g.Ok) (hfr : g.Fruitful) : g.LR1 ↔ Decided (Numbered g.rules) g.start :=
  ⟨fun h => h.decided hfr, fun h => h.lr1 hok hfr⟩

/-- C81: the grammar without the helper is LR(1) as well. -/
theorem c81_lr1 (rules : List (Rule N T E)) (start A : Nat) (hok : (gram rules start).Ok) (hfr : (gram rules start).Fruitful)
    (hA : Helper (rules.map Rule.plain) start A) (hl : (gram rules start).LR1) : (gram (inlineRules rules A) start).LR1 := by
  refine Decided.lr1 (inline_ok hok) (inline_fruitful hA hfr) ?_
  rw [inline_gram]
  exact inline_decided hA (hl.decided hfr)

/-- C81: doing without a helper brings no warning. -/
theorem c81_no_warnings (o o' : Seeds) (ho : o.Fair) (ho' : o'.Fair) (rules : List (Rule N T E)) (start A : Nat)
    (hok : (gram rules start).Ok) (hfr : (gram rules start).Fruitful) (hA : Helper (rules.map Rule.plain) start A)
    (tab : Tables) (h : NewGives o (gram rules start) (.ok (tab, []))) (hcy : ¬ (gram rules start).Cyclic) :
    ∃ tab', NewGives o' (gram (inlineRules rules A) start) (.ok (tab', [])) :=
  c79_builds o' ho' _ (inline_ok hok) (inline_fruitful hA hfr) (c81_lr1 rules start A hok hfr hA (lr1_of_new o ho _ hok hfr tab h hcy))

/-- C81: nor does it change the sentences. -/
theorem c81_sentences (rules : List (Rule N T E)) (start A : Nat) (hA : Helper (rules.map Rule.plain) start A) (w : List Nat) :
    (gram (inlineRules rules A) start).Sentence w ↔ (gram rules start).Sentence w := inline_sentence hA w

/-- C81: nor the value of any input, if the callbacks of the new rules call those of the helper first. -/
theorem c81_values (o o' : Seeds) (ho : o.Fair) (ho' : o'.Fair) (rules : List (Rule N T E)) (start A : Nat)
    (hok : (gram rules start).Ok) (hn : (gram rules start).NoError) (hp : (gram rules start).Productive)
    (hA : Helper (rules.map Rule.plain) start A) (hcy : ¬ (gram rules start).Cyclic)
    (p : Parser N T E) (hm : MakesParser o rules start p [])
    (q : Parser N T E) (ws : List Warning) (hq : MakesParser o' (inlineRules rules A) start q ws) (idx : T → Nat) (input : List T) :
    ws = [] ∧ (∀ v, (∃ c, ParsesTo idx q input (.ok v) c) ↔ ∃ c, ParsesTo idx p input (.ok v) c) ∧
    ((gram rules start).Sentence (input.map idx) →
      ((∃ e c, ParsesTo idx q input (.error (.reducer e)) c) ↔ ∃ e c, ParsesTo idx p input (.error (.reducer e)) c)) := by
  obtain ⟨tab', h'⟩ := c81_no_warnings o o' ho ho' rules start A hok hp.fruitful hA p.tab hm.1 hcy
  have hws : ws = [] := by
    have := newGives_unique hq.1 h'
    simp only [Res.ok.injEq, Prod.mk.injEq] at this
    exact this.2
  subst hws
  have hl := c81_lr1 rules start A hok hp.fruitful hA (lr1_of_new o ho _ hok hp.fruitful p.tab hm.1 hcy)
  have hpq := inline_productive hA hp
  have hokq := inline_ok (A := A) hok
  have hnq := inline_noError (A := A) hn
  have hcq := ((c79_lr1 o' ho' _ hokq hpq q.tab [] hq.1).1 hl).2
  have hv : ∀ v, (∃ c, ParsesTo idx q input (.ok v) c) ↔ ∃ c, ParsesTo idx p input (.ok v) c := by
    intro v
    by_cases hs : (gram rules start).Sentence (input.map idx)
    · obtain ⟨f, hf⟩ := sentence_iff.1 hs
      obtain ⟨f', hf', hev⟩ := inline_tree hA hf
      have a := c30_evaluation o ho rules start hok p hm hcy idx input f hf
      have a' := c30_evaluation o' ho' _ start hokq q hq hcq idx input f' hf'
      constructor
      · rintro ⟨c, h⟩
        obtain ⟨lg, k⟩ := (hev v).2 ⟨_, ((a' _).1 v).2 ⟨c, h, rfl⟩⟩
        obtain ⟨c', k', _⟩ := ((a lg).1 v).1 k
        exact ⟨c', k'⟩
      · rintro ⟨c, h⟩
        obtain ⟨lg, k⟩ := (hev v).1 ⟨_, ((a _).1 v).2 ⟨c, h, rfl⟩⟩
        obtain ⟨c', k', _⟩ := ((a' lg).1 v).1 k
        exact ⟨c', k'⟩
    · constructor
      · rintro ⟨c, h⟩
        exact absurd ((c81_sentences rules start A hA _).1 (c23_sentence o' ho' _ start hokq hnq q [] hq idx input v c h)) hs
      · rintro ⟨c, h⟩
        exact absurd (c23_sentence o ho rules start hok hn p [] hm idx input v c h) hs
  refine ⟨rfl, hv, fun hs => ?_⟩
  obtain ⟨f, c1, _, h1⟩ := c24_complete o ho rules start hok p hm idx input hs
  obtain ⟨f', c2, _, h2⟩ := c24_complete o' ho' _ start hokq q hq idx input ((c81_sentences rules start A hA _).2 hs)
  constructor
  · rintro ⟨e, c, h⟩
    rcases h1 with ⟨v, _, h1⟩ | ⟨e', _, h1⟩
    · obtain ⟨c', h'⟩ := (hv v).2 ⟨_, h1⟩
      cases (h.unique h').1
    · exact ⟨_, _, h1⟩
  · rintro ⟨e, c, h⟩
    rcases h2 with ⟨v, _, h2⟩ | ⟨e', _, h2⟩
    · obtain ⟨c', h'⟩ := (hv v).1 ⟨_, h2⟩
      cases (h.unique h').1
    · exact ⟨_, _, h2⟩

theorem gather_total {rules : List (Rule N T E)} (hg : ∀ r ∈ rules, ∀ l, ∃ v, r.gen l = .ok v) (ω : List Slot) : ∀ args,
    ∃ as, gather rules ω args = .ok as := by
  induction ω with
  | nil => intro args; exact ⟨_, rfl⟩
  | cons s ω ih =>
    intro args
    cases s with
    | sym X =>
      obtain ⟨as, h⟩ := ih (args.drop 1)
      exact ⟨_, by simp only [gather, h]; rfl⟩
    | alt i =>
      cases hi : rules[i]? with
      | none => exact ⟨_, by simp only [gather, hi]; rfl⟩
      | some r =>
        obtain ⟨v, hv⟩ := hg r (List.mem_of_getElem? hi) (args.take r.rhs.length)
        obtain ⟨as, h⟩ := ih (args.drop r.rhs.length)
        exact ⟨_, by simp only [gather, hi, hv, h]; rfl⟩

theorem inline_total {rules : List (Rule N T E)} (hg : ∀ r ∈ rules, ∀ l, ∃ v, r.gen l = .ok v) {A : Nat} :
    ∀ r ∈ inlineRules rules A, ∀ l, ∃ v, r.gen l = .ok v := by
  intro r' hr' l
  obtain ⟨r, hr, h⟩ := List.mem_flatMap.1 hr'
  split at h
  · simp at h
  · obtain ⟨ω, _, rfl⟩ := List.mem_map.1 h
    obtain ⟨as, has⟩ := gather_total hg ω l
    obtain ⟨v, hv⟩ := hg r hr as
    exact ⟨v, by simp only [Rule.inlined, has, hv]⟩

/-- C81: nor, if the callbacks do not fail, the token at which an input is given up. -/
theorem c81_rejects (o o' : Seeds) (ho : o.Fair) (ho' : o'.Fair) (rules : List (Rule N T E)) (start A : Nat)
    (hok : (gram rules start).Ok) (hn : (gram rules start).NoError) (hp : (gram rules start).Productive)
    (hA : Helper (rules.map Rule.plain) start A) (hcy : ¬ (gram rules start).Cyclic) (hg : ∀ r ∈ rules, ∀ l, ∃ v, r.gen l = .ok v)
    (p : Parser N T E) (hm : MakesParser o rules start p [])
    (q : Parser N T E) (ws : List Warning) (hq : MakesParser o' (inlineRules rules A) start q ws) (idx : T → Nat) (input : List T) (n : Nat) :
    (∃ c, ParsesTo idx q input (.error .noRecovery) c ∧ c.pulls = n) ↔ ∃ c, ParsesTo idx p input (.error .noRecovery) c ∧ c.pulls = n := by
  obtain rfl := (c81_values o o' ho ho' rules start A hok hn hp hA hcy p hm q ws hq idx input).1
  have hpq := inline_productive hA hp
  have hokq := inline_ok (A := A) hok
  have hnq := inline_noError (A := A) hn
  have hsent := c81_sentences rules start A hA
  have hrej : (∃ c, ParsesTo idx q input (.error .noRecovery) c) ↔ ∃ c, ParsesTo idx p input (.error .noRecovery) c := by
    rw [← (c26_decides o ho rules start hok hn hp hg p hm idx input).2,
      ← (c26_decides o' ho' _ start hokq hnq hpq (inline_total hg) q hq idx input).2, hsent]
  -- both are the length of the longest beginning of a sentence, plus one
  have main : ∀ (c c' : Cfg N T), ParsesTo idx q input (.error .noRecovery) c → ParsesTo idx p input (.error .noRecovery) c' → c.pulls = c'.pulls := by
    intro c c' h h'
    have o1 := c28_offending o' ho' _ start hokq q hq idx input c h
    have o2 := c28_offending o ho rules start hok p hm idx input c' h'
    obtain ⟨m, h⟩ := h
    obtain ⟨m', h'⟩ := h'
    obtain ⟨w1, v1⟩ := c28_viable_prefix o' ho' _ start hokq hnq hpq q [] hq idx input m c (.inr ⟨_, h⟩)
    obtain ⟨w2, v2⟩ := c28_viable_prefix o ho rules start hok hn hp p [] hm idx input m' c' (.inr ⟨_, h'⟩)
    have l1 := c31_pulls o' ho' _ start hokq q [] hq idx input m c (.inr ⟨_, h⟩)
    have l2 := c31_pulls o ho rules start hok p [] hm idx input m' c' (.inr ⟨_, h'⟩)
    rw [hsent] at v1
    have o1' : c.pulls ≤ input.length → ∀ w, ¬ (gram rules start).Sentence ((input.map idx).take c.pulls ++ w) :=
      fun hle w hs => o1.1 hle w ((hsent _).2 hs)
    have cut : ∀ (a b : Nat) (w : List Nat), a ≤ b → (gram rules start).Sentence ((input.map idx).take b ++ w) →
        ∃ w', (gram rules start).Sentence ((input.map idx).take a ++ w') := by
      intro a b w hab hs
      refine ⟨((input.map idx).take b).drop a ++ w, ?_⟩
      have : (input.map idx).take a = ((input.map idx).take b).take a := by rw [List.take_take, Nat.min_eq_left hab]
      rw [this, ← List.append_assoc, List.take_append_drop]
      exact hs
    apply Classical.byContradiction
    intro hne
    rcases Nat.lt_or_gt_of_ne hne with hlt | hlt
    · obtain ⟨w, hw⟩ := cut c.pulls (c'.pulls - 1) w2 (by omega) v2
      exact o1' (by omega) w hw
    · obtain ⟨w, hw⟩ := cut c'.pulls (c.pulls - 1) w1 (by omega) v1
      exact o2.1 (by omega) w hw
  constructor
  · rintro ⟨c, h, rfl⟩
    obtain ⟨c', h'⟩ := hrej.1 ⟨c, h⟩
    exact ⟨c', h', (main c c' h h').symm⟩
  · rintro ⟨c, h, rfl⟩
    obtain ⟨c', h'⟩ := hrej.2 ⟨c, h⟩
    exact ⟨c', h', main c' c h' h⟩

/-! ## Examples -/

/-- `S → S Op x | x; Op → + | -`. -/
def sgnRules : List (Rule Int Nat Nat) :=
  [⟨0, [.nt 0, .nt 1, .tm (.sym 2)], fun l => match l with | [.nt s, .nt d, _] => .ok (s + d) | _ => .ok 0⟩,
   ⟨0, [.tm (.sym 2)], fun _ => .ok 1⟩, ⟨1, [.tm (.sym 0)], fun _ => .ok 1⟩, ⟨1, [.tm (.sym 1)], fun _ => .ok (-1)⟩]

theorem sgn_fruitful : (gram sgnRules 0).Fruitful := c71_ranked _ (fun _ => 0) (by decide)

theorem sgn_productive : (gram sgnRules 0).Productive := sgn_fruitful.productive (by decide) (by unfold Gram.NoError; decide)

theorem sgn_cyclic : ¬ (gram sgnRules 0).Cyclic := by
  rintro ⟨x, r, y, hr, _, hn⟩
  simp only [gram, sgnRules, Rule.plain, List.map_cons, List.map_nil, List.mem_cons, List.not_mem_nil, or_false] at hr
  rcases hr with rfl | rfl | rfl | rfl
  · have := congrArg List.length hn
    simp at this
    omega
  all_goals
    simp only [gram] at hn
    cases x <;> simp at hn

theorem sgn_total : ∀ r ∈ sgnRules, ∀ l, ∃ v, r.gen l = .ok v := by
  intro r hr l
  simp only [sgnRules, List.mem_cons, List.not_mem_nil, or_false] at hr
  rcases hr with rfl | rfl | rfl | rfl
  · simp only
    split <;> exact ⟨_, rfl⟩
  all_goals exact ⟨_, rfl⟩

theorem sgn_helper : Helper (sgnRules.map Rule.plain) 0 1 := by decide

/-- `S → S + x | S - x | x`. -/
example : (inlineRules sgnRules 1).map Rule.plain =
    [⟨0, [.nt 0, .tm (.sym 0), .tm (.sym 2)]⟩, ⟨0, [.nt 0, .tm (.sym 1), .tm (.sym 2)]⟩, ⟨0, [.tm (.sym 2)]⟩] := by decide

def sgnParser : Parser Int Nat Nat := ⟨sgnRules ++ [⟨2, [.nt 0], fun _ => .ok 0⟩],
  match newTables 30 idSeeds (gram sgnRules 0) with
  | .ok (tab, _) => tab
  | _ => ⟨[], [], [], 0⟩⟩

theorem sgn_makes : MakesParser idSeeds sgnRules 0 sgnParser [] := ⟨⟨30, rfl, by simp⟩, fun _ => .ok 0, rfl⟩

/-- `x + x - x - x` has the same value with and without the helper. -/
example (q : Parser Int Nat Nat) (ws : List Warning) (hq : MakesParser idSeeds (inlineRules sgnRules 1) 0 q ws) :
    ws = [] ∧ ∃ c, ParsesTo id q [2, 0, 2, 1, 2, 1, 2] (.ok 0) c := by
  have := c81_values idSeeds idSeeds idSeeds_fair idSeeds_fair sgnRules 0 1 (by decide) (by unfold Gram.NoError; decide) sgn_productive
    sgn_helper sgn_cyclic sgnParser sgn_makes q ws hq id [2, 0, 2, 1, 2, 1, 2]
  exact ⟨this.1, (this.2.1 0).2 ⟨_, 30, rfl⟩⟩

/-- `x + - x` is given up at the third token. -/
example (q : Parser Int Nat Nat) (ws : List Warning) (hq : MakesParser idSeeds (inlineRules sgnRules 1) 0 q ws) :
    ∃ c, ParsesTo id q [2, 0, 1, 2] (.error .noRecovery) c ∧ c.pulls = 3 :=
  (c81_rejects idSeeds idSeeds idSeeds_fair idSeeds_fair sgnRules 0 1 (by decide) (by unfold Gram.NoError; decide) sgn_productive
    sgn_helper sgn_cyclic sgn_total sgnParser sgn_makes q ws hq id [2, 0, 1, 2] 3).2 ⟨_, ⟨30, rfl⟩, rfl⟩

/-- Rules without values. -/
def bare (l : List PRule) : List (Rule Unit Nat Unit) := l.map fun r => ⟨r.lhs, r.rhs, fun _ => .ok ()⟩

/-- `S → A b c | a b d; A → a`. -/
def lateRules : List (Rule Unit Nat Unit) :=
  bare [⟨0, [.nt 1, .tm (.sym 1), .tm (.sym 2)]⟩, ⟨0, [.tm (.sym 0), .tm (.sym 1), .tm (.sym 3)]⟩, ⟨1, [.tm (.sym 0)]⟩]

/-- C81: the converse is wrong: a helper can bring a warning. -/
theorem c81_converse : Helper (lateRules.map Rule.plain) 0 1 ∧
    (∃ tab, NewGives idSeeds (gram (inlineRules lateRules 1) 0) (.ok (tab, []))) ∧
    ∃ tab w ws, NewGives idSeeds (gram lateRules 0) (.ok (tab, w :: ws)) :=
  ⟨by decide, ⟨_, 30, rfl, by simp⟩, _, _, _, 30, rfl, by simp⟩

/-- `S → A X p | A X q; A → a; X → x`. -/
def bothRules : List (Rule Unit Nat Unit) :=
  bare [⟨0, [.nt 1, .nt 2, .tm (.sym 2)]⟩, ⟨0, [.nt 1, .nt 2, .tm (.sym 3)]⟩, ⟨1, [.tm (.sym 0)]⟩, ⟨2, [.tm (.sym 1)]⟩]

/-- `S → A X p | a X q; A → a; X → x`. -/
def oneRules : List (Rule Unit Nat Unit) :=
  bare [⟨0, [.nt 1, .nt 2, .tm (.sym 2)]⟩, ⟨0, [.tm (.sym 0), .nt 2, .tm (.sym 3)]⟩, ⟨1, [.tm (.sym 0)]⟩, ⟨2, [.tm (.sym 1)]⟩]

/-- C81: the helper must be replaced everywhere: replaced in one of two rules, it brings a warning. -/
theorem c81_everywhere : Helper (bothRules.map Rule.plain) 0 1 ∧
    (∃ tab, NewGives idSeeds (gram bothRules 0) (.ok (tab, []))) ∧
    (∃ tab, NewGives idSeeds (gram (inlineRules bothRules 1) 0) (.ok (tab, []))) ∧
    ∃ tab w ws, NewGives idSeeds (gram oneRules 0) (.ok (tab, w :: ws)) :=
  ⟨by decide, ⟨_, 30, rfl, by simp⟩, ⟨_, 30, rfl, by simp⟩, _, _, _, 30, rfl, by simp⟩

/-- `S → A B; A → a; B → b`, where the callbacks of `A` and of `B` fail. -/
def failRules : List (Rule Unit Nat Nat) :=
  [⟨0, [.nt 1, .nt 2], fun _ => .ok ()⟩, ⟨1, [.tm (.sym 0)], fun _ => .error 1⟩, ⟨2, [.tm (.sym 1)], fun _ => .error 2⟩]

/-- C81: if several callbacks fail, it can be the error of another one that is returned. -/
theorem c81_other_error : Helper (failRules.map Rule.plain) 0 1 ∧ ∃ p q, MakesParser idSeeds failRules 0 p [] ∧
    MakesParser idSeeds (inlineRules failRules 1) 0 q [] ∧ (∃ c, ParsesTo id p [0, 1] (.error (.reducer 1)) c) ∧
    ∃ c, ParsesTo id q [0, 1] (.error (.reducer 2)) c := by
  let p : Parser Unit Nat Nat := ⟨failRules ++ [⟨3, [.nt 0], fun _ => .ok ()⟩],
    match newTables 30 idSeeds (gram failRules 0) with
    | .ok (tab, _) => tab
    | _ => ⟨[], [], [], 0⟩⟩
  let q : Parser Unit Nat Nat := ⟨inlineRules failRules 1 ++ [⟨freshSym ((inlineRules failRules 1).map Rule.plain), [.nt 0], fun _ => .ok ()⟩],
    match newTables 30 idSeeds (gram (inlineRules failRules 1) 0) with
    | .ok (tab, _) => tab
    | _ => ⟨[], [], [], 0⟩⟩
  exact ⟨by decide, p, q, ⟨⟨30, rfl, by simp⟩, fun _ => .ok (), rfl⟩, ⟨⟨30, rfl, by simp⟩, fun _ => .ok (), rfl⟩, ⟨_, 20, rfl⟩, _, 20, rfl⟩

end Verif.Par
