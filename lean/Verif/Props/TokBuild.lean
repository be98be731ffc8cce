import Verif.Tok.SpecProof

/-!
# Properties C01 - C09: building a tokenizer

Throughout: `parse` is the regex parser (a parameter that only has to keep the invariants of `regex_syntax` values),
`ps` the patterns with their callbacks, `s` stands for the hash seeds (`s.Fair`: iteration orders are permutations) and
`Calm s parse ps` says that no hash collision disturbed the minimiser (see `c08_collision`).
-/

namespace Verif.Tok

variable {π ρ α E : Type} {parse : π → Except ρ Hir} {s : Seeds} {ps : List (π × (List Nat → List α → E))}
  {t : Tokenizer α E} {ws : List (Nat × Nat)}

/-! ## C01 -/

/-- C01: every word of the regular language of pattern `i` is accepted, with an index of at most `i`. -/
theorem c01_no_missed_match (hparse : ParserOk parse) (hs : s.Fair) (hc : Calm s parse ps)
    (hb : BuildsTo s parse ps (.ok (t, ws))) (i : Nat) (w : List Nat) (hw : PatLang parse ps i w) :
    ∃ k, k ≤ i ∧ t.accepts w = some k := by
  obtain ⟨hirs, h1, h2, h3, h4⟩ := builds_spec hparse hs.calm ((hc _).1 hb)
  obtain ⟨tn, d, h5, _⟩ := h4.dfa
  have hown := patLang_own h1 h5 h2 hw
  obtain ⟨k, hk1, hk2⟩ := least_of_some (P := fun j => OwnAt hirs j w) ⟨i, hown⟩
  refine ⟨k, ?_, (accepts_iff h4 s.calm_noCollision w k).2 ⟨hk1, hk2⟩⟩
  exact Nat.le_of_not_lt (fun h => hk2 i h hown)

/-- Patterns `ab*`, `a`: the word `abb` of pattern 0 is accepted. -/
example : ∃ t ws, BuildsTo seeds0 parse0 (tagged [.concat [ra, .rep .zeroOrMore rb], ra]) (.ok (t, ws)) ∧
    t.accepts [97, 98, 98] = some 0 := acc0_spec (by decide)
example : PatLang parse0 (tagged [.concat [ra, .rep .zeroOrMore rb], ra]) 0 [97, 98, 98] := by
  refine ⟨_, _, rfl, rfl, ?_⟩
  simp only [Lang]
  exact ⟨[97], [98, 98], rfl, rfl, [98, 98], [], rfl, ⟨2, trivial, [98], [98], rfl, rfl, [98], [], rfl, rfl, rfl⟩, rfl⟩

/-! ## C02 -/

/-- C02: an accepted word belongs to the language of the pattern, if that pattern is in the class `Hir.faithful` (which
excludes the empty regex and a few nestings of loops under `?`, `*`, `{0,m}`, `{n,}`).  Without that condition the claim is
false (`c02_empty`, `c02_opt`, `c02_star`, `c02_range`); what is accepted then is given by `c41_translated_language`. -/
theorem c02_no_spurious_match (hparse : ParserOk parse) (hs : s.Fair) (hc : Calm s parse ps)
    (hb : BuildsTo s parse ps (.ok (t, ws))) (i : Nat) (hf : PatFaithful parse ps i) (w : List Nat)
    (hw : t.accepts w = some i) : PatLang parse ps i w := by
  obtain ⟨hirs, h1, h2, h3, h4⟩ := builds_spec hparse hs.calm ((hc _).1 hb)
  exact own_patLang h1 h2 hf ((accepts_iff h4 s.calm_noCollision w i).1 hw).1

/-- `(a|b)*c?` is in the class. -/
example : PatFaithful parse0 (tagged [.concat [.rep .zeroOrMore (.alt [ra, rb]), .rep .zeroOrOne rx]]) 0 := by
  intro p h h1 h2
  simp [tagged] at h1
  subst h1
  have : h = .concat [.rep .zeroOrMore (.alt [ra, rb]), .rep .zeroOrOne rx] := by
    simp only [parse0] at h2
    rw [if_pos (by decide)] at h2
    cases h2; rfl
  subst this
  decide

/-- What C02 would claim without the condition. -/
def C02Claim (hs : List Hir) : Prop := ∀ t ws, BuildsTo seeds0 parse0 (tagged hs) (.ok (t, ws)) →
  ∀ i w, t.accepts w = some i → PatLang parse0 (tagged hs) i w

theorem c02_refute {h : Hir} {w : List Nat} (ha : acc0 seeds0 [h] w = some (some 0)) (hw : ¬ Lang h w) : ¬ C02Claim [h] := by
  intro hcl
  obtain ⟨t, ws, h1, h2⟩ := acc0_spec ha
  obtain ⟨p, h', e1, e2, e3⟩ := hcl t ws h1 0 w h2
  simp [tagged] at e1
  subst e1
  simp only [parse0] at e2
  split at e2
  · cases e2; exact hw e3
  · cases e2

/-- The empty regex accepts every word, for instance `a`. -/
theorem c02_empty : ¬ C02Claim [.empty] := c02_refute (w := [97]) (by decide) (by simp [Lang])

/-- `(ab*)?` accepts `b`. -/
theorem c02_opt : ¬ C02Claim [.rep .zeroOrOne (.concat [ra, .rep .zeroOrMore rb])] := by
  refine c02_refute (w := [98]) (by decide) ?_
  simp only [Lang, LangSeq]
  rintro ⟨n, h1, h2⟩
  cases n with
  | zero => simp [Pow] at h2
  | succ n =>
    obtain ⟨u, v, h3, ⟨u1, u2, rfl, rfl, _⟩, _⟩ := h2
    simp at h3

/-- `(a*b)*` accepts `a`. -/
theorem c02_star : ¬ C02Claim [.rep .zeroOrMore (.concat [.rep .zeroOrMore ra, rb])] := by
  refine c02_refute (w := [97]) (by decide) ?_
  simp only [Lang, LangSeq]
  rintro ⟨n, h1, h2⟩
  cases n with
  | zero => simp [Pow] at h2
  | succ n =>
    obtain ⟨u, v, h3, ⟨u1, u2, rfl, _, u3, u4, rfl, rfl, rfl⟩, _⟩ := h2
    have : (98 : Nat) ∈ [97] := by rw [h3]; simp
    simp at this

/-- `(a*b){1,}` accepts `ba`. -/
theorem c02_range : ¬ C02Claim [.rep (.atLeast 1) (.concat [.rep .zeroOrMore ra, rb])] := by
  refine c02_refute (w := [98, 97]) (by decide) ?_
  have key : ∀ (n : Nat) (w : List Nat), Pow (fun w => ∃ u v, w = u ++ v ∧ (∃ n, RepKind.zeroOrMore.allows n ∧ Pow (fun w => w = [97]) n u) ∧
      ∃ u' v', v = u' ++ v' ∧ u' = [98] ∧ v' = []) n w → w = [] ∨ w.getLast? = some 98 := by
    intro n
    induction n with
    | zero => intro w h; exact Or.inl h
    | succ n ih =>
      rintro w ⟨u, v, rfl, ⟨u1, u2, rfl, _, u3, u4, rfl, rfl, rfl⟩, h2⟩
      rcases ih v h2 with rfl | h
      · right; simp
      · right
        rw [List.getLast?_append, h]
        rfl
  simp only [Lang, LangSeq]
  rintro ⟨n, h1, h2⟩
  rcases key n _ h2 with h | h
  · simp at h
  · simp at h

/-! ## C03 -/

/-- C03: `build` always ends, with exactly one outcome; it reports the parse error of the first pattern that does not
parse; otherwise it succeeds if and only if no pattern contains an unsupported construct; otherwise it reports a
construct that occurs in the first pattern containing one; it never panics. -/
theorem c03_build_errors (hparse : ParserOk parse) (hs : s.Fair) (ps : List (π × (List Nat → List α → E))) :
    (∃ r, BuildsTo s parse ps r ∧ ∀ r', BuildsTo s parse ps r' → r' = r) ∧
    (∀ e, BuildsTo s parse ps (.error (.regex e)) ↔
      ∃ (i : Nat) (p : π × (List Nat → List α → E)), ps[i]? = some p ∧ parse p.1 = .error e ∧
        ∀ j < i, ∀ q, ps[j]? = some q → ∃ h, parse q.1 = .ok h) ∧
    ((∃ t ws, BuildsTo s parse ps (.ok (t, ws))) ↔
      ∀ p ∈ ps, ∃ h, parse p.1 = .ok h ∧ ∀ e, ¬ Has e h) ∧
    (∀ e, BuildsTo s parse ps (.error (.construct e)) →
      (∀ p ∈ ps, ∃ h, parse p.1 = .ok h) ∧
      ∃ (i : Nat) (p : π × (List Nat → List α → E)) (h : Hir), ps[i]? = some p ∧ parse p.1 = .ok h ∧ Has e h ∧
        ∀ j < i, ∀ q h', ps[j]? = some q → parse q.1 = .ok h' → ∀ e', ¬ Has e' h') ∧
    ¬ BuildsTo s parse ps (.error (.construct .panic)) := by
  obtain ⟨r, hr⟩ := builds_total hparse hs ps
  have hall : ∀ {hirs}, parseAll parse (ps.map Prod.fst) = .ok hirs → ∀ p ∈ ps, ∃ h, h ∈ hirs ∧ parse p.1 = .ok h := by
    intro hirs hpa p hp
    obtain ⟨i, hi⟩ := List.getElem?_of_mem hp
    obtain ⟨h, h1, h2⟩ := (parsed_get hpa i).1 p hi
    exact ⟨h, List.mem_of_getElem? h1, h2⟩
  have hregex : ∀ (l : List (π × (List Nat → List α → E))) (e : ρ), parseAll parse (l.map Prod.fst) = .error e ↔
      ∃ (i : Nat) (p : π × (List Nat → List α → E)), l[i]? = some p ∧ parse p.1 = .error e ∧
        ∀ j < i, ∀ q, l[j]? = some q → ∃ h, parse q.1 = .ok h := by
    intro l e
    induction l with
    | nil => simp [parseAll]
    | cons a l ih =>
      simp only [List.map_cons, parseAll]
      cases ha : parse a.1 with
      | error e' =>
        constructor
        · intro h; cases h; exact ⟨0, a, rfl, ha, by omega⟩
        · rintro ⟨i, p, h1, h2, h3⟩
          cases i with
          | zero => simp at h1; subst h1; rw [ha] at h2; cases h2; rfl
          | succ i => obtain ⟨h, hh⟩ := h3 0 (by omega) a rfl; rw [ha] at hh; cases hh
      | ok h0 =>
        simp only
        have : (∃ (i : Nat) (p : π × (List Nat → List α → E)), (a :: l)[i]? = some p ∧ parse p.1 = .error e ∧
            ∀ j < i, ∀ q, (a :: l)[j]? = some q → ∃ h, parse q.1 = .ok h) ↔
            ∃ (i : Nat) (p : π × (List Nat → List α → E)), l[i]? = some p ∧ parse p.1 = .error e ∧
              ∀ j < i, ∀ q, l[j]? = some q → ∃ h, parse q.1 = .ok h := by
          constructor
          · rintro ⟨i, p, h1, h2, h3⟩
            cases i with
            | zero => simp at h1; subst h1; rw [ha] at h2; cases h2
            | succ i => exact ⟨i, p, by simpa using h1, h2, fun j hj q hq => h3 (j + 1) (by omega) q (by simpa using hq)⟩
          · rintro ⟨i, p, h1, h2, h3⟩
            refine ⟨i + 1, p, by simpa using h1, h2, ?_⟩
            intro j hj q hq
            cases j with
            | zero => simp at hq; subst hq; exact ⟨h0, ha⟩
            | succ j => exact h3 j (by omega) q (by simpa using hq)
        rw [this, ← ih]
        cases parseAll parse (l.map Prod.fst) with
        | error e' => simp
        | ok hs' => simp
  have hfirst : ∀ (l : List Hir) (e : NfaError) (r : List NfaError), l.flatMap Hir.unsupported = e :: r →
      ∃ (i : Nat) (h : Hir), l[i]? = some h ∧ Has e h ∧ ∀ j < i, ∀ h', l[j]? = some h' → ∀ e', ¬ Has e' h' := by
    intro l e
    induction l with
    | nil => intro r h; simp at h
    | cons a l ih =>
      intro r h
      rw [List.flatMap_cons] at h
      cases hu : a.unsupported with
      | nil =>
        rw [hu, List.nil_append] at h
        obtain ⟨i, x, h1, h2, h3⟩ := ih r h
        refine ⟨i + 1, x, by simpa using h1, h2, ?_⟩
        intro j hj h' hh' e' he'
        cases j with
        | zero => simp at hh'; subst hh'; rw [← has_iff, hu] at he'; simp at he'
        | succ j => exact h3 j (by omega) h' (by simpa using hh') e' he'
      | cons e0 r0 =>
        rw [hu] at h
        simp at h
        refine ⟨0, a, rfl, (has_iff a e).1 (by rw [hu, h.1]; simp), by omega⟩
  -- all construct errors
  have hcons : ∀ e, BuildsTo s parse ps (.error (.construct e)) →
      (∀ p ∈ ps, ∃ h, parse p.1 = .ok h) ∧
      ∃ (i : Nat) (p : π × (List Nat → List α → E)) (h : Hir), ps[i]? = some p ∧ parse p.1 = .ok h ∧ Has e h ∧
        ∀ j < i, ∀ q h', ps[j]? = some q → parse q.1 = .ok h' → ∀ e', ¬ Has e' h' := by
    rintro e ⟨fuel, hf⟩
    unfold builderBuild at hf
    cases hpa : parseAll parse (ps.map Prod.fst) with
    | error e' => rw [hpa] at hf; simp at hf
    | ok hirs =>
      rw [hpa] at hf
      simp only at hf
      refine ⟨fun p hp => ?_, ?_⟩
      · obtain ⟨h, _, hh⟩ := hall hpa p hp; exact ⟨h, hh⟩
      rcases buildAll_agrees hirs (parseAll_wf hparse hpa) with ⟨x, _, hx⟩ | ⟨e', l, hl, hx⟩
      · rw [hx] at hf; simp at hf
      · rw [hx] at hf
        simp at hf
        subst hf
        obtain ⟨i, h, a1, a2, a3⟩ := hfirst _ _ _ hl
        obtain ⟨p, b1, b2⟩ := (parsed_get hpa i).2 h a1
        refine ⟨i, p, h, b1, b2, a2, ?_⟩
        intro j hj q h' hq hh'
        obtain ⟨h'', c1, c2⟩ := (parsed_get hpa j).1 q hq
        rw [hh'] at c2
        cases c2
        exact a3 j hj h' c1
  refine ⟨⟨r, hr, fun r' h' => builds_unique h' hr⟩, ?_, ?_, hcons, ?_⟩
  · intro e
    rw [← hregex]
    unfold BuildsTo builderBuild
    cases hpa : parseAll parse (ps.map Prod.fst) with
    | error e' => simp
    | ok hirs =>
      simp only [reduceCtorEq, iff_false, not_exists]
      intro fuel
      cases buildAll hirs with
      | error e' => simp
      | ok tn => simp
  · constructor
    · rintro ⟨t, ws, hb⟩ p hp
      obtain ⟨hirs, h1, h2, h3, h4⟩ := builds_spec hparse hs hb
      obtain ⟨tn, d, h5, _⟩ := h4.dfa
      obtain ⟨h, hh1, hh2⟩ := hall h1 p hp
      refine ⟨h, hh2, ?_⟩
      intro e he
      rcases buildAll_agrees hirs h2 with ⟨x, hl, _⟩ | ⟨e', l, _, hx⟩
      · have : e ∈ hirs.flatMap Hir.unsupported := List.mem_flatMap.2 ⟨h, hh1, (has_iff h e).2 he⟩
        rw [hl] at this
        simp at this
      · rw [h5] at hx; cases hx
    · intro hok
      cases r with
      | ok x => exact ⟨x.1, x.2, hr⟩
      | error x =>
        exfalso
        cases x with
        | construct e =>
          obtain ⟨_, i, p, h, h1, h2, h3, _⟩ := hcons e hr
          obtain ⟨h', h4, h5⟩ := hok p (List.mem_of_getElem? h1)
          rw [h2] at h4
          cases h4
          exact h5 e h3
        | regex e =>
          obtain ⟨fuel, hf⟩ := hr
          have hpe : parseAll parse (ps.map Prod.fst) = .error e := by
            unfold builderBuild at hf
            cases hpa : parseAll parse (ps.map Prod.fst) with
            | error e' => rw [hpa] at hf; simp at hf; rw [hf]
            | ok hirs =>
              rw [hpa] at hf
              simp only at hf
              cases hb : buildAll hirs with
              | error e' => rw [hb] at hf; simp at hf
              | ok tn => rw [hb] at hf; simp at hf
          obtain ⟨i, p, h1, h2, _⟩ := (hregex ps e).1 hpe
          obtain ⟨h', h4, _⟩ := hok p (List.mem_of_getElem? h1)
          rw [h2] at h4
          cases h4
  · intro hp
    obtain ⟨_, i, p, h, _, _, h3, _⟩ := hcons _ hp
    exact has_ne_panic h3 rfl

/-- `a|\b` is rejected because of the word boundary; `a` is accepted. -/
example : builderBuild (α := Nat) (E := Unit) 50 seeds0 parse0 [(ra, fun _ _ => ()), (.alt [rb, .wordBoundary], fun _ _ => ())] =
    some (.error (.construct .wordBoundary)) := rfl

/-! ## C04 -/

/-- C04: the tokenizer accepts a word with index `k` exactly if the tokenizer built from pattern `k` alone accepts it and
none built from an earlier pattern does; it does not accept exactly if none of these does. -/
theorem c04_first_pattern_wins (hparse : ParserOk parse) (hs : s.Fair) (hc : Calm s parse ps)
    (hb : BuildsTo s parse ps (.ok (t, ws)))
    (own : Nat → Tokenizer α E) (so : Nat → Seeds) (wo : Nat → List (Nat × Nat))
    (hown : ∀ (i : Nat) (p : π × (List Nat → List α → E)), ps[i]? = some p → (so i).Fair ∧ Calm (so i) parse [p] ∧ BuildsTo (so i) parse [p] (.ok (own i, wo i)))
    (w : List Nat) :
    (∀ k, t.accepts w = some k ↔ k < ps.length ∧ (own k).accepts w = some 0 ∧ ∀ j < k, (own j).accepts w = none) ∧
    (t.accepts w = none ↔ ∀ j < ps.length, (own j).accepts w = none) := by
  obtain ⟨hirs, h1, h2, h3, h4⟩ := builds_spec hparse hs.calm ((hc _).1 hb)
  have key : ∀ i, i < ps.length → ((own i).accepts w = some 0 ↔ OwnAt hirs i w) ∧ ((own i).accepts w = none ↔ ¬ OwnAt hirs i w) := by
    intro i hi
    obtain ⟨f1, f2, f3⟩ := hown i _ (List.getElem?_eq_getElem hi)
    exact own_alone hparse h1 (List.getElem?_eq_getElem hi) f1.calm (so i).calm_noCollision ((f2 _).1 f3) w
  have hlt : ∀ i, OwnAt hirs i w → i < ps.length := by
    rintro i ⟨h, hi, _⟩
    rw [← h3]
    exact (List.getElem?_eq_some_iff.1 hi).1
  constructor
  · intro k
    rw [accepts_iff h4 s.calm_noCollision]
    constructor
    · rintro ⟨a1, a2⟩
      have hk := hlt k a1
      exact ⟨hk, (key k hk).1.2 a1, fun j hj => (key j (by omega)).2.2 (a2 j hj)⟩
    · rintro ⟨hk, a1, a2⟩
      exact ⟨(key k hk).1.1 a1, fun j hj => (key j (by omega)).2.1 (a2 j hj)⟩
  · rw [accepts_none_iff h4 s.calm_noCollision]
    constructor
    · intro h j hj; exact (key j hj).2.2 (h j)
    · intro h j hj; exact (key j (hlt j hj)).2.1 (h j (hlt j hj)) hj

/-- C04 in terms of the regular languages, for patterns that are translated exactly. -/
theorem c04_first_pattern_wins_lang (hparse : ParserOk parse) (hs : s.Fair) (hc : Calm s parse ps)
    (hb : BuildsTo s parse ps (.ok (t, ws))) (hf : ∀ i, PatFaithful parse ps i) (w : List Nat) :
    (∀ k, t.accepts w = some k ↔ PatLang parse ps k w ∧ ∀ j < k, ¬ PatLang parse ps j w) ∧
    (t.accepts w = none ↔ ∀ j, ¬ PatLang parse ps j w) := by
  obtain ⟨hirs, h1, h2, h3, h4⟩ := builds_spec hparse hs.calm ((hc _).1 hb)
  obtain ⟨tn, d, h5, _⟩ := h4.dfa
  have key : ∀ i, OwnAt hirs i w ↔ PatLang parse ps i w :=
    fun i => ⟨own_patLang h1 h2 (hf i), patLang_own h1 h5 h2⟩
  constructor
  · intro k
    rw [accepts_iff h4 s.calm_noCollision]
    simp only [key]
  · rw [accepts_none_iff h4 s.calm_noCollision]
    simp only [key]

/-- `a` and `[ab]`: `a` goes to pattern 0, `b` to pattern 1. -/
example : acc0 seeds0 [ra, .classU [(97, 98)]] [97] = some (some 0) ∧ acc0 seeds0 [ra, .classU [(97, 98)]] [98] = some (some 1) := by
  decide

/-! ## C05 -/

/-- C05 for any notion `M i w` of "pattern `i` matches `w`". -/
structure WarningsExact (M : Nat → List Nat → Prop) (ws : List (Nat × Nat)) : Prop where
  /-- there is a warning iff two different patterns match a common word -/
  some_iff : ws ≠ [] ↔ ∃ w a b, a ≠ b ∧ M a w ∧ M b w
  /-- a warning names two patterns that match a common word, the later one first -/
  sound : ∀ a b, (a, b) ∈ ws → b < a ∧ ∃ w, M a w ∧ M b w
  /-- whenever several patterns match a word, the winner is named in a warning, with another pattern matching it -/
  complete : ∀ w k, M k w → (∀ j < k, ¬ M j w) → (∃ a, a ≠ k ∧ M a w) → ∃ a, (a, k) ∈ ws ∧ M a w
  /-- exactly the neighbouring pairs are reported -/
  exact : ∀ a b, (a, b) ∈ ws ↔ ∃ w, M a w ∧ M b w ∧ b < a ∧ ∀ j, b < j → j < a → ¬ M j w

theorem warningsExact_of {M : Nat → List Nat → Prop} {ws : List (Nat × Nat)}
    (h : ∀ a b, (a, b) ∈ ws ↔ ∃ w, M a w ∧ M b w ∧ b < a ∧ ∀ j, b < j → j < a → ¬ M j w) : WarningsExact M ws := by
  have hcomplete : ∀ w k, M k w → (∃ a, k < a ∧ M a w) → ∃ a, (a, k) ∈ ws ∧ M a w := by
    rintro w k hk ⟨a, hka, ha⟩
    obtain ⟨c, ⟨hc1, hc2⟩, hc3⟩ := least_of_some (P := fun c => k < c ∧ M c w) ⟨a, hka, ha⟩
    exact ⟨c, (h c k).2 ⟨w, hc2, hk, hc1, fun j hj1 hj2 hj3 => hc3 j hj2 ⟨hj1, hj3⟩⟩, hc2⟩
  refine ⟨?_, ?_, ?_, h⟩
  · constructor
    · intro hne
      obtain ⟨⟨a, b⟩, hab⟩ := List.exists_mem_of_ne_nil _ hne
      obtain ⟨w, h1, h2, h3, _⟩ := (h a b).1 hab
      exact ⟨w, a, b, by omega, h1, h2⟩
    · rintro ⟨w, a, b, hab, ha, hb⟩ hnil
      rcases Nat.lt_or_gt_of_ne hab with h' | h'
      · obtain ⟨c, hc, _⟩ := hcomplete w a ha ⟨b, h', hb⟩
        rw [hnil] at hc; simp at hc
      · obtain ⟨c, hc, _⟩ := hcomplete w b hb ⟨a, h', ha⟩
        rw [hnil] at hc; simp at hc
  · intro a b hab
    obtain ⟨w, h1, h2, h3, _⟩ := (h a b).1 hab
    exact ⟨h3, w, h1, h2⟩
  · rintro w k hk hleast ⟨a, hak, ha⟩
    have : ¬ a < k := fun hlt => hleast a hlt ha
    exact hcomplete w k hk ⟨a, by omega, ha⟩

/-- C05: the warnings describe exactly the overlaps, where "matches" means: is accepted by the tokenizer built from that
pattern alone.  (No condition on hash collisions in the build that gives the warnings.) -/
theorem c05_overlap_warnings (hparse : ParserOk parse) (hs : s.Fair) (hb : BuildsTo s parse ps (.ok (t, ws)))
    (own : Nat → Tokenizer α E) (so : Nat → Seeds) (wo : Nat → List (Nat × Nat))
    (hown : ∀ (i : Nat) (p : π × (List Nat → List α → E)), ps[i]? = some p → (so i).Fair ∧ Calm (so i) parse [p] ∧ BuildsTo (so i) parse [p] (.ok (own i, wo i))) :
    WarningsExact (fun i w => i < ps.length ∧ (own i).accepts w = some 0) ws := by
  obtain ⟨hirs, h1, h2, h3, h4⟩ := builds_spec hparse hs hb
  have key : ∀ w i, OwnAt hirs i w ↔ i < ps.length ∧ (own i).accepts w = some 0 := by
    intro w i
    constructor
    · intro ho
      have hi : i < ps.length := by
        obtain ⟨h, hi, _⟩ := ho
        rw [← h3]
        exact (List.getElem?_eq_some_iff.1 hi).1
      obtain ⟨f1, f2, f3⟩ := hown i _ (List.getElem?_eq_getElem hi)
      exact ⟨hi, (own_alone hparse h1 (List.getElem?_eq_getElem hi) f1.calm (so i).calm_noCollision ((f2 _).1 f3) w).1.2 ho⟩
    · rintro ⟨hi, ho⟩
      obtain ⟨f1, f2, f3⟩ := hown i _ (List.getElem?_eq_getElem hi)
      exact (own_alone hparse h1 (List.getElem?_eq_getElem hi) f1.calm (so i).calm_noCollision ((f2 _).1 f3) w).1.1 ho
  apply warningsExact_of
  intro a b
  rw [h4.warn]
  simp only [key]

/-- C05 in terms of the regular languages, for patterns that are translated exactly; all hash seeds. -/
theorem c05_overlap_warnings_lang (hparse : ParserOk parse) (hs : s.Fair) (hb : BuildsTo s parse ps (.ok (t, ws)))
    (hf : ∀ i, PatFaithful parse ps i) : WarningsExact (PatLang parse ps) ws := by
  obtain ⟨hirs, h1, h2, h3, h4⟩ := builds_spec hparse hs hb
  obtain ⟨tn, d, h5, _⟩ := h4.dfa
  have key : ∀ w i, OwnAt hirs i w ↔ PatLang parse ps i w :=
    fun w i => ⟨own_patLang h1 h2 (hf i), patLang_own h1 h5 h2⟩
  apply warningsExact_of
  intro a b
  rw [h4.warn]
  simp only [key]

/-- `a`, `[ab]`, `[ac]`: the word `a` is reported as (1,0) and (2,1). -/
example : (tok0 seeds0 [ra, .classU [(97, 98)], .classU [(97, 97), (99, 99)]]).map Prod.snd = some [(2, 1), (1, 0)] := by decide

/-! ## C06 -/

/-- C06: the tables are well formed, for all hash seeds (even with collisions): see the fields of `RowWF` and `DFA.WF`;
a look-up finds the unique range containing the character; all callbacks exist; and `next` never panics. -/
theorem c06_tables_well_formed (hparse : ParserOk parse) (hs : s.Fair) (hb : BuildsTo s parse ps (.ok (t, ws))) :
    t.dfa.WF ps.length ∧ t.maker = ps.map Prod.snd ∧
    (∀ (n : Nat) (row : Row) (c m : Nat), t.dfa.rows[n]? = some row →
      (t.dfa.next n c = some m ↔ ∃ lo hi, ((lo, hi), m) ∈ row ∧ lo ≤ c ∧ c < hi)) ∧
    (∀ (map : α → Nat) (it : It α), (t.next map it).1 ≠ .panic) := by
  obtain ⟨hirs, h1, h2, h3, h4⟩ := builds_spec hparse hs hb
  have hwf := h4.wf
  rw [h3] at hwf
  refine ⟨hwf, h4.maker, ?_, ?_⟩
  · intro n row c m hr
    have : t.dfa.next n c = nextInRow row c := by unfold DFA.next; rw [hr]; rfl
    rw [this]
    exact nextInRow_iff (hwf.rows row (List.mem_of_getElem? hr))
  · intro map it
    obtain ⟨r, _, _, h | ⟨n, k, f, _, _, _, _, h, _⟩⟩ := next_spec (t := t) (map := map) (by rw [h4.maker]; simpa using hwf) it
    · rw [h.1]; simp
    · rw [h]; simp

/-- The tables of `[a-c]|b+` have three rows. -/
example : (tok0 seeds0 [.alt [.classU [(97, 99)], .rep .oneOrMore rb]]).map (fun r => r.1.dfa.rows.length) = some 3 := by decide

/-! ## C07 -/

/-- C07: after any word, the deterministic table is stuck exactly if the nondeterministic automaton has no path; two words
lead to the same state exactly if they lead to the same set of nodes; the accept index is the least pattern whose final
node is reached. -/
theorem c07_subset_construction {hs : List Hir} (ho : ∀ h ∈ hs, h.ok = true) {tn : TNFA} (ht : buildAll hs = .ok tn)
    {ord : List (List Nat) → List (List Nat)} (hord : ∀ l, (ord l).Perm l) :
    (∃ fuel d ws, fromNfa fuel ord tn = some (d, ws)) ∧
    ∀ fuel d ws, fromNfa fuel ord tn = some (d, ws) →
      (∀ w, d.run d.b w = none ↔ ∀ q, ¬ NPath tn.node tn.b w q) ∧
      (∀ u v, d.run d.b u = d.run d.b v ↔ ∀ q, NPath tn.node tn.b u q ↔ NPath tn.node tn.b v q) ∧
      (∀ w k, (d.run d.b w).map d.accept = some (some k) ↔ tn.Accepts k w ∧ ∀ j < k, ¬ tn.Accepts j w) := by
  constructor
  · obtain ⟨fuel, ⟨d, ws⟩, h⟩ := fromNfa_some (ord := ord) (buildAll_good ht ho).1 (buildAll_edgesOk ht ho)
    exact ⟨fuel, d, ws, h⟩
  · intro fuel d ws h
    obtain ⟨g1, _⟩ := fromNfa_spec (buildAll_edgesOk ht ho) hord h
    refine ⟨?_, g1.same, g1.acc⟩
    intro w
    rw [← g1.stuck]
    simp [DFA.obs]

example : ∃ tn, buildAll [.alt [ra, .concat [ra, rb]], .rep .oneOrMore (.classU [(97, 122)])] = .ok tn := ⟨_, rfl⟩

/-! ## C08 -/

theorem rowEq_iff : ∀ k k' : Row, rowEq k k' = true ↔ (k.map fun x => (x.1.1, x.2)) = k'.map fun x => (x.1.1, x.2)
  | [], [] => by simp [rowEq]
  | [], _ :: _ => by simp [rowEq]
  | _ :: _, [] => by simp [rowEq]
  | ((s, _), g) :: t, ((s', _), g') :: t' => by simp [rowEq, rowEq_iff t t', and_assoc]

/-- C08: for all iteration orders, if no two different keys that compare equal collide in the hash table of the minimiser,
the minimised table behaves on every word like the unminimised one.  Keys compare equal if the starts of the ranges and the
groups are the same, whatever the ends.  With such a collision the claim is false
(`c08_collision`). -/
theorem c08_minimisation {o : MinOracle} (ho : o.Fair) {d : DFA} {p : Nat} (hd : d.WF p)
    (hc : ∀ gm, ∀ r ∈ [] :: d.rows, ∀ r' ∈ [] :: d.rows, compress gm r ≠ compress gm r' →
      ((compress gm r).map fun x => (x.1.1, x.2)) = ((compress gm r').map fun x => (x.1.1, x.2)) →
      ∀ i g t, o.collide i g t (compress gm r) (compress gm r') = false) :
    ∃ d', minify o d = some d' ∧ ∀ w, (d'.run d'.b w).map d'.accept = (d.run d.b w).map d.accept := by
  rw [minify_calm fun gm r hr r' hr' hne he => hc gm r hr r' hr' hne ((rowEq_iff _ _).1 he)]
  obtain ⟨d', f, h1, h2, h3⟩ := minify_spec (o := { o with collide := fun _ _ _ _ _ => false }) ⟨ho.visit, ho.order, ho.pick⟩ (fun _ _ _ _ _ => rfl) hd
  exact ⟨d', h1, h3.obs hd⟩

/-- In any case minimisation ends and gives well-formed tables. -/
theorem c08_minimisation_total {o : MinOracle} (ho : o.Fair) {d : DFA} {p : Nat} (hd : d.WF p) :
    ∃ d', minify o d = some d' ∧ d'.WF p := minify_weak ho hd

/-- The pattern `xa|y[ab]`. -/
def collisionPattern : Hir := .alt [.concat [rx, ra], .concat [ry, .classU [(97, 98)]]]

/-- As `seeds1`, but another element of a group is picked. -/
def seeds2 : Seeds := { seeds1 with min := { seeds1.min with pick := fun l => l.getLastD 0 } }

theorem seeds2_fair : seeds2.Fair := by
  refine ⟨fun l => List.Perm.refl _, ⟨fun _ _ l => List.Perm.refl _, fun _ _ l => List.Perm.refl _, ?_⟩⟩
  intro l h
  show l.getLastD 0 ∈ l
  rw [List.getLastD_eq_getLast?, List.getLast?_eq_some_getLast h]
  exact List.getLast_mem h

/-- C08 fails when the hash table confuses the keys `{a..b ↦ g}` and `{a..c ↦ g}`, which compare equal: of the pattern
`xa|y[ab]` the word `yb` is then lost, or the word `xb` accepted, depending on the order of a hash set. -/
theorem c08_collision :
    acc0 seeds0 [collisionPattern] [121, 98] = some (some 0) ∧ acc0 seeds1 [collisionPattern] [121, 98] = some none ∧
    acc0 seeds0 [collisionPattern] [120, 98] = some none ∧ acc0 seeds2 [collisionPattern] [120, 98] = some (some 0) ∧
    seeds0.Fair ∧ seeds1.Fair ∧ seeds2.Fair :=
  ⟨by decide, by decide, by decide, by decide, seeds0_fair, seeds1_fair, seeds2_fair⟩

/-! ## C09 -/

/-- C09: no table with the same behaviour on all words has fewer states. -/
theorem c09_minimal (hparse : ParserOk parse) (hs : s.Fair) (hc : Calm s parse ps)
    (hb : BuildsTo s parse ps (.ok (t, ws))) (e : DFA) (heb : e.b < e.rows.length)
    (hen : ∀ i c m, e.next i c = some m → m < e.rows.length)
    (hsame : ∀ w, (e.run e.b w).map e.accept = (t.dfa.run t.dfa.b w).map t.dfa.accept) :
    t.dfa.rows.length ≤ e.rows.length := by
  obtain ⟨hirs, h1, h2, h3, h4⟩ := builds_spec hparse hs.calm ((hc _).1 hb)
  obtain ⟨tn, d, h5, h6, h7, h8, h9⟩ := h4.dfa
  obtain ⟨f, hf⟩ := h9 s.calm_noCollision
  exact hf.minimal h6.wf h6.reach heb hen hsame

/-- `aa|ba` needs three states, and gets three. -/
example : (tok0 seeds0 [.alt [.concat [ra, ra], .concat [rb, ra]]]).map (fun r => r.1.dfa.rows.length) = some 3 := by decide

end Verif.Tok
