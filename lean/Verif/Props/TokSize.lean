import Verif.Tok.SizeProof
import Verif.Props.TokRead
import Verif.Props.TokSmooth

/-!
# Property C66: the size of the tables
-/

namespace Verif.Tok

variable {π ρ α E : Type} {parse : π → Except ρ Hir} {s : Seeds} {ps : List (π × (List Nat → List α → E))}
  {t : Tokenizer α E} {ws : List (Nat × Nat)}

theorem accepts_least (hparse : ParserOk parse) (hs : s.Fair) (hc : Calm s parse ps)
    (hb : BuildsTo s parse ps (.ok (t, ws))) (k : Nat) (w : List Nat) : t.accepts w = some k ↔ Least (PatCode parse ps) k w :=
  (c41_translated_language hparse hs hc hb w).1 k

theorem lower (hparse : ParserOk parse) (hs : s.Fair) (hc : Calm s parse ps) (hl : PatsLive parse ps) (hne : ps ≠ [])
    (hb : BuildsTo s parse ps (.ok (t, ws))) (W : List (List Nat)) (hv : ∀ w ∈ W, Viable (PatCode parse ps) w)
    (hW : W.Pairwise (Tells (PatCode parse ps))) : W.length ≤ t.dfa.rows.length := by
  obtain ⟨hirs, h1, h2, h3, h4⟩ := builds_spec hparse hs.calm ((hc _).1 hb)
  have hrun : ∀ w ∈ W, ∃ i, t.dfa.run t.dfa.b w = some i := by
    intro w hw
    have : ¬ t.stuck w := fun h => (stuck_iff_viable hparse hs hc hl hne hb w).1 h (hv w hw)
    unfold Tokenizer.stuck at this
    exact Option.ne_none_iff_exists'.1 this
  have hnd : (W.map fun w => (t.dfa.run t.dfa.b w).getD 0).Nodup := by
    rw [List.Nodup, List.pairwise_map]
    refine List.Pairwise.imp_of_mem ?_ hW
    rintro u v hu hv' ⟨x, k, hx⟩ e
    obtain ⟨i, hi⟩ := hrun u hu
    obtain ⟨j, hj⟩ := hrun v hv'
    rw [hi, hj] at e
    simp only [Option.getD_some] at e
    subst e
    apply hx
    rw [← accepts_least hparse hs hc hb, ← accepts_least hparse hs hc hb]
    unfold Tokenizer.accepts
    have := fun w j (h : t.dfa.run t.dfa.b w = some j) => DFA.obsFrom_append t.dfa t.dfa.b j w x h
    unfold DFA.obs
    have e1 := this u i hi
    have e2 := this v i hj
    unfold DFA.obsFrom at e1 e2
    rw [e1, e2]
  have hlt : ∀ w ∈ W, ∀ i, t.dfa.run t.dfa.b w = some i → i < t.dfa.rows.length := by
    intro w _ i hi
    exact run_lt h4.wf w _ _ h4.wf.b hi
  have := length_le_of_nodup_subset hnd (t := List.range t.dfa.rows.length) (by
    intro i hi
    obtain ⟨w, hw, rfl⟩ := List.mem_map.1 hi
    obtain ⟨j, hj⟩ := hrun w hw
    rw [hj]
    exact List.mem_range.2 (hlt w hw j hj))
  simpa using this

theorem tells_of_obs (hparse : ParserOk parse) (hs : s.Fair) (hc : Calm s parse ps) (hl : PatsLive parse ps) (hne : ps ≠ [])
    (hb : BuildsTo s parse ps (.ok (t, ws))) {u v w : List Nat} (h : t.dfa.obs (u ++ w) ≠ t.dfa.obs (v ++ w)) :
    Tells (PatCode parse ps) u v := by
  have hacc := accepts_least hparse hs hc hb
  have hst : ∀ w, t.dfa.obs w = none ↔ ¬ Viable (PatCode parse ps) w := fun w => by
    rw [← stuck_iff, stuck_iff_viable hparse hs hc hl hne hb w]
  have hnone := fun w => (c41_translated_language hparse hs hc hb w).2
  -- one of the two texts is stuck and the other is not
  have key : ∀ u v : List Nat, Viable (PatCode parse ps) (u ++ w) → ¬ Viable (PatCode parse ps) (v ++ w) →
      ∃ x k, Least (PatCode parse ps) k (u ++ x) ∧ ¬ Least (PatCode parse ps) k (v ++ x) := by
    rintro u v ⟨z, k, hz, hk⟩ hv
    cases ha : t.accepts (u ++ (w ++ z)) with
    | none => exact absurd (by rwa [List.append_assoc] at hk) ((hnone _).1 ha k)
    | some k' =>
      exact ⟨w ++ z, k', (hacc _ _).1 ha, fun hl' => hv ⟨z, k', hz, by rw [List.append_assoc]; exact hl'.1⟩⟩
  by_cases h1 : t.dfa.obs (u ++ w) = none
  · have h2 : Viable (PatCode parse ps) (v ++ w) := Classical.byContradiction fun hn => h (h1.trans ((hst _).2 hn).symm)
    obtain ⟨x, k, a, b⟩ := key v u h2 ((hst _).1 h1)
    exact ⟨x, k, fun e => b (e.2 a)⟩
  · by_cases h2 : t.dfa.obs (v ++ w) = none
    · obtain ⟨x, k, a, b⟩ := key u v (Classical.byContradiction fun hn => h1 ((hst _).2 hn)) ((hst _).1 h2)
      exact ⟨x, k, fun e => b (e.1 a)⟩
    · obtain ⟨o1, h1⟩ := Option.ne_none_iff_exists'.1 h1
      obtain ⟨o2, h2⟩ := Option.ne_none_iff_exists'.1 h2
      have a1 : t.accepts (u ++ w) = o1 := by simp [Tokenizer.accepts, h1]
      have a2 : t.accepts (v ++ w) = o2 := by simp [Tokenizer.accepts, h2]
      rw [h1, h2] at h
      cases o1 with
      | some k =>
        refine ⟨w, k, fun e => ?_⟩
        rw [← hacc, ← hacc, a1, a2] at e
        exact h (by rw [e.1 rfl])
      | none =>
        cases o2 with
        | none => exact absurd rfl h
        | some k =>
          refine ⟨w, k, fun e => ?_⟩
          rw [← hacc, ← hacc, a1, a2] at e
          exact h (by rw [e.2 rfl])

theorem exact_size (hparse : ParserOk parse) (hs : s.Fair) (hc : Calm s parse ps) (hl : PatsLive parse ps) (hne : ps ≠ [])
    (hb : BuildsTo s parse ps (.ok (t, ws))) : ∃ W : List (List Nat), (∀ w ∈ W, Viable (PatCode parse ps) w) ∧
      W.Pairwise (Tells (PatCode parse ps)) ∧ W.length = t.dfa.rows.length := by
  obtain ⟨hirs, h1, h2, h3, h4⟩ := builds_spec hparse hs.calm ((hc _).1 hb)
  obtain ⟨tn, d, h5, h6, h7, h8, h9⟩ := h4.dfa
  obtain ⟨f, hm⟩ := h9 s.calm_noCollision
  have hw : ∀ g, ∃ u, g < t.dfa.rows.length → ∃ i, i < d.rows.length ∧ f i = g ∧ d.run d.b u = some i := by
    intro g
    by_cases hg : g < t.dfa.rows.length
    · obtain ⟨i, hi, e⟩ := hm.onto g hg
      obtain ⟨u, hu⟩ := h6.reach i hi
      exact ⟨u, fun _ => ⟨i, hi, e, hu⟩⟩
    · exact ⟨[], fun h => absurd h hg⟩
  let word : Nat → List Nat := fun g => Classical.choose (hw g)
  have hword : ∀ g, g < t.dfa.rows.length → ∃ i, i < d.rows.length ∧ f i = g ∧ d.run d.b (word g) = some i :=
    fun g => Classical.choose_spec (hw g)
  refine ⟨(List.range t.dfa.rows.length).map word, ?_, ?_, by simp⟩
  · intro w hw'
    obtain ⟨g, hg, rfl⟩ := List.mem_map.1 hw'
    obtain ⟨i, hi, e, hr⟩ := hword g (List.mem_range.1 hg)
    apply Classical.byContradiction
    intro hn
    have := (stuck_iff_viable hparse hs hc hl hne hb _).2 hn
    rw [stuck_iff, hm.obs h6.wf] at this
    simp [DFA.obs, hr] at this
  · rw [List.pairwise_map]
    refine List.Pairwise.imp_of_mem ?_ (List.nodup_range (n := t.dfa.rows.length))
    intro g g' hg hg' hne'
    obtain ⟨i, hi, e, hr⟩ := hword g (List.mem_range.1 hg)
    obtain ⟨i', hi', e', hr'⟩ := hword g' (List.mem_range.1 hg')
    obtain ⟨w, hw'⟩ := hm.dist i i' hi hi' (by rw [e, e']; exact hne')
    refine tells_of_obs hparse hs hc hl hne hb (w := w) ?_
    rw [hm.obs h6.wf, hm.obs h6.wf]
    have a1 := DFA.obsFrom_append d d.b i _ w hr
    have a2 := DFA.obsFrom_append d d.b i' _ w hr'
    unfold DFA.obs
    unfold DFA.obsFrom at a1 a2 hw'
    rw [a1, a2]
    exact hw'

/-! ## C66 -/

/-- C66: the tables have as many states as there can be texts that can become a token and that are told apart by continuations: so many
texts exist, and more do not. -/
theorem c66_states (hparse : ParserOk parse) (hs : s.Fair) (hc : Calm s parse ps) (hl : PatsLive parse ps) (hne : ps ≠ [])
    (hb : BuildsTo s parse ps (.ok (t, ws))) :
    (∀ W : List (List Nat), (∀ w ∈ W, Viable (PatCode parse ps) w) → W.Pairwise (Tells (PatCode parse ps)) →
      W.length ≤ t.dfa.rows.length) ∧
    ∃ W : List (List Nat), (∀ w ∈ W, Viable (PatCode parse ps) w) ∧ W.Pairwise (Tells (PatCode parse ps)) ∧
      W.length = t.dfa.rows.length :=
  ⟨lower hparse hs hc hl hne hb, exact_size hparse hs hc hl hne hb⟩

theorem viable_least {L : Nat → List Nat → Prop} {w : List Nat} :
    Viable L w ↔ ∃ v k, (∀ c ∈ v, IsChar c) ∧ Least L k (w ++ v) := by
  constructor
  · rintro ⟨v, k, h1, h2⟩
    obtain ⟨j, hj1, hj2⟩ := least_of_some (P := fun j => L j (w ++ v)) ⟨k, h2⟩
    exact ⟨v, j, h1, hj1, hj2⟩
  · rintro ⟨v, k, h1, h2⟩
    exact ⟨v, k, h1, h2.1⟩

/-- C66: how the patterns are written does not matter for the size: if the first pattern that matches is the same for every text, the
tables have the same number of states. -/
theorem c66_same_size {π' ρ' α' E' : Type} {parse' : π' → Except ρ' Hir} {s' : Seeds} {ps' : List (π' × (List Nat → List α' → E'))}
    {t' : Tokenizer α' E'} {ws' : List (Nat × Nat)}
    (hparse : ParserOk parse) (hs : s.Fair) (hc : Calm s parse ps) (hl : PatsLive parse ps) (hne : ps ≠ [])
    (hb : BuildsTo s parse ps (.ok (t, ws)))
    (hparse' : ParserOk parse') (hs' : s'.Fair) (hc' : Calm s' parse' ps') (hl' : PatsLive parse' ps') (hne' : ps' ≠ [])
    (hb' : BuildsTo s' parse' ps' (.ok (t', ws')))
    (hsame : ∀ k w, Least (PatCode parse ps) k w ↔ Least (PatCode parse' ps') k w) :
    t.dfa.rows.length = t'.dfa.rows.length := by
  have hv : ∀ w, Viable (PatCode parse ps) w ↔ Viable (PatCode parse' ps') w := fun w => by
    simp only [viable_least, hsame]
  have ht : ∀ u v, Tells (PatCode parse ps) u v ↔ Tells (PatCode parse' ps') u v := fun u v => by
    simp only [Tells, hsame]
  obtain ⟨W, h1, h2, h3⟩ := exact_size hparse hs hc hl hne hb
  obtain ⟨W', h1', h2', h3'⟩ := exact_size hparse' hs' hc' hl' hne' hb'
  have a := lower hparse' hs' hc' hl' hne' hb' W (fun w hw => (hv w).1 (h1 w hw)) (h2.imp fun h => (ht _ _).1 h)
  have b := lower hparse hs hc hl hne hb W' (fun w hw => (hv w).2 (h1' w hw)) (h2'.imp fun h => (ht _ _).2 h)
  omega

/-- C66: for all hash seeds, there are fewer states than sets of nodes of the automaton of the patterns, whose number of nodes is linear in
the patterns where counted repetitions are written out. -/
theorem c66_bound (hparse : ParserOk parse) (hs : s.Fair) (hb : BuildsTo s parse ps (.ok (t, ws)))
    (hirs : List Hir) (hp : ps.map (fun p => parse p.1) = hirs.map .ok) : t.dfa.rows.length < 2 ^ (Hir.nodesAll hirs + 1) := by
  obtain ⟨hirs', h1, h2, h3, h4⟩ := builds_spec hparse hs hb
  obtain ⟨tn, d, h5, h6, h7, _, _⟩ := h4.dfa
  have he : hirs' = hirs := by
    obtain ⟨g1, g2⟩ := parseAll_ok.1 h1
    apply List.ext_getElem?
    intro i
    have hlen := congrArg List.length hp
    simp only [List.length_map] at hlen
    by_cases hi : i < ps.length
    · obtain ⟨y, hy1, hy2⟩ := g2 i ps[i].1 (by simp [hi])
      have := congrArg (·[i]?) hp
      simp only [List.getElem?_map, List.getElem?_eq_getElem hi, Option.map_some, hy2] at this
      have hi' : i < hirs.length := by omega
      rw [hy1, List.getElem?_eq_getElem hi']
      rw [List.getElem?_eq_getElem hi'] at this
      simp at this
      rw [this]
    · rw [List.getElem?_eq_none (by omega), List.getElem?_eq_none (by omega)]
  subst he
  rw [← buildAll_length h5]
  exact Nat.lt_of_le_of_lt (minify_le hs.min h6.wf h7) (subset_lt (buildAll_good h5 h2).1 h6)

/-! ## The bound is reached up to the factor in the exponent -/

/-- `[ab]`, and `[ab]*a[ab]{n}`: the texts over the two letters whose letter number `n + 1` from the end is `a`. -/
abbrev rab : Hir := .classU [(97, 98)]
def farPattern (n : Nat) : Hir := .concat [.rep .zeroOrMore rab, ra, .rep (.exactly n) rab]

theorem pow_rab : ∀ n w, Pow (Lang rab) n w ↔ w ∈ words2 Nat 97 98 n := by
  intro n
  induction n with
  | zero => intro w; simp [Pow, words2]
  | succ n ih =>
    intro w
    rw [mem_words2, Pow]
    constructor
    · rintro ⟨u, v, rfl, ⟨c, rfl, r, hr, h1, h2⟩, hv⟩
      simp only [List.mem_singleton] at hr
      subst hr
      obtain ⟨h3, h4⟩ := mem_words2.1 ((ih v).1 hv)
      refine ⟨by simp [h3], ?_⟩
      intro c' hc'
      simp only [List.cons_append, List.nil_append, List.mem_cons] at hc'
      rcases hc' with rfl | hc'
      · simp only at h1 h2; omega
      · exact h4 c' hc'
    · rintro ⟨h1, h2⟩
      cases w with
      | nil => simp at h1
      | cons c w =>
        refine ⟨[c], w, rfl, ⟨c, rfl, (97, 98), by simp, ?_, ?_⟩, (ih w).2 (mem_words2.2 ⟨by simpa using h1, fun c hc => h2 c (by simp [hc])⟩)⟩
        · rcases h2 c (by simp) with rfl | rfl <;> simp
        · rcases h2 c (by simp) with rfl | rfl <;> simp

theorem far_lang (n : Nat) (w : List Nat) :
    Lang (farPattern n) w ↔ (∀ c ∈ w, c = 97 ∨ c = 98) ∧ ∃ u v, w = u ++ 97 :: v ∧ v.length = n := by
  simp only [farPattern, Lang.eq_10, LangSeq]
  constructor
  · rintro ⟨u, v, rfl, ⟨m, _, hu⟩, v1, v2, rfl, rfl, v3, v4, rfl, ⟨m', hm, hv⟩, rfl⟩
    simp only [RepKind.allows] at hm
    subst hm
    obtain ⟨_, a2⟩ := mem_words2.1 ((pow_rab _ _).1 hu)
    obtain ⟨b1, b2⟩ := mem_words2.1 ((pow_rab _ _).1 hv)
    refine ⟨?_, u, v3, by simp, b1⟩
    intro c hc
    simp only [List.append_nil, List.cons_append, List.nil_append, List.mem_append, List.mem_cons] at hc
    rcases hc with hc | rfl | hc
    · exact a2 c hc
    · exact .inl rfl
    · exact b2 c hc
  · rintro ⟨h, u, v, rfl, hv⟩
    refine ⟨u, 97 :: v, rfl, ⟨u.length, trivial, (pow_rab _ _).2 (mem_words2.2 ⟨rfl, fun c hc => h c (by simp [hc])⟩)⟩, [97], v, rfl, rfl,
      v, [], by simp, ⟨n, rfl, (pow_rab _ _).2 (mem_words2.2 ⟨hv, fun c hc => h c (by simp [hc])⟩)⟩, rfl⟩

/-- The last `n + 1` letters, filled up with `b` in front. -/
def farTail (n : Nat) (w : List Nat) : List Nat := (List.replicate (n + 1) 98 ++ w).drop w.length

theorem farTail_length (n : Nat) (w : List Nat) : (farTail n w).length = n + 1 := by simp [farTail]

theorem far_split (n : Nat) (w : List Nat) : (∃ u v, w = u ++ 97 :: v ∧ v.length = n) ↔ (farTail n w).head? = some 97 := by
  constructor
  · rintro ⟨u, v, rfl, hv⟩
    have : (List.replicate (n + 1) 98 ++ (u ++ 97 :: v)).drop (u ++ 97 :: v).length = 97 :: v := by
      rw [← List.append_assoc]
      have hl : (u ++ 97 :: v).length = (List.replicate (n + 1) 98 ++ u).length := by simp [hv]; omega
      rw [hl, List.drop_left]
    rw [farTail, this]
    rfl
  · intro h
    unfold farTail at h
    cases ht : (List.replicate (n + 1) 98 ++ w).drop w.length with
    | nil => rw [ht] at h; simp at h
    | cons c v =>
      rw [ht] at h
      simp only [List.head?_cons, Option.some.injEq] at h
      subst h
      have hlen := congrArg List.length ht
      simp only [List.length_drop, List.length_append, List.length_replicate, List.length_cons] at hlen
      have hv : v.length = n := by omega
      by_cases hw : n + 1 ≤ w.length
      · rw [List.drop_append, List.drop_of_length_le (by simpa using hw), List.length_replicate, List.nil_append] at ht
        refine ⟨w.take (w.length - (n + 1)), v, ?_, hv⟩
        rw [← ht, List.take_append_drop]
      · rw [List.drop_append, List.drop_replicate] at ht
        obtain ⟨k, hk⟩ : ∃ k, n + 1 - w.length = k + 1 := ⟨n - w.length, by omega⟩
        rw [hk, List.replicate_succ] at ht
        simp at ht

theorem farTail_append (n : Nat) (w x : List Nat) : farTail n (w ++ x) = (farTail n w ++ x).drop x.length := by
  unfold farTail
  rw [List.length_append, ← List.drop_drop, ← List.append_assoc, List.drop_append_of_le_length (l₁ := List.replicate (n + 1) 98 ++ w) (by simp)]

theorem far_append (n : Nat) (w x : List Nat) : Lang (farPattern n) (w ++ x) ↔
    (∀ c ∈ w, c = 97 ∨ c = 98) ∧ (∀ c ∈ x, c = 97 ∨ c = 98) ∧ ((farTail n w ++ x).drop x.length).head? = some 97 := by
  rw [far_lang, far_split, farTail_append]
  simp only [List.mem_append]
  constructor
  · rintro ⟨h1, h2⟩
    exact ⟨fun c hc => h1 c (.inl hc), fun c hc => h1 c (.inr hc), h2⟩
  · rintro ⟨h1, h2, h3⟩
    exact ⟨fun c hc => hc.elim (h1 c) (h2 c), h3⟩

section far

variable {n : Nat} {f : List Nat → List α → E}

theorem far_ok : parse0 (farPattern n) = .ok (farPattern n) := by
  have : (farPattern n).ok = true := by simp [farPattern, Hir.ok, Hir.okList, classOk]
  simp [parse0, this]

theorem far_faithful (i : Nat) : PatFaithful parse0 [(farPattern n, f)] i := by
  intro p h h1 h2
  cases i with
  | succ i => simp at h1
  | zero =>
    simp only [List.getElem?_cons_zero, Option.some.injEq] at h1
    subst h1
    rw [far_ok] at h2
    cases h2
    simp [farPattern, Hir.faithful, Hir.faithfulAll, Hir.freeB]

theorem far_live : PatsLive parse0 [(farPattern n, f)] := by
  intro p hp h h2
  simp only [List.mem_singleton] at hp
  subst hp
  rw [far_ok] at h2
  cases h2
  simp [farPattern, Hir.live, Hir.liveAll, IsChar]

theorem far_patLang (k : Nat) (w : List Nat) : PatLang parse0 [(farPattern n, f)] k w ↔ k = 0 ∧ Lang (farPattern n) w := by
  constructor
  · rintro ⟨p, h, h1, h2, h3⟩
    cases k with
    | succ k => simp at h1
    | zero =>
      simp only [List.getElem?_cons_zero, Option.some.injEq] at h1
      subst h1
      rw [far_ok] at h2
      cases h2
      exact ⟨rfl, h3⟩
  · rintro ⟨rfl, h⟩
    exact ⟨_, _, rfl, far_ok, h⟩

theorem far_least (k : Nat) (w : List Nat) : Least (PatLang parse0 [(farPattern n, f)]) k w ↔ k = 0 ∧ Lang (farPattern n) w := by
  unfold Least
  simp only [far_patLang]
  constructor
  · exact fun h => h.1
  · rintro ⟨rfl, h⟩
    exact ⟨⟨rfl, h⟩, by omega⟩

/-- No hash collision disturbs the build: the characters `a` and `b` can always follow. -/
theorem far_calm {t : Tokenizer α E} (hs : s.Fair) (hb : BuildsTo s parse0 [(farPattern n, f)] (.ok (t, ws))) : Calm s parse0 [(farPattern n, f)] := by
  have hcode : ∀ i w, PatCode parse0 [(farPattern n, f)] i w ↔ PatLang parse0 [(farPattern n, f)] i w := fun i w =>
    ⟨(c41_contains_language parse0_ok hs hb i w).2 (far_faithful i), (c41_contains_language parse0_ok hs hb i w).1⟩
  have hv : ∀ u, Viable (PatCode parse0 [(farPattern n, f)]) u ↔ ∀ x ∈ u, x = 97 ∨ x = 98 := by
    intro u
    unfold Viable
    simp only [hcode, far_patLang]
    constructor
    · rintro ⟨v, k, _, _, h⟩
      exact ((far_append n u v).1 h).1
    · intro h
      have ha : ∀ c ∈ 97 :: List.replicate n 97, c = 97 := by
        intro c hc
        rcases List.mem_cons.1 hc with h | h
        · exact h
        · exact List.eq_of_mem_replicate h
      refine ⟨97 :: List.replicate n 97, 0, ?_, rfl, (far_lang _ _).2 ⟨?_, u, _, rfl, by simp⟩⟩
      · intro c hc
        rw [ha c hc]
        decide
      · intro c hc
        rcases List.mem_append.1 hc with hc | hc
        · exact h c hc
        · exact .inl (ha c hc)
  refine c77_simple parse0_ok far_live (by simp) ?_ s hs
  intro u v c h1 h2 h3 _ _ _
  rw [hv] at h1 h2 h3 ⊢
  have h4 := h3 (c + 1) (by simp)
  have h5 := h2 c (by simp)
  intro x hx
  rcases List.mem_append.1 hx with hx | hx
  · exact h1 x (by simp [hx])
  · simp only [List.mem_singleton] at hx
    omega

/-- C66: the patterns `[ab]*a[ab]{n}`, whose automata have `2n + 5` nodes, need `2 ^ (n + 1)` states. -/
theorem c66_blowup {t : Tokenizer α E} (hs : s.Fair)
    (hb : BuildsTo s parse0 [(farPattern n, f)] (.ok (t, ws))) : t.dfa.rows.length = 2 ^ (n + 1) := by
  have hcode : PatCode parse0 [(farPattern n, f)] = PatLang parse0 [(farPattern n, f)] := by
    funext i w
    exact propext ⟨(c41_contains_language parse0_ok hs hb i w).2 (far_faithful i), (c41_contains_language parse0_ok hs hb i w).1⟩
  apply Nat.le_antisymm
  · obtain ⟨W, h1, h2, h3⟩ := exact_size parse0_ok hs (far_calm hs hb) far_live (by simp) hb
    rw [hcode] at h1 h2
    have hab : ∀ w ∈ W, ∀ c ∈ w, c = 97 ∨ c = 98 := by
      intro w hw
      obtain ⟨v, k, _, hk⟩ := h1 w hw
      obtain ⟨_, hk⟩ := (far_patLang _ _).1 hk
      exact ((far_append n w v).1 hk).1
    have hnd : (W.map (farTail n)).Nodup := by
      rw [List.Nodup, List.pairwise_map]
      refine List.Pairwise.imp_of_mem ?_ h2
      rintro u v hu hv ⟨x, k, hx⟩ e
      apply hx
      simp only [far_least, far_append, e]
      simp only [iff_true_intro (hab u hu), iff_true_intro (hab v hv)]
    have := length_le_of_nodup_subset hnd (t := words2 Nat 97 98 (n + 1)) (by
      intro x hx
      obtain ⟨w, hw, rfl⟩ := List.mem_map.1 hx
      refine mem_words2.2 ⟨farTail_length n w, ?_⟩
      intro c hc
      rcases List.mem_append.1 (List.mem_of_mem_drop hc) with hc | hc
      · exact .inr (List.eq_of_mem_replicate hc)
      · exact hab w hw c hc)
    rw [words2_length, List.length_map] at this
    omega
  · rw [← words2_length (α := Nat) 97 98 (n + 1)]
    apply lower parse0_ok hs (far_calm hs hb) far_live (by simp) hb
    · intro w hw
      rw [hcode]
      refine ⟨97 :: List.replicate n 97, 0, ?_, (far_patLang _ _).2 ⟨rfl, (far_lang _ _).2 ⟨?_, w, _, rfl, by simp⟩⟩⟩
      · intro c hc
        have : c = 97 := by
          rcases List.mem_cons.1 hc with h | h
          · exact h
          · exact List.eq_of_mem_replicate h
        subst this
        decide
      · intro c hc
        rcases List.mem_append.1 hc with hc | hc
        · exact (mem_words2.1 hw).2 c hc
        · rcases List.mem_cons.1 hc with h | h
          · exact .inl h
          · exact .inl (List.eq_of_mem_replicate h)
    · rw [hcode]
      refine List.Pairwise.imp_of_mem ?_ (words2_nodup (by decide) (n + 1))
      intro u v hu hv hne
      obtain ⟨u1, u2⟩ := mem_words2.1 hu
      obtain ⟨v1, v2⟩ := mem_words2.1 hv
      have htail : ∀ w : List Nat, w.length = n + 1 → farTail n w = w := by
        intro w hw
        rw [farTail, hw]
        exact List.drop_left' (by simp)
      -- a place where they differ
      obtain ⟨i, hi, hd⟩ : ∃ i, i < n + 1 ∧ u[i]? ≠ v[i]? := by
        apply Classical.byContradiction
        intro hn
        apply hne
        apply List.ext_getElem?
        intro i
        by_cases hi : i < n + 1
        · exact Classical.byContradiction fun h => hn ⟨i, hi, h⟩
        · rw [List.getElem?_eq_none (by omega), List.getElem?_eq_none (by omega)]
      have hat : ∀ w : List Nat, w.length = n + 1 → (∀ c ∈ w, c = 97 ∨ c = 98) →
          (Least (PatLang parse0 [(farPattern n, f)]) 0 (w ++ List.replicate i 97) ↔ w[i]? = some 97) := by
        intro w hw hc
        rw [far_least, far_append, htail w hw, List.length_replicate, List.head?_drop,
          List.getElem?_append_left (by omega)]
        constructor
        · exact fun h => h.2.2.2
        · exact fun h => ⟨rfl, hc, fun c hc => .inl (List.eq_of_mem_replicate hc), h⟩
      refine ⟨List.replicate i 97, 0, fun e => ?_⟩
      rw [hat u u1 u2, hat v v1 v2] at e
      rw [List.getElem?_eq_getElem (by omega), List.getElem?_eq_getElem (by omega)] at e hd
      simp only [Option.some.injEq] at e
      rcases u2 u[i] (List.getElem_mem _) with h | h
      · exact hd (by rw [h, e.1 h])
      · rcases v2 v[i] (List.getElem_mem _) with h' | h'
        · exact hd (by rw [h', e.2 h'])
        · exact hd (by rw [h, h'])

end far

/-! ## Examples -/

/-- `[ab]*a[ab]{3}` has 10 letters and 16 states, `[ab]*a[ab]` has four. -/
example : (tok0 seeds0 [farPattern 1]).map (fun r => r.1.dfa.rows.length) = some 4 := by decide +kernel
example : Hir.nodesAll [farPattern 3] + 1 = 11 := by decide

/-- The hypotheses of `c66_blowup` can be met for every `n`. -/
example (n : Nat) (f : List Nat → List Nat → Nat) : ∃ t ws, BuildsTo seeds0 parse0 [(farPattern n, f)] (.ok (t, ws)) ∧
    t.dfa.rows.length = 2 ^ (n + 1) := by
  obtain ⟨t, ws, h⟩ := (c03_build_errors parse0_ok seeds0_fair [(farPattern n, f)]).2.2.1.2 (by
    intro p hp
    simp only [List.mem_singleton] at hp
    subst hp
    refine ⟨_, far_ok, ?_⟩
    intro e he
    unfold farPattern at he
    cases he with
    | concat _ h hm hh =>
      simp only [List.mem_cons, List.not_mem_nil, or_false] at hm
      rcases hm with rfl | rfl | rfl
      · cases hh with | rep _ _ hh => cases hh
      · cases hh
      · cases hh with | rep _ _ hh => cases hh)
  exact ⟨t, ws, h, c66_blowup seeds0_fair h⟩

/-- `a|b` and `[ab]` match the same texts. -/
example : (tok0 seeds0 [.alt [ra, rb]]).map (fun r => r.1.dfa.rows.length) = (tok0 seeds0 [rab]).map fun r => r.1.dfa.rows.length := by
  decide

end Verif.Tok
