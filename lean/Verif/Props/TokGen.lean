import Verif.Tok.GenProof
import Verif.Props.TokIter

/-!
# Properties C18, C19, C39: the macro `tokenizer!`, the whole token stream, hash seeds
-/

namespace Verif.Tok

variable {π ρ α E : Type} {parse : π → Except ρ Hir} {s s' : Seeds} {ps : List (π × (List Nat → List α → E))}
  {t t' : Tokenizer α E} {ws ws' : List (Nat × Nat)} {ord : List (Nat × Nat) → List (Nat × Nat)}

/-! ## C39 -/

/-- C39: two builds of the same patterns under different hash seeds give tokenizers that behave alike in every call of
`next` in every state, and the same warnings up to order and repetition. -/
theorem c39_seeds_irrelevant (hparse : ParserOk parse) (hs : s.Fair) (hc : Calm s parse ps) (hb : BuildsTo s parse ps (.ok (t, ws)))
    (hs' : s'.Fair) (hc' : Calm s' parse ps) (hb' : BuildsTo s' parse ps (.ok (t', ws'))) (map : α → Nat) :
    (∀ it, t.next map it = t'.next map it) ∧ (∀ n it, t.calls map n it = t'.calls map n it) ∧
    (∀ w, t.accepts w = t'.accepts w) ∧ (∀ a b, (a, b) ∈ ws ↔ (a, b) ∈ ws') := by
  obtain ⟨hirs, h1, h2, h3, h4⟩ := builds_spec hparse hs.calm ((hc _).1 hb)
  obtain ⟨hirs', h1', h2', h3', h4'⟩ := builds_spec hparse hs'.calm ((hc' _).1 hb')
  rw [h1] at h1'
  cases h1'
  have ho := built_obs h4 h4' s.calm_noCollision s'.calm_noCollision
  have hn : ∀ it, t.next map it = t'.next map it := by
    apply next_congr
    · rw [h4.maker]; simpa [h3] using h4.wf
    · rw [h4'.maker]; simpa [h3] using h4'.wf
    · rw [h4.maker, h4'.maker]
    · exact ho
  exact ⟨hn, calls_congr hn, fun w => by unfold Tokenizer.accepts; rw [ho], fun a b => by rw [h4.warn, h4'.warn]⟩

/-- C39, warnings: the builds give the same warnings equally often, in some order, whatever the seeds and whether or not
hash collisions disturbed the minimiser. -/
theorem c39_warnings_perm (hs : s.Fair) (hb : BuildsTo s parse ps (.ok (t, ws))) (hs' : s'.Fair)
    (hb' : BuildsTo s' parse ps (.ok (t', ws'))) : ws.Perm ws' := by
  obtain ⟨f, h⟩ := hb
  obtain ⟨f', h'⟩ := hb'
  unfold builderBuild at h h'
  cases h1 : parseAll parse (ps.map Prod.fst) with
  | error e => rw [h1] at h; cases h
  | ok hirs =>
    rw [h1] at h h'
    simp only at h h'
    cases h2 : buildAll hirs with
    | error e => rw [h2] at h; cases h
    | ok tn =>
      rw [h2] at h h'
      simp only [buildTables, fromNfa] at h h'
      cases h3 : subLoop tn.node f { rows := [[]], sets := [closure tn.node tn.b], queue := [closure tn.node tn.b], processed := [] } with
      | none => rw [h3] at h; cases h
      | some r =>
        cases h4 : subLoop tn.node f' { rows := [[]], sets := [closure tn.node tn.b], queue := [closure tn.node tn.b], processed := [] } with
        | none => rw [h4] at h'; cases h'
        | some r' =>
          have e1 := subLoop_mono _ _ _ h3 f'
          have e2 := subLoop_mono _ _ _ h4 f
          rw [Nat.add_comm] at e2
          obtain rfl := Option.some.inj (e1.symm.trans e2)
          rw [h3] at h
          rw [h4] at h'
          simp only [Option.map_eq_some_iff, Option.map_map] at h h'
          obtain ⟨d, _, g⟩ := h
          obtain ⟨d', _, g'⟩ := h'
          simp only [Function.comp, Except.ok.injEq, Prod.mk.injEq] at g g'
          rw [← g.2, ← g'.2]
          exact ((hs.ord _).trans (hs'.ord _).symm).flatMap_right _

/-- Another seed: hash sets are visited backwards.  The tables differ, the tokens do not. -/
def seedsRev : Seeds :=
  { ord := List.reverse, min := { visit := fun _ _ l => l.reverse, order := fun _ _ l => l, collide := fun _ _ _ _ _ => false,
                                  pick := fun l => l.getLastD 0 } }

example : (tok0 seeds0 [.alt [.concat [ra, rb], rx]]).map (fun r => r.1.dfa) ≠
    (tok0 seedsRev [.alt [.concat [ra, rb], rx]]).map (fun r => r.1.dfa) := by decide

/-- `a|b` and `[ab]`: two states, `a` and `b` read, are ends of both patterns, so the warning comes twice. -/
example : (tok0 seeds0 [.alt [ra, rb], .classU [(97, 98)]]).map (fun r => r.2) = some [(1, 0), (1, 0)] ∧
    (tok0 seedsRev [.alt [ra, rb], .classU [(97, 98)]]).map (fun r => r.2) = some [(1, 0), (1, 0)] := by decide

/-- `a` and `aa` against `a+`: the order of the warnings depends on the seed. -/
example : (tok0 seeds0 [ra, .concat [ra, ra], .rep .oneOrMore ra]).map (fun r => r.2) = some [(2, 0), (2, 1)] ∧
    (tok0 seedsRev [ra, .concat [ra, ra], .rep .oneOrMore ra]).map (fun r => r.2) = some [(2, 1), (2, 0)] := by decide

/-! ## C18 -/

/-- The builder run inside the macro, with the dummy callbacks. -/
theorem dummy_builds {fuel : Nat} (rules : List (π × (List Nat → List α → E))) :
    builderBuild fuel s parse (rules.map fun r => (r.1, (fun (_ : List Nat) (_ : List Nat) => ()))) =
      (builderBuild fuel s parse rules).map fun
        | .error e => .error e
        | .ok (t, ws) => .ok ({ dfa := t.dfa, maker := rules.map fun _ => fun _ _ => () }, ws) := by
  unfold builderBuild
  rw [List.map_map]
  have : (Prod.fst ∘ fun (r : π × (List Nat → List α → E)) => (r.1, (fun (_ : List Nat) (_ : List Nat) => ()))) = Prod.fst := rfl
  rw [this]
  cases parseAll parse (rules.map Prod.fst) with
  | error e => rfl
  | ok hs =>
    simp only
    cases buildAll hs with
    | error e => rfl
    | ok tn =>
      simp only [Option.map_map, List.map_map]
      rfl

/-- C18, same hash seeds: the macro compiles exactly if `build` succeeds, fails with the same error otherwise, and the
function it defines returns exactly the tokenizer `build` gives (tables and callbacks). -/
theorem c18_macro_tables (hparse : ParserOk parse) (hs : s.Fair) (hord : ∀ l, (ord l).Perm l) :
    (∀ e, MacroBuildsTo s ord parse ps (.error e) ↔ BuildsTo s parse ps (.error e)) ∧
    (∀ t, MacroBuildsTo s ord parse ps (.ok t) ↔ ∃ ws, BuildsTo s parse ps (.ok (t, ws))) := by
  constructor
  · intro e
    unfold MacroBuildsTo BuildsTo macroExpand
    constructor
    · rintro ⟨fuel, p, h1, h2⟩
      rw [dummy_builds] at h1
      refine ⟨fuel, ?_⟩
      cases hb : builderBuild fuel s parse ps with
      | none => rw [hb] at h1; cases h1
      | some r =>
        rw [hb] at h1
        cases r with
        | error e' => cases h1; cases h2; rfl
        | ok r => cases h1; cases h2
    · rintro ⟨fuel, h⟩
      refine ⟨fuel, .error e, ?_, rfl⟩
      rw [dummy_builds, h]
      rfl
  · intro t
    unfold MacroBuildsTo macroExpand
    constructor
    · rintro ⟨fuel, p, h1, h2⟩
      rw [dummy_builds] at h1
      cases hb : builderBuild fuel s parse ps with
      | none => rw [hb] at h1; cases h1
      | some r =>
        rw [hb] at h1
        cases r with
        | error e' => cases h1; cases h2
        | ok r =>
          obtain ⟨t', ws⟩ := r
          obtain ⟨hirs, g1, g2, g3, g4⟩ := builds_spec hparse hs ⟨fuel, hb⟩
          cases h1
          simp only [Except.map, Except.ok.injEq] at h2
          rw [run_emit hord g4.wf, ← g4.maker] at h2
          rw [h2]
          exact ⟨ws, fuel, hb⟩
    · rintro ⟨ws, fuel, hb⟩
      obtain ⟨hirs, g1, g2, g3, g4⟩ := builds_spec hparse hs ⟨fuel, hb⟩
      refine ⟨fuel, .ok (emit ord t.dfa (ps.map Prod.snd)), ?_, ?_⟩
      · rw [dummy_builds, hb]
        rfl
      · simp only [Except.map]
        rw [run_emit hord g4.wf, ← g4.maker]

/-- C18, different hash seeds at compile time and at run time: still the same tokens in every state. -/
theorem c18_macro_equals_builder (hparse : ParserOk parse) (hs : s.Fair) (hord : ∀ l, (ord l).Perm l) (hc : Calm s parse ps)
    (hm : MacroBuildsTo s ord parse ps (.ok t)) (hs' : s'.Fair) (hc' : Calm s' parse ps)
    (hb : BuildsTo s' parse ps (.ok (t', ws'))) (map : α → Nat) :
    (∀ it, t.next map it = t'.next map it) ∧ (∀ n it, t.calls map n it = t'.calls map n it) := by
  obtain ⟨ws, h⟩ := ((c18_macro_tables hparse hs hord).2 t).1 hm
  obtain ⟨h1, h2, _⟩ := c39_seeds_irrelevant hparse hs hc h hs' hc' hb map
  exact ⟨h1, h2⟩

example : (macroExpand 50 seeds0 List.reverse parse0 (tagged [ra, .rep .oneOrMore rb])).map (fun r => r.toOption.map fun p =>
      (p.ends.length, (p.run.calls id 2 (It.start [98, 98, 97])).1)) =
    some (some (2, [.token (1, [98, 98]), .token (0, [97])])) := by decide

/-! ## C19 -/

/-- Specification of one token: the longest prefix (of length `n`) that matches some pattern, and the first such pattern
`k`; `M i w` says that pattern `i` matches `w`. -/
def NextToken (M : Nat → List Nat → Prop) (map : α → Nat) (l : List α) (n k : Nat) : Prop :=
  n ≤ l.length ∧ M k ((l.take n).map map) ∧ (∀ j < k, ¬ M j ((l.take n).map map)) ∧
    ∀ m, n < m → m ≤ l.length → ∀ j, ¬ M j ((l.take m).map map)

/-- Specification of the token stream: `Tokens l es rest`: the tokens `es` are taken from `l` one after the other and
leave `rest`. -/
inductive Tokens (M : Nat → List Nat → Prop) (ps : List (π × (List Nat → List α → E))) (map : α → Nat) : List α → List E → List α → Prop
  | nil (l) : Tokens M ps map l [] l
  | cons (l n k p es rest) : NextToken M map l n k → ps[k]? = some p → Tokens M ps map (l.drop n) es rest →
      Tokens M ps map l (p.2 ((l.take n).map map) (l.take n) :: es) rest

/-- No token can be taken. -/
def NoToken (M : Nat → List Nat → Prop) (map : α → Nat) (l : List α) : Prop :=
  ∀ n j, ¬ M j ((l.take n).map map)

theorem next_lang (hparse : ParserOk parse) (hs : s.Fair) (hc : Calm s parse ps) {M : Nat → List Nat → Prop}
    (hM : ∀ hirs tn, parseAll parse (ps.map Prod.fst) = .ok hirs → buildAll hirs = .ok tn → (∀ h ∈ hirs, h.ok = true) →
      ∀ i w, OwnAt hirs i w ↔ M i w)
    (hb : BuildsTo s parse ps (.ok (t, ws))) (map : α → Nat) (it : It α) :
    ((t.next map it).1 = .none ∧ NoToken M map it.rest) ∨
    ∃ (n k : Nat) (p : π × (List Nat → List α → E)), NextToken M map it.rest n k ∧ ps[k]? = some p ∧
      (t.next map it).1 = .token (p.2 ((it.rest.take n).map map) (it.rest.take n)) ∧ (t.next map it).2.rest = it.rest.drop n := by
  obtain ⟨hirs, h1, h2, h3, h4⟩ := builds_spec hparse hs.calm ((hc _).1 hb)
  obtain ⟨tn, d, h5, _⟩ := h4.dfa
  have key : ∀ w i, OwnAt hirs i w ↔ M i w := fun w i => hM hirs tn h1 h5 h2 i w
  obtain ⟨r, _, _, _, _, ⟨a1, _, a3⟩ | ⟨n, k, p, b0, _, b2, b3, b4, b5, b6⟩⟩ := next_built map hparse hs hb it
  · left
    refine ⟨a1, ?_⟩
    intro n j
    rw [List.map_take, ← key]
    exact (accepts_none_iff h4 s.calm_noCollision _).1 (a3 n) j
  · right
    have hk := (accepts_iff h4 s.calm_noCollision _ _).1 b3
    refine ⟨n, k, p, ⟨b0, ?_, ?_, ?_⟩, b2, by rw [List.map_take]; exact b5, b6⟩
    · rw [List.map_take, ← key]; exact hk.1
    · intro j hj; rw [List.map_take, ← key]; exact hk.2 j hj
    · intro m hm hm' j
      rw [List.map_take, ← key]
      exact (accepts_none_iff h4 s.calm_noCollision _).1 (b4 m hm hm') j

theorem NextToken.unique {M : Nat → List Nat → Prop} {map : α → Nat} {l : List α} {n k n' k' : Nat} (h : NextToken M map l n k) (h' : NextToken M map l n' k') :
    n = n' ∧ k = k' := by
  obtain ⟨a1, a2, a3, a4⟩ := h
  obtain ⟨b1, b2, b3, b4⟩ := h'
  have hn : n = n' := by
    rcases Nat.lt_trichotomy n n' with h | h | h
    · exact absurd b2 (a4 n' h b1 k')
    · exact h
    · exact absurd a2 (b4 n h a1 k)
  subst hn
  refine ⟨rfl, ?_⟩
  rcases Nat.lt_trichotomy k k' with h | h | h
  · exact absurd a2 (b3 k h)
  · exact h
  · exact absurd b2 (a3 k' h)

theorem stream_spec {M : Nat → List Nat → Prop} {map : α → Nat} (hstep : ∀ it,
      ((t.next map it).1 = .none ∧ NoToken M map it.rest) ∨
      ∃ (n k : Nat) (p : π × (List Nat → List α → E)), NextToken M map it.rest n k ∧ ps[k]? = some p ∧
        (t.next map it).1 = .token (p.2 ((it.rest.take n).map map) (it.rest.take n)) ∧ (t.next map it).2.rest = it.rest.drop n)
    (input : List α) (es : List E) :
    (∀ rest, (∃ it, t.calls map es.length (It.start input) = (es.map .token, it) ∧ it.rest = rest) ↔ Tokens M ps map input es rest) ∧
    ((∃ fuel it, t.collect map fuel (It.start input) = some (es, it)) ↔
      ∃ rest, Tokens M ps map input es rest ∧ NoToken M map rest) := by
  have hpanic : ∀ it, (t.next map it).1 ≠ .panic := by
    intro it h
    rcases hstep it with h' | ⟨_, _, _, _, _, h', _⟩
    · rw [h'.1] at h; cases h
    · rw [h'] at h; cases h
  have key1 : ∀ (es : List E) (it : It α) (rest : List α),
      (∃ it', t.calls map es.length it = (es.map .token, it') ∧ it'.rest = rest) ↔ Tokens M ps map it.rest es rest := by
    intro es
    induction es with
    | nil =>
      intro it rest
      constructor
      · rintro ⟨it', h1, rfl⟩
        cases h1
        exact .nil _
      · intro h
        cases h
        exact ⟨it, rfl, rfl⟩
    | cons e es ih =>
      intro it rest
      have hcalls : t.calls map (e :: es).length it =
          ((t.next map it).1 :: (t.calls map es.length (t.next map it).2).1, (t.calls map es.length (t.next map it).2).2) := rfl
      rw [hcalls]
      rcases hstep it with ⟨h1, h2⟩ | ⟨n, k, p, h1, h2, h3, h4⟩
      · constructor
        · rintro ⟨it', h3, _⟩
          rw [h1] at h3
          simp at h3
        · intro h
          cases h with
          | cons _ n k p _ _ a1 a2 a3 => exact absurd a1.2.1 (h2 n k)
      · constructor
        · rintro ⟨it', h5, h6⟩
          rw [h3] at h5
          simp only [List.map_cons, Prod.mk.injEq, List.cons.injEq, Out.token.injEq] at h5
          obtain ⟨⟨h7, h8⟩, h9⟩ := h5
          rw [← h7]
          refine .cons _ n k p _ _ h1 h2 ?_
          rw [← h4]
          exact (ih _ _).1 ⟨it', Prod.ext h8 h9, h6⟩
        · intro h
          cases h with
          | cons _ n' k' p' _ _ a1 a2 a3 =>
            obtain ⟨rfl, rfl⟩ := a1.unique h1
            rw [a2] at h2
            cases h2
            rw [← h4] at a3
            obtain ⟨it', b1, b2⟩ := (ih _ _).2 a3
            refine ⟨it', ?_, b2⟩
            rw [b1, h3]
            rfl
  have key2 : ∀ (es : List E) (it : It α), (∃ fuel it', t.collect map fuel it = some (es, it')) ↔
      ∃ rest, Tokens M ps map it.rest es rest ∧ NoToken M map rest := by
    intro es
    induction es with
    | nil =>
      intro it
      constructor
      · rintro ⟨fuel, it', h⟩
        refine ⟨_, .nil _, ?_⟩
        cases fuel with
        | zero => cases h
        | succ fuel =>
          rcases hstep it with h1 | ⟨n, k, p, h1, h2, h3, h4⟩
          · exact h1.2
          · rw [Tokenizer.collect] at h
            split at h
            · rename_i e it'' heq
              cases hc : t.collect map fuel it'' with
              | none => rw [hc] at h; cases h
              | some x => rw [hc] at h; cases h
            · rename_i o it'' hne heq
              rw [heq] at h3
              exact absurd h3 (hne _)
      · rintro ⟨rest, h1, h2⟩
        cases h1
        rcases hstep it with h1 | ⟨n, k, p, h1, h3, h4, h5⟩
        · refine ⟨1, (t.next map it).2, ?_⟩
          cases hh : t.next map it with
          | mk o it' =>
            rw [hh] at h1
            simp only at h1
            rw [Tokenizer.collect, hh, h1.1]
        · exact absurd h1.2.1 (h2 n k)
    | cons e es ih =>
      intro it
      constructor
      · rintro ⟨fuel, it', h⟩
        cases fuel with
        | zero => cases h
        | succ fuel =>
          rcases hstep it with h1 | ⟨n, k, p, h1, h2, h3, h4⟩
          · rw [Tokenizer.collect] at h
            split at h
            · rename_i e' it'' heq
              rw [heq] at h1
              cases h1.1
            · cases h
          · rw [Tokenizer.collect] at h
            split at h
            · rename_i e' it'' heq
              rw [heq] at h3 h4
              cases hc : t.collect map fuel it'' with
              | none => rw [hc] at h; cases h
              | some x =>
                rw [hc] at h
                simp only [Option.map_some, Option.some.injEq, Prod.mk.injEq, List.cons.injEq] at h
                obtain ⟨⟨rfl, rfl⟩, rfl⟩ := h
                obtain ⟨rest, b1, b2⟩ := (ih it'').1 ⟨fuel, x.2, hc⟩
                simp only at h3 h4
                cases h3
                rw [h4] at b1
                exact ⟨rest, .cons _ n k p _ _ h1 h2 b1, b2⟩
            · cases h
      · rintro ⟨rest, h1, h2⟩
        cases h1 with
        | cons _ n k p _ _ a1 a2 a3 =>
          rcases hstep it with h1 | ⟨n', k', p', h1, h3, h4, h5⟩
          · exact absurd a1.2.1 (h1.2 n k)
          · obtain ⟨rfl, rfl⟩ := a1.unique h1
            rw [a2] at h3
            cases h3
            rw [← h5] at a3
            obtain ⟨fuel, it', hc⟩ := (ih _).2 ⟨rest, a3, h2⟩
            refine ⟨fuel + 1, it', ?_⟩
            cases hh : t.next map it with
            | mk o it'' =>
              rw [hh] at h4 hc
              simp only at h4 hc
              rw [Tokenizer.collect, hh, h4]
              simp only [hc, Option.map_some]
  refine ⟨fun rest => ?_, ?_⟩
  · simpa [It.rest, It.start] using key1 es (It.start input) rest
  · simpa [It.rest, It.start] using key2 es (It.start input)

/-- C19: for patterns that are translated exactly, (1) the first calls of `next` return the tokens `es` and leave `rest`
exactly if the specification takes these tokens; (2) collecting all tokens ends with `es` exactly if the specification
takes `es` and then no further token can be taken. -/
theorem c19_regex_spec (hparse : ParserOk parse) (hs : s.Fair) (hc : Calm s parse ps) (hf : ∀ i, PatFaithful parse ps i)
    (hb : BuildsTo s parse ps (.ok (t, ws))) (map : α → Nat) (input : List α) (es : List E) :
    (∀ rest, (∃ it, t.calls map es.length (It.start input) = (es.map .token, it) ∧ it.rest = rest) ↔
      Tokens (PatLang parse ps) ps map input es rest) ∧
    ((∃ fuel it, t.collect map fuel (It.start input) = some (es, it)) ↔
      ∃ rest, Tokens (PatLang parse ps) ps map input es rest ∧ NoToken (PatLang parse ps) map rest) :=
  stream_spec (next_lang hparse hs hc
    (fun _ _ h1 h5 h2 i _ => ⟨own_patLang h1 h2 (hf i), patLang_own h1 h5 h2⟩) hb map) input es

/-- `a`, `[ab]+` on `aabc`: one token `aab`, then `None`. -/
example : (tok0 seeds0 [ra, .rep .oneOrMore (.classU [(97, 98)])]).map (fun r => r.1.collect id 3 (It.start [97, 97, 98, 99])) =
    some (some ([(1, [97, 97, 98])], ⟨[], []⟩)) ∧
    Hir.faithful (.rep .oneOrMore (.classU [(97, 98)])) = true := by decide

end Verif.Tok
