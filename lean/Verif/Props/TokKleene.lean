import Verif.Tok.Kleene
import Verif.Props.TokPump
import Verif.Props.TokRewrite
import Verif.Props.ParAutomata

/-!
# Property C104: patterns can say what automata can
-/

namespace Verif.Tok

open Verif.Machine (Machine)

/-- The regexes of the patterns are the given ones. -/
def Written {π ρ β : Type} (parse : π → Except ρ Hir) (ps : List (π × β)) (hs : List Hir) : Prop :=
  (ps.map fun p => parse p.1) = hs.map Except.ok

/-- A regex that the parser of regexes can give, that contains nothing unsupported, and whose language is exactly what is matched. -/
def Hir.Sound (h : Hir) : Prop := h.ok = true ∧ (∀ e, ¬ Has e h) ∧ h.faithful = true

section
variable {π ρ α E : Type} {parse : π → Except ρ Hir} {s : Seeds} {ps : List (π × (List Nat → List α → E))}
  {t : Tokenizer α E} {ws : List (Nat × Nat)} {hs : List Hir}

theorem Written.get (hw : Written parse ps hs) {i : Nat} {p : π × (List Nat → List α → E)} (hp : ps[i]? = some p) :
    ∃ h, hs[i]? = some h ∧ parse p.1 = .ok h := by
  have := congrArg (·[i]?) hw
  simp only [List.getElem?_map, hp, Option.map_some] at this
  cases hh : hs[i]? with
  | none => rw [hh] at this; cases this
  | some h => rw [hh] at this; simp at this; exact ⟨h, rfl, this⟩

theorem Written.lang (hw : Written parse ps hs) (i : Nat) (w : List Nat) : PatLang parse ps i w ↔ ∃ h, hs[i]? = some h ∧ Lang h w := by
  constructor
  · rintro ⟨p, h, h1, h2, h3⟩
    obtain ⟨h', h4, h5⟩ := hw.get h1
    rw [h2] at h5
    cases h5
    exact ⟨h, h4, h3⟩
  · rintro ⟨h, h1, h2⟩
    have := congrArg (·[i]?) hw
    simp only [List.getElem?_map, h1, Option.map_some] at this
    cases hp : ps[i]? with
    | none => rw [hp] at this; cases this
    | some p => rw [hp] at this; simp at this; exact ⟨p, h, hp, this, h2⟩

theorem Written.builds (hw : Written parse ps hs) (hg : ∀ h ∈ hs, h.Sound) (hparse : ParserOk parse) (hsf : s.Fair) :
    ∃ t ws, BuildsTo s parse ps (.ok (t, ws)) := by
  refine (c03_build_errors hparse hsf ps).2.2.1.2 fun p hp => ?_
  obtain ⟨i, hi⟩ := List.getElem?_of_mem hp
  obtain ⟨h, h1, h2⟩ := hw.get hi
  exact ⟨h, h2, (hg h (List.mem_of_getElem? h1)).2.1⟩

theorem Written.code (hw : Written parse ps hs) (hg : ∀ h ∈ hs, h.Sound) (hparse : ParserOk parse) (hsf : s.Fair)
    (hb : BuildsTo s parse ps (.ok (t, ws))) (i : Nat) (w : List Nat) : PatCode parse ps i w ↔ ∃ h, hs[i]? = some h ∧ Lang h w := by
  rw [← hw.lang]
  obtain ⟨h1, h2⟩ := c41_contains_language hparse hsf hb i w
  refine ⟨h2 fun p h hp hh => ?_, h1⟩
  obtain ⟨h', h3, h4⟩ := hw.get hp
  rw [hh] at h4
  cases h4
  exact (hg h (List.mem_of_getElem? h3)).2.2

end

/-- C104: for every finite automaton that reads something there is a regex that is supported, that is matched exactly, and whose language
is what the automaton reads. -/
theorem c104_regex (M : Machine) (hr : ∃ w, M.Reads w) : ∃ h : Hir, h.Sound ∧ ∀ w, Lang h w ↔ M.Reads w := by
  cases hx : M.regex with
  | none =>
    obtain ⟨w, hw⟩ := hr
    rw [← M.regex_lang, hx] at hw
    exact hw.elim
  | some h =>
    obtain ⟨h1, h2⟩ := M.regex_good h hx
    refine ⟨h.safe, ⟨safe_ok h h1, fun e he => h2 e ((safe_has h).1 he), safe_faithful h⟩, fun w => ?_⟩
    rw [safe_lang, ← M.regex_lang, hx]
    rfl

theorem regexes {β : Type} {P : β → Hir → Prop} (xs : List β) (h : ∀ x ∈ xs, ∃ h, P x h) :
    ∃ hs : List Hir, hs.length = xs.length ∧ ∀ (i : Nat) x h, xs[i]? = some x → hs[i]? = some h → P x h := by
  induction xs with
  | nil => exact ⟨[], rfl, fun i x h hx => by simp at hx⟩
  | cons x xs ih =>
    obtain ⟨hs, h1, h2⟩ := ih fun y hy => h y (by simp [hy])
    obtain ⟨g, hg⟩ := h x (by simp)
    refine ⟨g :: hs, by simp [h1], fun i y g' hy hg' => ?_⟩
    cases i with
    | zero => simp at hy hg'; rw [← hy, ← hg']; exact hg
    | succ i => exact h2 i y g' (by simpa using hy) (by simpa using hg')

/-- C104: for every list of finite automata, each of which reads something, there are patterns such that the tokenizer can be built and
for every text the pattern of the first automaton that reads it wins. -/
theorem c104_tokenizer (Ms : List Machine) (hr : ∀ M ∈ Ms, ∃ w, M.Reads w) :
    ∃ hs : List Hir, hs.length = Ms.length ∧ (∀ h ∈ hs, h.Sound) ∧
      ∀ {π ρ α E : Type} {parse : π → Except ρ Hir} {s : Seeds} {ps : List (π × (List Nat → List α → E))},
        ParserOk parse → s.Fair → Written parse ps hs →
        (∃ t ws, BuildsTo s parse ps (.ok (t, ws))) ∧
        ∀ t ws, Calm s parse ps → BuildsTo s parse ps (.ok (t, ws)) → ∀ w k,
          t.accepts w = some k ↔ (∃ M, Ms[k]? = some M ∧ M.Reads w) ∧ ∀ j < k, ∀ M, Ms[j]? = some M → ¬ M.Reads w := by
  obtain ⟨hs, h1, h2⟩ := regexes (P := fun M h => h.Sound ∧ ∀ w, Lang h w ↔ M.Reads w) Ms fun M hM => c104_regex M (hr M hM)
  have hg : ∀ h ∈ hs, h.Sound := by
    intro h hh
    obtain ⟨i, hi⟩ := List.getElem?_of_mem hh
    have := (List.getElem?_eq_some_iff.1 hi).1
    exact (h2 i _ h (List.getElem?_eq_getElem (by omega)) hi).1
  have hl : ∀ (i : Nat) (w : List Nat), (∃ h, hs[i]? = some h ∧ Lang h w) ↔ ∃ M, Ms[i]? = some M ∧ M.Reads w := by
    intro i w
    constructor
    · rintro ⟨h, a1, a2⟩
      have := (List.getElem?_eq_some_iff.1 a1).1
      have a3 : Ms[i]? = some Ms[i] := List.getElem?_eq_getElem (by omega)
      exact ⟨_, a3, ((h2 i _ h a3 a1).2 w).1 a2⟩
    · rintro ⟨M, a1, a2⟩
      have := (List.getElem?_eq_some_iff.1 a1).1
      have a3 : hs[i]? = some hs[i] := List.getElem?_eq_getElem (by omega)
      exact ⟨_, a3, ((h2 i M _ a1 a3).2 w).2 a2⟩
  refine ⟨hs, h1, hg, ?_⟩
  intro π ρ α E parse s ps hparse hsf hw
  refine ⟨hw.builds hg hparse hsf, fun t ws hc hb w k => ?_⟩
  rw [accepts_least hparse hsf hc hb]
  unfold Least
  simp only [hw.code hg hparse hsf hb, hl]
  constructor
  · rintro ⟨a, b⟩
    exact ⟨a, fun j hj M hM hr => b j hj ⟨M, hM, hr⟩⟩
  · rintro ⟨a, b⟩
    exact ⟨a, fun j hj ⟨M, hM, hr⟩ => b j hj M hM hr⟩

section
variable {π ρ α E : Type} {parse : π → Except ρ Hir} {s : Seeds} {ps : List (π × (List Nat → List α → E))}
  {t : Tokenizer α E} {ws : List (Nat × Nat)}

theorem winner_get (hparse : ParserOk parse) (hs : s.Fair) (hb : BuildsTo s parse ps (.ok (t, ws))) {w : List Nat} {k : Nat}
    (h : t.accepts w = some k) : ∃ p, ps[k]? = some p := by
  obtain ⟨_, _, _, h3, h4⟩ := builds_spec hparse hs hb
  obtain ⟨q, _, hq⟩ := accepts_some h
  have hm : some k ∈ t.dfa.ends := by
    unfold DFA.accept at hq
    cases he : t.dfa.ends[q]? with
    | none => rw [he] at hq; cases hq
    | some x =>
      rw [he] at hq
      exact List.mem_of_getElem? (he.trans (congrArg some hq))
  have := h4.wf.ends k hm
  exact ⟨_, List.getElem?_eq_getElem (h3 ▸ this)⟩

/-- C104: whatever the patterns, and also if hash collisions have done harm: there are patterns no two of which match a common text, one
for each pattern that ever wins, that make the same tokens.  With them there are no warnings, and their order does not matter. -/
theorem c104_disjoint (hparse : ParserOk parse) (hs : s.Fair) (hb : BuildsTo s parse ps (.ok (t, ws))) :
    ∃ (ks : List Nat) (hs' : List Hir), ks.Nodup ∧ (∀ k, k ∈ ks ↔ ∃ w, t.accepts w = some k) ∧ hs'.length = ks.length ∧
      (∀ h ∈ hs', h.Sound) ∧ (∀ (i : Nat) k h, ks[i]? = some k → hs'[i]? = some h → ∀ w, Lang h w ↔ t.accepts w = some k) ∧
      ∀ {π' ρ' : Type} {parse' : π' → Except ρ' Hir} {s' : Seeds} {qs : List (π' × (List Nat → List α → E))},
        ParserOk parse' → s'.Fair → Written parse' qs hs' →
        (∀ (i : Nat) q k p, qs[i]? = some q → ks[i]? = some k → ps[k]? = some p → q.2 = p.2) →
        (∃ t' ws', BuildsTo s' parse' qs (.ok (t', ws'))) ∧
        ∀ t' ws', BuildsTo s' parse' qs (.ok (t', ws')) → ws' = [] ∧
          (Calm s' parse' qs → (∀ w, t.accepts w = (t'.accepts w).bind (ks[·]?)) ∧
            ∀ map (it it' : It α), it.rest = it'.rest → (t.next map it).1 = (t'.next map it').1 ∧
              ((t.next map it).1 ≠ .none → (t.next map it).2.rest = (t'.next map it').2.rest)) := by
  classical
  let ks := (List.range ps.length).filter fun k => decide (∃ w, t.accepts w = some k)
  have hks : ∀ k, k ∈ ks ↔ ∃ w, t.accepts w = some k := by
    intro k
    simp only [ks, List.mem_filter, List.mem_range, decide_eq_true_eq]
    refine ⟨fun h => h.2, fun h => ⟨?_, h⟩⟩
    obtain ⟨w, hw⟩ := h
    obtain ⟨p, hp⟩ := winner_get hparse hs hb hw
    exact (List.getElem?_eq_some_iff.1 hp).1
  have hnd : ks.Nodup := List.nodup_range.filter _
  obtain ⟨hs', h1, h2⟩ := regexes (P := fun k h => h.Sound ∧ ∀ w, Lang h w ↔ t.accepts w = some k) ks fun k hk => by
    obtain ⟨M, _, _, _, hM⟩ := Machine.Machine.c99_tokenizer t k ((hks k).1 hk)
    obtain ⟨w, hw⟩ := (hks k).1 hk
    obtain ⟨h, g1, g2⟩ := c104_regex M ⟨w, (hM w).2 hw⟩
    exact ⟨h, g1, fun w => (g2 w).trans (hM w)⟩
  have hg : ∀ h ∈ hs', h.Sound := by
    intro h hh
    obtain ⟨i, hi⟩ := List.getElem?_of_mem hh
    have := (List.getElem?_eq_some_iff.1 hi).1
    exact (h2 i _ h (List.getElem?_eq_getElem (by omega)) hi).1
  have hl : ∀ (i : Nat) (w : List Nat), (∃ h, hs'[i]? = some h ∧ Lang h w) ↔ ∃ k, ks[i]? = some k ∧ t.accepts w = some k := by
    intro i w
    constructor
    · rintro ⟨h, a1, a2⟩
      have := (List.getElem?_eq_some_iff.1 a1).1
      have a3 : ks[i]? = some ks[i] := List.getElem?_eq_getElem (by omega)
      exact ⟨_, a3, ((h2 i _ h a3 a1).2 w).1 a2⟩
    · rintro ⟨k, a1, a2⟩
      have := (List.getElem?_eq_some_iff.1 a1).1
      have a3 : hs'[i]? = some hs'[i] := List.getElem?_eq_getElem (by omega)
      exact ⟨_, a3, ((h2 i k _ a1 a3).2 w).2 a2⟩
  have hone : ∀ {i j k : Nat}, ks[i]? = some k → ks[j]? = some k → i = j := by
    intro i j k hi hj
    obtain ⟨a1, a2⟩ := List.getElem?_eq_some_iff.1 hi
    obtain ⟨b1, b2⟩ := List.getElem?_eq_some_iff.1 hj
    have hp := List.pairwise_iff_getElem.1 hnd
    rcases Nat.lt_trichotomy i j with h | h | h
    · exact absurd (a2.trans b2.symm) (hp i j a1 b1 h)
    · exact h
    · exact absurd (b2.trans a2.symm) (hp j i b1 a1 h)
  refine ⟨ks, hs', hnd, hks, h1, hg, fun i k h a b => (h2 i k h a b).2, ?_⟩
  intro π' ρ' parse' s' qs hparse' hsf hw hcb
  refine ⟨hw.builds hg hparse' hsf, fun t' ws' hb' => ⟨?_, fun hc => ?_⟩⟩
  · apply Classical.byContradiction
    intro hne
    obtain ⟨w, a, b, hab, ha, hb1⟩ := (c41_warnings hparse' hsf hb').some_iff.1 hne
    rw [hw.code hg hparse' hsf hb', hl] at ha hb1
    obtain ⟨k, e1, e2⟩ := ha
    obtain ⟨k', e3, e4⟩ := hb1
    rw [e2] at e4
    cases e4
    exact hab (hone e1 e3)
  · have hacc : ∀ w i, t'.accepts w = some i ↔ ∃ k, ks[i]? = some k ∧ t.accepts w = some k := by
      intro w i
      rw [accepts_least hparse' hsf hc hb']
      unfold Least
      simp only [hw.code hg hparse' hsf hb', hl]
      refine ⟨fun h => h.1, fun h => ⟨h, fun j hj h' => ?_⟩⟩
      obtain ⟨k, e1, e2⟩ := h
      obtain ⟨k', e3, e4⟩ := h'
      rw [e2] at e4
      cases e4
      have := hone e1 e3
      omega
    have hsame : ∀ w, t.accepts w = (t'.accepts w).bind (ks[·]?) := by
      intro w
      cases hx : t'.accepts w with
      | some i =>
        obtain ⟨k, e1, e2⟩ := (hacc w i).1 hx
        rw [e2]
        exact e1.symm
      | none =>
        cases hy : t.accepts w with
        | none => rfl
        | some k =>
          obtain ⟨i, hi⟩ := List.getElem?_of_mem ((hks k).2 ⟨w, hy⟩)
          rw [(hacc w i).2 ⟨k, hi, hy⟩] at hx
          cases hx
    have hnone : ∀ w, t.accepts w = none ↔ t'.accepts w = none := by
      intro w
      constructor
      · intro h
        cases hx : t'.accepts w with
        | none => rfl
        | some i =>
          obtain ⟨k, _, e2⟩ := (hacc w i).1 hx
          rw [h] at e2
          cases e2
      · intro h
        rw [hsame, h]
        rfl
    refine ⟨hsame, fun map it it' hr => ?_⟩
    obtain ⟨r, a1, a2, a3, a4, a5⟩ := next_built map hparse hs hb it
    obtain ⟨r', b1, b2, b3, b4, b5⟩ := next_built map hparse' hsf hb' it'
    rw [← hr] at b1 b2 b3 b5
    rcases a5 with ⟨c1, c2, c3⟩ | ⟨n, k, p, c0, c0', c1, c2, c3, c4, c5⟩
    · rcases b5 with ⟨d1, d2, d3⟩ | ⟨n', k', p', d0, d0', d1, d2, d3, d4, d5⟩
      · exact ⟨by rw [c1, d1], fun h => absurd c1 h⟩
      · rw [(hnone _).1 (c3 n')] at d2; cases d2
    · rcases b5 with ⟨d1, d2, d3⟩ | ⟨n', k', p', d0, d0', d1, d2, d3, d4, d5⟩
      · rw [(hnone _).2 (d3 n)] at c2; cases c2
      · have hn : n = n' := by
          rcases Nat.lt_trichotomy n n' with hlt | hlt | hlt
          · rw [(hnone _).1 (c3 n' hlt d0)] at d2; cases d2
          · exact hlt
          · rw [(hnone _).2 (d3 n hlt c0)] at c2; cases c2
        subst hn
        obtain ⟨k'', e1, e2⟩ := (hacc _ _).1 d2
        rw [c2] at e2
        cases e2
        refine ⟨by rw [c4, d4, hcb k' p' k p d1 e1 c1], fun _ => by rw [c5, d5]⟩

end

theorem written_tagged {hs : List Hir} (hg : ∀ h ∈ hs, h.Sound) : Written parse0 (tagged hs) hs := by
  unfold Written tagged
  rw [List.map_map]
  apply List.ext_getElem?
  intro i
  simp only [List.getElem?_map, List.getElem?_zipIdx]
  cases hi : hs[i]? with
  | none => rfl
  | some h => simp [parse0, (hg h (List.mem_of_getElem? hi)).1]

theorem sound_safe {h : Hir} (h1 : h.ok = true) (h2 : ∀ e, ¬ Has e h) : h.safe.Sound :=
  ⟨safe_ok h h1, fun e he => h2 e ((safe_has h).1 he), safe_faithful h⟩

/-- C104: one pattern without another one: if there is a text in the language of a regex that is not in that of a second one, then there is
a regex, supported and matched exactly, for these texts (identifiers without the reserved words, for example). -/
theorem c104_minus (h h' : Hir) (h1 : h.ok = true) (h2 : ∀ e, ¬ Has e h) (h1' : h'.ok = true) (h2' : ∀ e, ¬ Has e h')
    (hne : ∃ w, Lang h w ∧ ¬ Lang h' w) : ∃ g : Hir, g.Sound ∧ ∀ w, Lang g w ↔ Lang h w ∧ ¬ Lang h' w := by
  have hg : ∀ x ∈ [h'.safe, h.safe], x.Sound := by
    intro x hx
    simp only [List.mem_cons, List.not_mem_nil, or_false] at hx
    rcases hx with rfl | rfl
    · exact sound_safe h1' h2'
    · exact sound_safe h1 h2
  have hw := written_tagged hg
  obtain ⟨t, ws, hb⟩ := hw.builds hg parse0_ok seeds0_fair
  have ha : ∀ w, t.accepts w = some 1 ↔ Lang h w ∧ ¬ Lang h' w := by
    intro w
    rw [accepts_least parse0_ok seeds0_fair (calm_0 _) hb]
    unfold Least
    simp only [hw.code hg parse0_ok seeds0_fair hb]
    constructor
    · rintro ⟨⟨x, hx, hl⟩, hno⟩
      cases hx
      refine ⟨safe_lang h ▸ hl, fun hl' => hno 0 (by omega) ⟨_, rfl, ?_⟩⟩
      rw [safe_lang]; exact hl'
    · rintro ⟨a, b⟩
      refine ⟨⟨_, rfl, by rw [safe_lang]; exact a⟩, ?_⟩
      rintro j hj ⟨x, hx, hl⟩
      obtain rfl : j = 0 := by omega
      cases hx
      rw [safe_lang] at hl
      exact b hl
  obtain ⟨w, hw'⟩ := hne
  obtain ⟨M, _, _, _, hM⟩ := Machine.Machine.c99_tokenizer t 1 ⟨w, (ha w).2 hw'⟩
  obtain ⟨g, g1, g2⟩ := c104_regex M ⟨w, (hM w).2 ((ha w).2 hw')⟩
  exact ⟨g, g1, fun w => (g2 w).trans ((hM w).trans (ha w))⟩

/-- C104: what two patterns have in common can be written as a pattern, if there is anything. -/
theorem c104_both (h h' : Hir) (h1 : h.ok = true) (h2 : ∀ e, ¬ Has e h) (h1' : h'.ok = true) (h2' : ∀ e, ¬ Has e h')
    (hne : ∃ w, Lang h w ∧ Lang h' w) : ∃ g : Hir, g.Sound ∧ ∀ w, Lang g w ↔ Lang h w ∧ Lang h' w := by
  by_cases hd : ∃ w, Lang h w ∧ ¬ Lang h' w
  · obtain ⟨d, d1, d2⟩ := c104_minus h h' h1 h2 h1' h2' hd
    obtain ⟨w, hw⟩ := hne
    obtain ⟨g, g1, g2⟩ := c104_minus h d h1 h2 d1.1 d1.2.1 ⟨w, hw.1, fun hx => ((d2 w).1 hx).2 hw.2⟩
    refine ⟨g, g1, fun w => ?_⟩
    rw [g2, d2]
    constructor
    · rintro ⟨a, b⟩
      exact ⟨a, Classical.byContradiction fun c => b ⟨a, c⟩⟩
    · rintro ⟨a, b⟩
      exact ⟨a, fun c => c.2 b⟩
  · refine ⟨h.safe, sound_safe h1 h2, fun w => ?_⟩
    rw [safe_lang]
    exact ⟨fun a => ⟨a, Classical.byContradiction fun c => hd ⟨w, a, c⟩⟩, fun a => a.1⟩

/-! ## Examples -/

/-- `[ab]+` without `ab`. -/
example : ∃ g : Hir, g.Sound ∧ ∀ w, Lang g w ↔ Lang (.rep .oneOrMore (.classU [(97, 98)])) w ∧ ¬ Lang (.concat [ra, rb]) w := by
  have hx : ∀ e, ¬ Has e (.rep .oneOrMore (.classU [(97, 98)])) := by
    intro e he
    cases he with
    | rep _ _ he => cases he
  have hy : ∀ e, ¬ Has e (.concat [ra, rb]) := by
    intro e he
    cases he with
    | concat _ h hm he =>
      simp at hm
      rcases hm with rfl | rfl <;> cases he
  refine c104_minus _ _ (by decide) hx (by decide) hy ⟨[97], ⟨1, Nat.le_refl _, [97], [], rfl, ⟨97, rfl, (97, 98), by simp, by decide, by decide⟩, rfl⟩, ?_⟩
  rintro ⟨u, v, e, h1, u', v', rfl, h2, rfl⟩
  rw [show u = [97] from h1, show u' = [98] from h2] at e
  simp at e

/-- An automaton for an even number of `a`, and one for any number of `a` and `b`. -/
def evenA : Machine := ⟨0, [⟨0, 97, 1⟩, ⟨1, 97, 0⟩], [0]⟩
def allAB : Machine := ⟨0, [⟨0, 97, 0⟩, ⟨0, 98, 0⟩], [0]⟩

/-- The regex for an even number of `a`. -/
example : evenA.regex.isSome = true := by decide

/-- There are patterns for the two, and a tokenizer for which the first one wins for `aa` and the second one for `aaa`. -/
example : ∃ hs r, BuildsTo seeds0 parse0 (tagged hs) (.ok r) ∧ r.1.accepts [97, 97] = some 0 ∧ r.1.accepts [97, 97, 97] = some 1 := by
  obtain ⟨hs, _, h2, h3⟩ := c104_tokenizer [evenA, allAB] (by
    intro M hM
    simp only [List.mem_cons, List.not_mem_nil, or_false] at hM
    rcases hM with rfl | rfl
    · exact ⟨[], 0, .nil _, by decide⟩
    · exact ⟨[], 0, .nil _, by decide⟩)
  obtain ⟨⟨t, ws, hb⟩, h⟩ := h3 (parse := parse0) (s := seeds0) parse0_ok seeds0_fair (written_tagged h2)
  have ha := h t ws (calm_0 _) hb
  refine ⟨hs, (t, ws), hb, (ha _ _).2 ⟨⟨evenA, rfl, 0, ?_, by decide⟩, by omega⟩, (ha _ _).2 ⟨⟨allAB, rfl, 0, ?_, by decide⟩, ?_⟩⟩
  · exact .cons ⟨0, 97, 1⟩ _ _ (by decide) (.cons ⟨1, 97, 0⟩ _ _ (by decide) (.nil _))
  · exact .cons ⟨0, 97, 0⟩ _ _ (by decide) (.cons ⟨0, 97, 0⟩ _ _ (by decide) (.cons ⟨0, 97, 0⟩ _ _ (by decide) (.nil _)))
  · intro j hj M hM
    obtain rfl : j = 0 := by omega
    cases hM
    rintro ⟨q, hq, hf⟩
    have par : ∀ {i w j}, evenA.Runs i w j → j = 0 → i ≤ 1 → (w.length + i) % 2 = 0 := by
      intro i w j h
      induction h with
      | nil q => intro h _; subst h; rfl
      | cons e w q he _ ih =>
        intro h _
        simp only [evenA, List.mem_cons, List.not_mem_nil, or_false] at he
        rcases he with rfl | rfl
        · have := ih h (by decide); simp only [List.length_cons] at this ⊢; omega
        · have := ih h (by decide); simp only [List.length_cons] at this ⊢; omega
    have := par hq (by simpa [evenA] using hf) (by decide)
    simp [evenA] at this

/-- `ab` and `[ab]+` overlap; there are patterns that make the same tokens without a warning. -/
example : ∃ r qs r', BuildsTo seeds0 parse0 (tagged [.concat [ra, rb], .rep .oneOrMore (.classU [(97, 98)])]) (.ok r) ∧ r.2 = [(1, 0)] ∧
    BuildsTo seeds0 parse0 qs (.ok r') ∧ r'.2 = [] ∧ ∀ it : It Nat, (r.1.next id it).1 = (r'.1.next id it).1 := by
  obtain ⟨⟨t, ws⟩, hb, e⟩ := tok0_spec (s := seeds0) (hs := [.concat [ra, rb], .rep .oneOrMore (.classU [(97, 98)])])
    (g := fun r => r.2) (x := [(1, 0)]) (by decide +kernel)
  obtain ⟨ks, hs', _, _, h3, h4, _, h6⟩ := c104_disjoint parse0_ok seeds0_fair hb
  let f : Nat → List Nat → List Nat → Nat × List Nat := fun k =>
    match (tagged [.concat [ra, rb], .rep .oneOrMore (.classU [(97, 98)])])[k]? with
    | some p => p.2
    | none => tag 0
  have hget : ∀ (i : Nat) (h : Hir) k, hs'[i]? = some h → ks[i]? = some k → ((hs'.zip ks).map fun x => (x.1, f x.2))[i]? = some (h, f k) := by
    intro i h k a b
    rw [List.getElem?_map, (List.getElem?_zip_eq_some (z := (h, k))).2 ⟨a, b⟩]
    rfl
  have hlen : ((hs'.zip ks).map fun x => (x.1, f x.2)).length = hs'.length := by simp [h3]
  obtain ⟨⟨t', ws', hb'⟩, h⟩ := h6 (parse' := parse0) (s' := seeds0) (qs := (hs'.zip ks).map fun x => (x.1, f x.2)) parse0_ok seeds0_fair
    (by
      unfold Written
      apply List.ext_getElem?
      intro i
      by_cases hi : i < hs'.length
      · have a := List.getElem?_eq_getElem hi
        rw [List.getElem?_map, hget i _ _ a (List.getElem?_eq_getElem (h3 ▸ hi)), List.getElem?_map, a]
        simp [parse0, (h4 hs'[i] (List.getElem_mem hi)).1]
      · rw [List.getElem?_eq_none (by rw [List.length_map, hlen]; omega), List.getElem?_eq_none (by rw [List.length_map]; omega)])
    (by
      intro i q k p h1 h2 h3'
      have hi := (List.getElem?_eq_some_iff.1 h2).1
      rw [hget i _ k (List.getElem?_eq_getElem (h3 ▸ hi)) h2] at h1
      cases h1
      simp only [f, h3'])
  obtain ⟨h7, h8⟩ := h t' ws' hb'
  exact ⟨(t, ws), _, (t', ws'), hb, e, hb', h7, fun it => ((h8 (calm_of_noCollision seeds0_noCollision _ _)).2 id it it rfl).1⟩

end Verif.Tok
