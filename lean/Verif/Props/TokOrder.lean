import Verif.Props.TokCode
import Verif.Props.TokSize
import Verif.Props.TokJoin

/-!
# Property C74: the order of the patterns

What rearranging, adding and removing patterns does to the tokens.
-/

namespace Verif.Tok

variable {π ρ α E : Type} {parse : π → Except ρ Hir} {s s' : Seeds} {ps qs : List (π × (List Nat → List α → E))}
  {t t' : Tokenizer α E} {ws ws' : List (Nat × Nat)} {σ τ : Nat → Nat}

/-! ## Specification -/

/-- Pattern `i` of `ps` is pattern `σ i` of `qs`; there may be further patterns in `qs`. -/
structure Placed (ps qs : List (π × (List Nat → List α → E))) (σ : Nat → Nat) : Prop where
  to : ∀ (i : Nat) (p : π × (List Nat → List α → E)), ps[i]? = some p → qs[σ i]? = some p
  inj : ∀ i j, i < ps.length → j < ps.length → σ i = σ j → i = j

/-- `qs` has exactly the patterns of `ps`, in another order. -/
structure Rearranged (ps qs : List (π × (List Nat → List α → E))) (σ : Nat → Nat) : Prop extends Placed ps qs σ where
  onto : ∀ j, j < qs.length → ∃ i, i < ps.length ∧ σ i = j

/-- The two tokenizers cut every text alike: they take the same tokens and leave the same rest, and collecting all tokens
gives the same. -/
def SameCut (t t' : Tokenizer α E) (map : α → Nat) : Prop :=
  ∀ input es, (∀ rest, Takes t map input es rest ↔ Takes t' map input es rest) ∧
    ((∃ fuel it, t.collect map fuel (It.start input) = some (es, it)) ↔ ∃ fuel it, t'.collect map fuel (It.start input) = some (es, it))

/-! ## Lemmas -/

theorem patCode_lt {i : Nat} {w : List Nat} (h : PatCode parse ps i w) : i < ps.length := by
  obtain ⟨p, _, h1, _⟩ := h
  exact (List.getElem?_eq_some_iff.1 h1).1

theorem Placed.code (hp : Placed ps qs σ) {i : Nat} {w : List Nat} (hi : i < ps.length) :
    PatCode parse qs (σ i) w ↔ PatCode parse ps i w := by
  have h1 := List.getElem?_eq_getElem hi
  have h2 := hp.to i _ h1
  unfold PatCode
  rw [h1, h2]

theorem accepts_lt (hparse : ParserOk parse) (hs : s.Fair) (hc : Calm s parse ps) (hb : BuildsTo s parse ps (.ok (t, ws)))
    {w : List Nat} {k : Nat} (h : t.accepts w = some k) : k < ps.length :=
  patCode_lt (((c41_translated_language hparse hs hc hb w).1 k).1 h).1

theorem nextToken_placed (ha : ∀ w, t'.accepts w = (t.accepts w).map σ) {map : α → Nat} {l : List α} {n k : Nat}
    (h : NextToken (Acc' t) map l n k) : NextToken (Acc' t') map l n (σ k) := by
  obtain ⟨h1, h2, h3, h4⟩ := h
  have e : t'.accepts ((l.take n).map map) = some (σ k) := by rw [ha, h2]; rfl
  refine ⟨h1, e, ?_, ?_⟩
  · intro j hj hj'
    rw [Acc', e] at hj'
    have := Option.some.inj hj'
    omega
  · intro m hm hm' j hj
    rw [Acc', ha] at hj
    cases he : t.accepts ((l.take m).map map) with
    | none => rw [he] at hj; cases hj
    | some i => exact h4 m hm hm' i he

theorem noToken_placed (ha : ∀ w, t'.accepts w = (t.accepts w).map σ) {map : α → Nat} {l : List α} :
    NoToken (Acc' t) map l ↔ NoToken (Acc' t') map l := by
  unfold NoToken Acc'
  constructor
  · intro h n j hj
    rw [ha] at hj
    cases he : t.accepts ((l.take n).map map) with
    | none => rw [he] at hj; cases hj
    | some i => exact h n i he
  · intro h n j hj
    exact h n (σ j) (by rw [ha, hj]; rfl)

theorem step_placed (hparse : ParserOk parse) (hs : s.Fair) (hb : BuildsTo s parse ps (.ok (t, ws)))
    (hs' : s'.Fair) (hb' : BuildsTo s' parse qs (.ok (t', ws'))) (hp : Placed ps qs σ)
    (ha : ∀ w, t'.accepts w = (t.accepts w).map σ) (map : α → Nat) (it : It α) :
    ((t'.next map it).1 = .none ∧ NoToken (Acc' t) map it.rest) ∨
    ∃ (n k : Nat) (p : π × (List Nat → List α → E)), NextToken (Acc' t) map it.rest n k ∧ ps[k]? = some p ∧
      (t'.next map it).1 = .token (p.2 ((it.rest.take n).map map) (it.rest.take n)) ∧ (t'.next map it).2.rest = it.rest.drop n := by
  rcases next_acc hparse hs' hb' map it with ⟨h1, h2⟩ | ⟨n, k, p, h1, h2, h3, h4⟩
  · exact .inl ⟨h1, (noToken_placed ha).2 h2⟩
  · right
    rcases next_acc hparse hs hb map it with ⟨_, g2⟩ | ⟨n', k', p', g1, g2, _, _⟩
    · exact absurd h1.2.1 ((noToken_placed ha).1 g2 n k)
    · obtain ⟨rfl, rfl⟩ := h1.unique (nextToken_placed ha g1)
      rw [hp.to _ _ g2] at h2
      obtain rfl := Option.some.inj h2
      exact ⟨n, k', p', g1, g2, h3, h4⟩

theorem cut_placed (hparse : ParserOk parse) (hs : s.Fair) (hb : BuildsTo s parse ps (.ok (t, ws)))
    (hs' : s'.Fair) (hb' : BuildsTo s' parse qs (.ok (t', ws'))) (hp : Placed ps qs σ)
    (ha : ∀ w, t'.accepts w = (t.accepts w).map σ) (map : α → Nat) : SameCut t t' map := by
  intro input es
  have h1 := stream_spec (next_acc hparse hs hb map) input es
  have h2 := stream_spec (step_placed hparse hs hb hs' hb' hp ha map) input es
  exact ⟨fun rest => (h1.1 rest).trans (h2.1 rest).symm, h1.2.trans h2.2.symm⟩

/-- If the tables are also stuck on the same texts, every single call is the same, also after a `None`. -/
theorem next_placed (hparse : ParserOk parse) (hs : s.Fair) (hb : BuildsTo s parse ps (.ok (t, ws)))
    (hs' : s'.Fair) (hb' : BuildsTo s' parse qs (.ok (t', ws'))) (hp : Placed ps qs σ)
    (ha : ∀ w, t'.accepts w = (t.accepts w).map σ) (hst : ∀ w, t.stuck w ↔ t'.stuck w) (map : α → Nat) (it : It α) :
    t.next map it = t'.next map it := by
  obtain ⟨r, h1, h2, h3, h4, h5⟩ := next_built map hparse hs hb it
  obtain ⟨r', g1, g2, g3, g4, g5⟩ := next_built map hparse hs' hb' it
  have hr : r = r' := by
    rcases Nat.lt_trichotomy r r' with h | h | h
    · rcases h3 with h3 | h3
      · omega
      · exact absurd ((hst _).1 h3) (g2 r h)
    · exact h
    · rcases g3 with g3 | g3
      · omega
      · exact absurd ((hst _).2 g3) (h2 r' h)
  subst hr
  have e1 : (t.next map it).1 = (t'.next map it).1 ∧ (t.next map it).2.rest = (t'.next map it).2.rest := by
    rcases step_placed hparse hs hb hs' hb' hp ha map it with ⟨a1, a2⟩ | ⟨n, k, p, a1, a2, a3, a4⟩
    · rcases next_acc hparse hs hb map it with ⟨b1, _⟩ | ⟨n, k, p, b1, _⟩
      · refine ⟨b1.trans a1.symm, ?_⟩
        rcases h5 with ⟨_, h5, _⟩ | ⟨_, _, _, _, _, _, _, _, h5, _⟩
        · rcases g5 with ⟨_, g5, _⟩ | ⟨_, _, _, _, _, _, _, _, g5, _⟩
          · rw [h5, g5]
          · rw [a1] at g5; cases g5
        · rw [b1] at h5; cases h5
      · exact absurd b1.2.1 (a2 n k)
    · rcases next_acc hparse hs hb map it with ⟨_, b2⟩ | ⟨n', k', p', b1, b2, b3, b4⟩
      · exact absurd a1.2.1 (b2 n k)
      · obtain ⟨rfl, rfl⟩ := a1.unique b1
        rw [a2] at b2
        obtain rfl := Option.some.inj b2
        exact ⟨b3.trans a3.symm, b4.trans a4.symm⟩
  have e2 : (t.next map it).2.src = (t'.next map it).2.src := h4.trans g4.symm
  have e3 : (t.next map it).2.queue = (t'.next map it).2.queue := by
    have := e1.2
    unfold It.rest at this
    rw [e2] at this
    exact List.append_cancel_right this
  refine Prod.ext e1.1 ?_
  cases ht : (t.next map it).2
  cases ht' : (t'.next map it).2
  rw [ht, ht'] at e2 e3
  simp only at e2 e3
  rw [e2, e3]

/-! ## C74 -/

/-- C74, exactly when other patterns in other places leave every match as it is: the first pattern of `ps` matching a word
must not be overtaken by any pattern of `qs`, and the patterns of `qs` must match no new words. -/
theorem c74_exact (hparse : ParserOk parse) (hs : s.Fair) (hc : Calm s parse ps) (hb : BuildsTo s parse ps (.ok (t, ws)))
    (hs' : s'.Fair) (hc' : Calm s' parse qs) (hb' : BuildsTo s' parse qs (.ok (t', ws'))) (hp : Placed ps qs σ) :
    (∀ w, t'.accepts w = (t.accepts w).map σ) ↔
      (∀ w k, Least (PatCode parse ps) k w → ∀ j, PatCode parse qs j w → σ k ≤ j) ∧
      (∀ w j, PatCode parse qs j w → ∃ i, PatCode parse ps i w) := by
  have a1 := c41_translated_language hparse hs hc hb
  have a2 := c41_translated_language hparse hs' hc' hb'
  constructor
  · intro ha
    constructor
    · rintro w k hk j hj
      have e : t'.accepts w = some (σ k) := by rw [ha, ((a1 w).1 k).2 hk]; rfl
      exact Nat.le_of_not_lt fun hlt => (((a2 w).1 _).1 e).2 j hlt hj
    · intro w j hj
      cases he : t.accepts w with
      | some i => exact ⟨i, (((a1 w).1 i).1 he).1⟩
      | none =>
        have e : t'.accepts w = none := by rw [ha, he]; rfl
        exact absurd hj ((a2 w).2.1 e j)
  · rintro ⟨h1, h2⟩ w
    cases he : t.accepts w with
    | none =>
      refine (a2 w).2.2 fun j hj => ?_
      obtain ⟨i, hi⟩ := h2 w j hj
      exact (a1 w).2.1 he i hi
    | some k =>
      have hk := ((a1 w).1 k).1 he
      refine ((a2 w).1 (σ k)).2 ⟨(hp.code (patCode_lt hk.1)).2 hk.1, fun j hj hj' => ?_⟩
      have := h1 w k hk j hj'
      omega

/-- C74: if every match is left as it is, every text is cut alike; for patterns without empty classes every call of `next` in
every state is the same, also after a `None`. -/
theorem c74_same_tokens (hparse : ParserOk parse) (hs : s.Fair) (hc : Calm s parse ps) (hb : BuildsTo s parse ps (.ok (t, ws)))
    (hs' : s'.Fair) (hc' : Calm s' parse qs) (hb' : BuildsTo s' parse qs (.ok (t', ws'))) (hp : Placed ps qs σ)
    (ha : ∀ w, t'.accepts w = (t.accepts w).map σ) (map : α → Nat) :
    SameCut t t' map ∧
    (PatsLive parse ps → PatsLive parse qs → ps ≠ [] → ∀ it, t.next map it = t'.next map it) := by
  refine ⟨cut_placed hparse hs hb hs' hb' hp ha map, fun hl hl' hne => next_placed hparse hs hb hs' hb' hp ha ?_ map⟩
  have hne' : qs ≠ [] := by
    rintro rfl
    obtain ⟨p, ps', rfl⟩ := List.exists_cons_of_ne_nil hne
    have := hp.to 0 p rfl
    simp at this
  intro w
  rw [stuck_iff_viable hparse hs hc hl hne hb, stuck_iff_viable hparse hs' hc' hl' hne' hb']
  have key : ∀ w, (∃ k, PatCode parse ps k w) ↔ ∃ k, PatCode parse qs k w := by
    intro w
    constructor
    · rintro ⟨k, hk⟩
      exact ⟨σ k, (hp.code (patCode_lt hk)).2 hk⟩
    · rintro ⟨j, hj⟩
      exact ((c74_exact hparse hs hc hb hs' hc' hb' hp).1 ha).2 w j hj
  have : Viable (PatCode parse ps) w ↔ Viable (PatCode parse qs) w := by
    unfold Viable
    constructor
    · rintro ⟨v, k, h1, h2⟩
      obtain ⟨j, hj⟩ := (key _).1 ⟨k, h2⟩
      exact ⟨v, j, h1, hj⟩
    · rintro ⟨v, k, h1, h2⟩
      obtain ⟨j, hj⟩ := (key _).2 ⟨k, h2⟩
      exact ⟨v, j, h1, hj⟩
  rw [this]

/-- C74: whoever rearranges the patterns so that the two patterns of every warning keep their order changes no token. -/
theorem c74_warned_order (hparse : ParserOk parse) (hs : s.Fair) (hc : Calm s parse ps) (hb : BuildsTo s parse ps (.ok (t, ws)))
    (hs' : s'.Fair) (hc' : Calm s' parse qs) (hb' : BuildsTo s' parse qs (.ok (t', ws'))) (hp : Rearranged ps qs σ)
    (hw : ∀ a b, (a, b) ∈ ws → σ b < σ a) (map : α → Nat) :
    (∀ w, t'.accepts w = (t.accepts w).map σ) ∧ SameCut t t' map := by
  have hx := c41_warnings hparse hs hb
  have back : ∀ w j, PatCode parse qs j w → ∃ i, σ i = j ∧ PatCode parse ps i w := by
    intro w j hj
    obtain ⟨i, hi, rfl⟩ := hp.onto j (patCode_lt hj)
    exact ⟨i, rfl, (hp.code hi).1 hj⟩
  -- along the patterns matching `w`, from one to the next
  have chain : ∀ w k, PatCode parse ps k w → ∀ d i, i = k + d → PatCode parse ps i w → σ k ≤ σ i := by
    intro w k hk d
    induction d using Nat.strongRecOn generalizing k with
    | _ d ih =>
      intro i hi hiw
      by_cases hd : d = 0
      · subst hd; rw [hi]; exact Nat.le_refl _
      · obtain ⟨c, ⟨hc1, hc2⟩, hc3⟩ := least_of_some (P := fun c => k < c ∧ PatCode parse ps c w) ⟨i, by omega, hiw⟩
        have hci : c ≤ i := Nat.le_of_not_lt fun hlt => hc3 i hlt ⟨by omega, hiw⟩
        have h1 := hw c k ((hx.exact c k).2 ⟨w, hc2, hk, hc1, fun j hj1 hj2 hj3 => hc3 j hj2 ⟨hj1, hj3⟩⟩)
        have h2 := ih (i - c) (by omega) c hc2 i (by omega) hiw
        omega
  have ha := (c74_exact hparse hs hc hb hs' hc' hb' hp.toPlaced).2 ⟨?_, ?_⟩
  · exact ⟨ha, (c74_same_tokens hparse hs hc hb hs' hc' hb' hp.toPlaced ha map).1⟩
  · intro w k hk j hj
    obtain ⟨i, rfl, hi⟩ := back w j hj
    have : k ≤ i := Nat.le_of_not_lt fun hlt => hk.2 i hlt hi
    exact chain w k hk.1 (i - k) i (by omega) hi
  · intro w j hj
    obtain ⟨i, _, hi⟩ := back w j hj
    exact ⟨i, hi⟩

/-- C74: without warnings the order of the patterns does not matter at all, and no order gives a warning. -/
theorem c74_no_warnings (hparse : ParserOk parse) (hs : s.Fair) (hc : Calm s parse ps) (hb : BuildsTo s parse ps (.ok (t, [])))
    (hs' : s'.Fair) (hc' : Calm s' parse qs) (hb' : BuildsTo s' parse qs (.ok (t', ws'))) (hp : Rearranged ps qs σ) (map : α → Nat) :
    ws' = [] ∧ (∀ w, t'.accepts w = (t.accepts w).map σ) ∧ SameCut t t' map := by
  refine ⟨?_, c74_warned_order hparse hs hc hb hs' hc' hb' hp (by simp) map⟩
  have hx := c41_warnings hparse hs hb
  have hx' := c41_warnings hparse hs' hb'
  refine Classical.byContradiction fun hne => ?_
  obtain ⟨w, a, b, hab, ha, hb⟩ := hx'.some_iff.1 hne
  obtain ⟨i, hi, rfl⟩ := hp.onto a (patCode_lt ha)
  obtain ⟨j, hj, rfl⟩ := hp.onto b (patCode_lt hb)
  exact hx.some_iff.2 ⟨w, i, j, fun e => hab (by rw [e]), (hp.code hi).1 ha, (hp.code hj).1 hb⟩ rfl

/-- C74, the converse: if one of the patterns matching `w` is moved in front of the one that made the token of `w`, another
pattern makes it now. -/
theorem c74_turned (hparse : ParserOk parse) (hs : s.Fair) (hc : Calm s parse ps) (hb : BuildsTo s parse ps (.ok (t, ws)))
    (hs' : s'.Fair) (hc' : Calm s' parse qs) (hb' : BuildsTo s' parse qs (.ok (t', ws'))) (hp : Rearranged ps qs σ)
    {w : List Nat} {k j : Nat} (hk : Least (PatCode parse ps) k w) (hj : PatCode parse ps j w) (ht : σ j < σ k) :
    ∃ i, i ≠ k ∧ t.accepts w = some k ∧ t'.accepts w = some (σ i) := by
  have a1 := c41_translated_language hparse hs hc hb w
  have a2 := c41_translated_language hparse hs' hc' hb' w
  have hj' := (hp.code (patCode_lt hj)).2 hj
  cases he : t'.accepts w with
  | none => exact absurd hj' (a2.2.1 he _)
  | some m =>
    obtain ⟨h1, h2⟩ := (a2.1 m).1 he
    obtain ⟨i, hi, rfl⟩ := hp.onto m (patCode_lt h1)
    refine ⟨i, ?_, (a1.1 k).2 hk, rfl⟩
    rintro rfl
    exact h2 _ ht hj'

/-- C74: patterns added at the end take no word from the patterns that were there; they only match words that were not
matched. -/
theorem c74_appended {more : List (π × (List Nat → List α → E))} (hparse : ParserOk parse) (hs : s.Fair) (hc : Calm s parse ps)
    (hb : BuildsTo s parse ps (.ok (t, ws))) (hs' : s'.Fair) (hc' : Calm s' parse (ps ++ more))
    (hb' : BuildsTo s' parse (ps ++ more) (.ok (t', ws'))) (w : List Nat) :
    (∀ k, t.accepts w = some k → t'.accepts w = some k) ∧
    (t.accepts w = none → ∀ k, t'.accepts w = some k → ps.length ≤ k) := by
  have a1 := c41_translated_language hparse hs hc hb w
  have a2 := c41_translated_language hparse hs' hc' hb' w
  have hp : Placed ps (ps ++ more) id := ⟨fun i p h => by
    rw [id, List.getElem?_append_left (List.getElem?_eq_some_iff.1 h).1]; exact h, fun i j _ _ h => h⟩
  have hcode : ∀ i, i < ps.length → (PatCode parse (ps ++ more) i w ↔ PatCode parse ps i w) := fun i hi => hp.code hi
  constructor
  · intro k hk
    obtain ⟨h1, h2⟩ := (a1.1 k).1 hk
    have hlt := patCode_lt h1
    exact (a2.1 k).2 ⟨(hcode k hlt).2 h1, fun j hj hj' => h2 j hj ((hcode j (by omega)).1 hj')⟩
  · intro hn k hk
    refine Nat.le_of_not_lt fun hlt => ?_
    exact a1.2.1 hn k ((hcode k hlt).1 ((a2.1 k).1 hk).1)

/-- Where the patterns are when one is put behind the first `n`. -/
def skip (n i : Nat) : Nat := if i < n then i else i + 1

theorem placed_skip (front back : List (π × (List Nat → List α → E))) (p : π × (List Nat → List α → E)) :
    Placed (front ++ back) (front ++ p :: back) (skip front.length) := by
  constructor
  · intro i q h
    unfold skip
    split
    · next hi => rw [List.getElem?_append_left hi] at h ⊢; exact h
    · next hi =>
      rw [List.getElem?_append_right (by omega)] at h ⊢
      rw [show i + 1 - front.length = (i - front.length) + 1 by omega, List.getElem?_cons_succ]
      exact h
  · intro i j _ _ h
    unfold skip at h
    split at h <;> split at h <;> omega

/-- C74: a pattern can be left out without changing any match exactly if every word it matches is matched by a pattern in
front of it; then every text is cut alike without it. -/
theorem c74_shadowed {front back : List (π × (List Nat → List α → E))} {p : π × (List Nat → List α → E)} (hparse : ParserOk parse)
    (hs : s.Fair) (hc : Calm s parse (front ++ back)) (hb : BuildsTo s parse (front ++ back) (.ok (t, ws)))
    (hs' : s'.Fair) (hc' : Calm s' parse (front ++ p :: back)) (hb' : BuildsTo s' parse (front ++ p :: back) (.ok (t', ws')))
    (map : α → Nat) :
    ((∀ w, t'.accepts w = (t.accepts w).map (skip front.length)) ↔
      ∀ w, PatCode parse [p] 0 w → ∃ i, PatCode parse front i w) ∧
    ((∀ w, PatCode parse [p] 0 w → ∃ i, PatCode parse front i w) → SameCut t t' map) := by
  have hp := placed_skip front back p
  have hx := c74_exact hparse hs hc hb hs' hc' hb' hp
  have hfront : ∀ i w, PatCode parse front i w ↔ i < front.length ∧ PatCode parse (front ++ back) i w := by
    intro i w
    constructor
    · intro h
      have hi := patCode_lt h
      refine ⟨hi, ?_⟩
      unfold PatCode at h ⊢
      rwa [List.getElem?_append_left hi]
    · rintro ⟨hi, h⟩
      unfold PatCode at h ⊢
      rwa [List.getElem?_append_left hi] at h
  have hmid : ∀ w, PatCode parse (front ++ p :: back) front.length w ↔ PatCode parse [p] 0 w := by
    intro w
    unfold PatCode
    rw [List.getElem?_append_right (Nat.le_refl _)]
    simp
  -- every pattern of the longer list is `p` or one of the others
  have back' : ∀ j w, PatCode parse (front ++ p :: back) j w →
      j = front.length ∨ ∃ i, skip front.length i = j ∧ PatCode parse (front ++ back) i w := by
    intro j w h
    have hlt := patCode_lt h
    simp only [List.length_append, List.length_cons] at hlt
    by_cases hj : j = front.length
    · exact .inl hj
    · right
      have hsk : ∃ i, skip front.length i = j ∧ i < (front ++ back).length := by
        by_cases hlt' : j < front.length
        · exact ⟨j, by simp [skip, hlt'], by simp; omega⟩
        · exact ⟨j - 1, by unfold skip; split <;> omega, by simp; omega⟩
      obtain ⟨i, rfl, hi⟩ := hsk
      exact ⟨i, rfl, (hp.code hi).1 h⟩
  have iff' : (∀ w, t'.accepts w = (t.accepts w).map (skip front.length)) ↔
      ∀ w, PatCode parse [p] 0 w → ∃ i, PatCode parse front i w := by
    rw [hx]
    constructor
    · rintro ⟨h1, h2⟩ w hw
      obtain ⟨i, hi⟩ := h2 w _ ((hmid w).2 hw)
      obtain ⟨k, hk1, hk2⟩ := least_of_some (P := fun k => PatCode parse (front ++ back) k w) ⟨i, hi⟩
      have := h1 w k ⟨hk1, hk2⟩ _ ((hmid w).2 hw)
      refine ⟨k, (hfront k w).2 ⟨?_, hk1⟩⟩
      unfold skip at this
      split at this <;> omega
    · intro h
      constructor
      · intro w k hk j hj
        rcases back' j w hj with rfl | ⟨i, rfl, hi⟩
        · obtain ⟨i, hi⟩ := h w ((hmid w).1 hj)
          obtain ⟨hi1, hi2⟩ := (hfront i w).1 hi
          have : k ≤ i := Nat.le_of_not_lt fun hlt => hk.2 i hlt hi2
          unfold skip
          split <;> omega
        · have : k ≤ i := Nat.le_of_not_lt fun hlt => hk.2 i hlt hi
          unfold skip
          split <;> split <;> omega
      · intro w j hj
        rcases back' j w hj with rfl | ⟨i, rfl, hi⟩
        · obtain ⟨i, hi⟩ := h w ((hmid w).1 hj)
          exact ⟨i, ((hfront i w).1 hi).2⟩
        · exact ⟨i, hi⟩
  exact ⟨iff', fun h => (c74_same_tokens hparse hs hc hb hs' hc' hb' hp (iff'.2 h) map).1⟩

/-! ## Examples -/

/-- A pattern whose tokens carry the number `n`. -/
def numbered (n : Nat) (h : Hir) : Hir × (List Nat → List Nat → Nat × List Nat) := (h, fun _ items => (n, items))

/-- The warnings of a build with `seeds0` and what it makes of a text. -/
def trial (ps : List (Hir × (List Nat → List Nat → Nat × List Nat))) (input : List Nat) :
    Option (List (Nat × Nat) × Option (List (Nat × List Nat))) :=
  match builderBuild 50 seeds0 parse0 ps with
  | some (.ok (t, ws)) => some (ws, (t.collect id 20 (It.start input)).map Prod.fst)
  | _ => none

theorem calm0 (ps : List (Hir × (List Nat → List Nat → Nat × List Nat))) : seeds0.Fair ∧ Calm seeds0 parse0 ps :=
  ⟨seeds0_fair, fun _ => Iff.rfl⟩

/-- `a`, `x`, `[ab]`: the warning names patterns 2 and 0.  Moving `x` to the front keeps the order of these two. -/
example : trial [numbered 0 ra, numbered 1 rx, numbered 2 (.classU [(97, 98)])] [98, 97, 120] =
      some ([(2, 0)], some [(2, [98]), (0, [97]), (1, [120])]) ∧
    trial [numbered 1 rx, numbered 0 ra, numbered 2 (.classU [(97, 98)])] [98, 97, 120] =
      some ([(2, 1)], some [(2, [98]), (0, [97]), (1, [120])]) ∧
    Rearranged [numbered 0 ra, numbered 1 rx, numbered 2 (.classU [(97, 98)])]
      [numbered 1 rx, numbered 0 ra, numbered 2 (.classU [(97, 98)])] (fun i => if i = 0 then 1 else if i = 1 then 0 else i) := by
  refine ⟨by decide, by decide, ⟨?_, ?_⟩, ?_⟩
  · rintro (_ | _ | _ | i) p h <;> simp_all
  · rintro (_ | _ | _ | i) (_ | _ | _ | j) hi hj h <;> simp_all
  · rintro (_ | _ | _ | j) hj
    · exact ⟨1, by simp⟩
    · exact ⟨0, by simp⟩
    · exact ⟨2, by simp⟩
    · simp at hj; omega

/-- Turned around, `[ab]` makes the token of `a`. -/
example : trial [numbered 2 (.classU [(97, 98)]), numbered 1 rx, numbered 0 ra] [98, 97, 120] =
      some ([(2, 0)], some [(2, [98]), (2, [97]), (1, [120])]) := by decide

/-- Not every warning is about an order that matters: behind `[ab]+` the order of `a` and `[ab]` is warned of but makes no
difference, both are shadowed. -/
example : (trial [numbered 0 (.rep .oneOrMore (.classU [(97, 98)])), numbered 1 ra, numbered 2 (.classU [(97, 98)])] [97, 98]).map
      (fun r => (r.1.contains (2, 1), r.2)) = some (true, some [(0, [97, 98])]) ∧
    (trial [numbered 0 (.rep .oneOrMore (.classU [(97, 98)])), numbered 2 (.classU [(97, 98)]), numbered 1 ra] [97, 98]).map
      (fun r => (r.1.contains (2, 1), r.2)) = some (true, some [(0, [97, 98])]) := by
  constructor <;> decide

/-- `a` behind `[ab]` is shadowed: the texts are cut alike without it.  In front of it, it is not. -/
example : trial [numbered 2 (.classU [(97, 98)]), numbered 0 ra] [97, 98] = some ([(1, 0)], some [(2, [97]), (2, [98])]) ∧
    trial [numbered 2 (.classU [(97, 98)])] [97, 98] = some ([], some [(2, [97]), (2, [98])]) ∧
    trial [numbered 0 ra, numbered 2 (.classU [(97, 98)])] [97, 98] = some ([(1, 0)], some [(0, [97]), (2, [98])]) := by
  refine ⟨?_, ?_, ?_⟩ <;> decide

end Verif.Tok
