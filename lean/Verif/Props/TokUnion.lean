import Verif.Props.TokOrder

/-!
# Property C87: tokenizers with the patterns of several tokenizers

At each place of a text the tokenizers for the parts compete: the longest token wins, and among those of equal length the one whose patterns come first.
-/

namespace Verif.Tok

variable {π ρ α E : Type} {parse : π → Except ρ Hir} {s s1 s2 : Seeds} {ps qs : List (π × (List Nat → List α → E))}
  {t t1 t2 : Tokenizer α E} {ws ws1 ws2 : List (Nat × Nat)}

/-! ## Specification -/

/-- The first token of a text and the text behind it. -/
def Tokenizer.first (t : Tokenizer α E) (map : α → Nat) (l : List α) : Option (E × List α) :=
  match t.next map (It.start l) with
  | (.token e, it) => some (e, it.rest)
  | _ => none

/-- The longer one of two tokens (the one that leaves less); the first one if they are equally long. -/
def longer : Option (E × List α) → Option (E × List α) → Option (E × List α)
  | none, y => y
  | some x, none => some x
  | some x, some y => if y.2.length < x.2.length then some y else some x

/-- `x` is a token and leaves less than `y`, or `y` is no token. -/
def Beats (x : E × List α) : Option (E × List α) → Prop
  | none => True
  | some y => x.2.length < y.2.length

/-- `x` is a token and leaves no more than `y`, or `y` is no token. -/
def Ties (x : E × List α) : Option (E × List α) → Prop
  | none => True
  | some y => x.2.length ≤ y.2.length

/-! ## Lemmas -/

theorem start_rest (l : List α) : (It.start l).rest = l := by simp [It.rest, It.start]

theorem next_code (hparse : ParserOk parse) (hs : s.Fair) (hc : Calm s parse ps) (hb : BuildsTo s parse ps (.ok (t, ws))) (map : α → Nat) (it : It α) :
    ((t.next map it).1 = .none ∧ NoToken (PatCode parse ps) map it.rest) ∨
    ∃ (n k : Nat) (p : π × (List Nat → List α → E)), NextToken (PatCode parse ps) map it.rest n k ∧ ps[k]? = some p ∧
      (t.next map it).1 = .token (p.2 ((it.rest.take n).map map) (it.rest.take n)) ∧ (t.next map it).2.rest = it.rest.drop n :=
  next_lang hparse hs hc (fun _ _ h1 h5 h2 i w => own_code h1 h5 h2 i w) hb map it

/-- What the first token is. -/
theorem first_spec (hparse : ParserOk parse) (hs : s.Fair) (hc : Calm s parse ps) (hb : BuildsTo s parse ps (.ok (t, ws))) (map : α → Nat) (l : List α) :
    (t.first map l = none ∧ NoToken (PatCode parse ps) map l) ∨
    ∃ (n k : Nat) (p : π × (List Nat → List α → E)), NextToken (PatCode parse ps) map l n k ∧ ps[k]? = some p ∧
      t.first map l = some (p.2 ((l.take n).map map) (l.take n), l.drop n) := by
  have h := next_code hparse hs hc hb map (It.start l)
  rw [start_rest] at h
  unfold Tokenizer.first
  generalize t.next map (It.start l) = x at h
  obtain ⟨o, it⟩ := x
  rcases h with ⟨h1, h2⟩ | ⟨n, k, p, h1, h2, h3, h4⟩
  · simp only at h1; subst h1; exact .inl ⟨rfl, h2⟩
  · simp only at h3 h4; subst h3; exact .inr ⟨n, k, p, h1, h2, by simp [h4]⟩

theorem patCode_left {i : Nat} {w : List Nat} (h : PatCode parse ps i w) : PatCode parse (ps ++ qs) i w := by
  have hi := patCode_lt h
  unfold PatCode at h ⊢
  rwa [List.getElem?_append_left hi]

theorem patCode_right {i : Nat} {w : List Nat} : PatCode parse (ps ++ qs) (ps.length + i) w ↔ PatCode parse qs i w := by
  unfold PatCode
  rw [List.getElem?_append_right (by omega)]
  simp

theorem patCode_append {i : Nat} {w : List Nat} (h : PatCode parse (ps ++ qs) i w) :
    (i < ps.length ∧ PatCode parse ps i w) ∨ ∃ j, i = ps.length + j ∧ PatCode parse qs j w := by
  by_cases hi : i < ps.length
  · left
    refine ⟨hi, ?_⟩
    unfold PatCode at h ⊢
    rwa [List.getElem?_append_left hi] at h
  · right
    refine ⟨i - ps.length, by omega, ?_⟩
    rw [← patCode_right (ps := ps), show ps.length + (i - ps.length) = i by omega]
    exact h

theorem first_of_next (hparse : ParserOk parse) (hs : s.Fair) (hc : Calm s parse ps) (hb : BuildsTo s parse ps (.ok (t, ws))) {map : α → Nat} {l : List α} {n k : Nat}
    {p : π × (List Nat → List α → E)} (h : NextToken (PatCode parse ps) map l n k) (hk : ps[k]? = some p) :
    t.first map l = some (p.2 ((l.take n).map map) (l.take n), l.drop n) := by
  rcases first_spec hparse hs hc hb map l with ⟨_, h2⟩ | ⟨n', k', p', h1, h2, h3⟩
  · exact absurd h.2.1 (h2 n k)
  · obtain ⟨rfl, rfl⟩ := h.unique h1
    rw [hk] at h2
    cases h2
    exact h3

/-! ## The theorems -/

/-- C87: the tokenizer for the patterns of two tokenizers takes the longer one of their two tokens at each place, the one of the first if they are equally
long; it takes none if neither does. -/
theorem c87_first (hparse : ParserOk parse) (hs1 : s1.Fair) (hc1 : Calm s1 parse ps) (hb1 : BuildsTo s1 parse ps (.ok (t1, ws1)))
    (hs2 : s2.Fair) (hc2 : Calm s2 parse qs) (hb2 : BuildsTo s2 parse qs (.ok (t2, ws2)))
    (hs : s.Fair) (hc : Calm s parse (ps ++ qs)) (hb : BuildsTo s parse (ps ++ qs) (.ok (t, ws))) (map : α → Nat) (l : List α) :
    t.first map l = longer (t1.first map l) (t2.first map l) := by
  rcases first_spec hparse hs1 hc1 hb1 map l with ⟨h1, h2⟩ | ⟨n, k, p, h1, h2, h3⟩
  · rw [h1]
    rcases first_spec hparse hs2 hc2 hb2 map l with ⟨g1, g2⟩ | ⟨n', k', p', g1, g2, g3⟩
    · rw [g1]
      rcases first_spec hparse hs hc hb map l with ⟨a1, _⟩ | ⟨m, j, q, a1, _, _⟩
      · exact a1
      · exfalso
        rcases patCode_append a1.2.1 with ⟨_, h⟩ | ⟨j', _, h⟩
        · exact h2 _ _ h
        · exact g2 _ _ h
    · rw [g3]
      refine first_of_next hparse hs hc hb (n := n') (k := ps.length + k') ⟨g1.1, patCode_right.2 g1.2.1, ?_, ?_⟩ ?_
      · intro j hj h
        rcases patCode_append h with ⟨_, h⟩ | ⟨j', rfl, hq⟩
        · exact h2 _ _ h
        · exact g1.2.2.1 j' (by omega) hq
      · intro m hm hml j h
        rcases patCode_append h with ⟨_, h⟩ | ⟨j', rfl, hq⟩
        · exact h2 _ _ h
        · exact g1.2.2.2 m hm hml j' hq
      · rw [List.getElem?_append_right (by omega)]; simpa using g2
  · rw [h3]
    have hk : (ps ++ qs)[k]? = some p := by
      rw [List.getElem?_append_left (List.getElem?_eq_some_iff.1 h2).1]; exact h2
    rcases first_spec hparse hs2 hc2 hb2 map l with ⟨g1, g2⟩ | ⟨n', k', p', g1, g2, g3⟩
    · rw [g1]
      refine first_of_next hparse hs hc hb (n := n) (k := k) ⟨h1.1, patCode_left h1.2.1, ?_, ?_⟩ hk
      · intro j hj h
        rcases patCode_append h with ⟨_, h⟩ | ⟨j', rfl, hq⟩
        · exact h1.2.2.1 j hj h
        · exact g2 _ _ hq
      · intro m hm hml j h
        rcases patCode_append h with ⟨_, h⟩ | ⟨j', rfl, hq⟩
        · exact h1.2.2.2 m hm hml j h
        · exact g2 _ _ hq
    · rw [g3]
      have hle := h1.1
      have hle' := g1.1
      by_cases hlt : n < n'
      · have : longer (some (p.2 ((l.take n).map map) (l.take n), l.drop n)) (some (p'.2 ((l.take n').map map) (l.take n'), l.drop n')) =
            some (p'.2 ((l.take n').map map) (l.take n'), l.drop n') := by
          simp only [longer, List.length_drop]
          rw [if_pos (by omega)]
        rw [this]
        refine first_of_next hparse hs hc hb (n := n') (k := ps.length + k') ⟨g1.1, patCode_right.2 g1.2.1, ?_, ?_⟩ ?_
        · intro j hj h
          rcases patCode_append h with ⟨_, h⟩ | ⟨j', rfl, hq⟩
          · exact h1.2.2.2 n' hlt hle' j h
          · exact g1.2.2.1 j' (by omega) hq
        · intro m hm hml j h
          rcases patCode_append h with ⟨_, h⟩ | ⟨j', rfl, hq⟩
          · exact h1.2.2.2 m (by omega) hml j h
          · exact g1.2.2.2 m hm hml j' hq
        · rw [List.getElem?_append_right (by omega)]; simpa using g2
      · have : longer (some (p.2 ((l.take n).map map) (l.take n), l.drop n)) (some (p'.2 ((l.take n').map map) (l.take n'), l.drop n')) =
            some (p.2 ((l.take n).map map) (l.take n), l.drop n) := by
          simp only [longer, List.length_drop]
          rw [if_neg (by omega)]
        rw [this]
        refine first_of_next hparse hs hc hb (n := n) (k := k) ⟨h1.1, patCode_left h1.2.1, ?_, ?_⟩ hk
        · intro j hj h
          rcases patCode_append h with ⟨_, h⟩ | ⟨j', rfl, hq⟩
          · exact h1.2.2.1 j hj h
          · exact absurd (List.getElem?_eq_some_iff.1 h2).1 (by omega)
        · intro m hm hml j h
          rcases patCode_append h with ⟨_, h⟩ | ⟨j', rfl, hq⟩
          · exact h1.2.2.2 m hm hml j h
          · exact g1.2.2.2 m (by omega) hml j' hq

/-- C87: the same for the patterns one by one.  The first token of a text is the one that the tokenizer for pattern `k` alone takes, if the tokenizers for the
other patterns alone take no longer one, and those for earlier patterns only shorter ones; there is no token if there is none for any pattern. -/
theorem c87_single (hparse : ParserOk parse) (hs : s.Fair) (hc : Calm s parse ps) (hb : BuildsTo s parse ps (.ok (t, ws))) (map : α → Nat) (l : List α)
    (ts : Nat → Tokenizer α E) (ss : Nat → Seeds) (wss : Nat → List (Nat × Nat)) (hss : ∀ i, (ss i).Fair)
    (hcs : ∀ i p, ps[i]? = some p → Calm (ss i) parse [p] ∧ BuildsTo (ss i) parse [p] (.ok (ts i, wss i))) (x : E × List α) :
    (t.first map l = some x ↔ ∃ k, k < ps.length ∧ (ts k).first map l = some x ∧ (∀ j < k, Beats x ((ts j).first map l)) ∧
      ∀ j, k < j → j < ps.length → Ties x ((ts j).first map l)) ∧
    (t.first map l = none ↔ ∀ k < ps.length, (ts k).first map l = none) := by
  have one : ∀ {i : Nat} {p : π × (List Nat → List α → E)} {w}, ps[i]? = some p → ∀ j, PatCode parse [p] j w ↔ j = 0 ∧ PatCode parse ps i w := by
    intro i p w hp j
    unfold PatCode
    cases j with
    | zero => simp [hp]
    | succ j => simp
  -- the single tokenizers
  have sing : ∀ {i p}, ps[i]? = some p → ((ts i).first map l = none ∧ ∀ n, ¬ PatCode parse ps i ((l.take n).map map)) ∨
      ∃ n, n ≤ l.length ∧ PatCode parse ps i ((l.take n).map map) ∧ (∀ m, n < m → m ≤ l.length → ¬ PatCode parse ps i ((l.take m).map map)) ∧
        (ts i).first map l = some (p.2 ((l.take n).map map) (l.take n), l.drop n) := by
    intro i p hp
    obtain ⟨c1, c2⟩ := hcs i p hp
    rcases first_spec hparse (hss i) c1 c2 map l with ⟨h1, h2⟩ | ⟨n, k, p', h1, h2, h3⟩
    · exact .inl ⟨h1, fun n h => h2 n 0 ((one hp 0).2 ⟨rfl, h⟩)⟩
    · right
      obtain ⟨rfl, h4⟩ := (one hp k).1 h1.2.1
      cases h2
      exact ⟨n, h1.1, h4, fun m hm hml h => h1.2.2.2 m hm hml 0 ((one hp 0).2 ⟨rfl, h⟩), h3⟩
  have hall : ∀ {k}, k < ps.length → ∃ p, ps[k]? = some p := fun hk => ⟨_, List.getElem?_eq_getElem hk⟩
  -- the winner
  have win : ∀ {n k p}, NextToken (PatCode parse ps) map l n k → ps[k]? = some p →
      (ts k).first map l = some (p.2 ((l.take n).map map) (l.take n), l.drop n) := by
    intro n k p h hp
    rcases sing hp with ⟨_, h2⟩ | ⟨n', a1, a2, a3, a4⟩
    · exact absurd h.2.1 (h2 n)
    · have : n = n' := by
        rcases Nat.lt_trichotomy n n' with h' | h' | h'
        · exact absurd a2 (h.2.2.2 n' h' a1 k)
        · exact h'
        · exact absurd h.2.1 (a3 n h' h.1)
      rw [this]
      exact a4
  have conv : ∀ {x : E × List α} {k}, k < ps.length → (ts k).first map l = some x → (∀ j < k, Beats x ((ts j).first map l)) →
      (∀ j, k < j → j < ps.length → Ties x ((ts j).first map l)) → t.first map l = some x := by
    intro x k hk hx hbt hti
    obtain ⟨p, hp⟩ := hall hk
    rcases sing hp with ⟨h1, _⟩ | ⟨n, a1, a2, a3, a4⟩
    · rw [hx] at h1; cases h1
    · rw [hx] at a4
      cases a4
      have later : ∀ j m, j < ps.length → m ≤ l.length → PatCode parse ps j ((l.take m).map map) → m ≤ n ∧ (j < k → m < n) := by
        intro j m hj hm hcode
        obtain ⟨q, hq⟩ := hall hj
        rcases sing hq with ⟨_, b1⟩ | ⟨n', b1, b2, b3, b4⟩
        · exact absurd hcode (b1 m)
        · have hmn : m ≤ n' := Nat.le_of_not_lt fun h => b3 m h hm hcode
          rcases Nat.lt_trichotomy j k with h | h | h
          · have := hbt j h
            rw [b4] at this
            simp only [Beats, List.length_drop] at this
            omega
          · subst h
            have : n' = n := by
              rcases Nat.lt_trichotomy n n' with h' | h' | h'
              · exact absurd b2 (a3 n' h' b1)
              · exact h'.symm
              · exact absurd a2 (b3 n h' a1)
            omega
          · have := hti j h hj
            rw [b4] at this
            simp only [Ties, List.length_drop] at this
            omega
      refine first_of_next hparse hs hc hb ⟨a1, a2, ?_, ?_⟩ hp
      · intro j hj h
        have := (later j n (by omega) a1 h).2 hj
        omega
      · intro m hm hml j h
        have := (later j m (patCode_lt h) hml h).1
        omega
  refine ⟨⟨?_, ?_⟩, ?_, ?_⟩
  · intro hf
    rcases first_spec hparse hs hc hb map l with ⟨h1, _⟩ | ⟨n, k, p, h1, h2, h3⟩
    · rw [hf] at h1; cases h1
    · rw [hf] at h3
      cases h3
      have hk : k < ps.length := (List.getElem?_eq_some_iff.1 h2).1
      have hle := h1.1
      refine ⟨k, hk, win h1 h2, ?_, ?_⟩
      · intro j hj
        obtain ⟨q, hq⟩ := hall (show j < ps.length by omega)
        rcases sing hq with ⟨b1, _⟩ | ⟨n', b1, b2, b3, b4⟩
        · rw [b1]; trivial
        · rw [b4]
          simp only [Beats, List.length_drop]
          rcases Nat.lt_trichotomy n n' with h' | h' | h'
          · exact absurd b2 (h1.2.2.2 n' h' b1 j)
          · subst h'; exact absurd b2 (h1.2.2.1 j hj)
          · omega
      · intro j hkj hj
        obtain ⟨q, hq⟩ := hall hj
        rcases sing hq with ⟨b1, _⟩ | ⟨n', b1, b2, b3, b4⟩
        · rw [b1]; trivial
        · rw [b4]
          simp only [Ties, List.length_drop]
          rcases Nat.lt_trichotomy n n' with h' | h' | h'
          · exact absurd b2 (h1.2.2.2 n' h' b1 j)
          · omega
          · omega
  · rintro ⟨k, hk, h1, h2, h3⟩
    exact conv hk h1 h2 h3
  · intro hf k hk
    obtain ⟨p, hp⟩ := hall hk
    rcases first_spec hparse hs hc hb map l with ⟨_, h1⟩ | ⟨n, k, p, h1, h2, h3⟩
    · rcases sing hp with ⟨b1, _⟩ | ⟨n', b1, b2, b3, b4⟩
      · exact b1
      · exact absurd b2 (h1 n' k)
    · rw [hf] at h3; cases h3
  · intro hall'
    rcases first_spec hparse hs hc hb map l with ⟨h1, _⟩ | ⟨n, k, p, h1, h2, h3⟩
    · exact h1
    · have := hall' k (List.getElem?_eq_some_iff.1 h2).1
      rw [win h1 h2] at this
      cases this

/-- The tokens are the first ones of what the ones before leave. -/
theorem takes_cons (hparse : ParserOk parse) (hs : s.Fair) (hb : BuildsTo s parse ps (.ok (t, ws))) (map : α → Nat) (l : List α) (e : E) (es : List E)
    (rest : List α) : Takes t map l (e :: es) rest ↔ ∃ l', t.first map l = some (e, l') ∧ Takes t map l' es rest := by
  rw [takes_iff hparse hs hb]
  simp only [takes_iff hparse hs hb]
  have h := next_acc hparse hs hb map (It.start l)
  rw [start_rest] at h
  unfold Tokenizer.first
  generalize t.next map (It.start l) = x at h
  obtain ⟨o, it⟩ := x
  rcases h with ⟨h1, h2⟩ | ⟨n, k, p, h1, h2, h3, h4⟩
  · simp only at h1
    subst h1
    constructor
    · intro h
      cases h with
      | cons _ n k p _ _ g1 g2 g3 => exact absurd g1.2.1 (h2 n k)
    · rintro ⟨_, h, _⟩; cases h
  · simp only at h3 h4
    subst h3
    constructor
    · intro h
      cases h with
      | cons _ n' k' p' _ _ g1 g2 g3 =>
        obtain ⟨rfl, rfl⟩ := h1.unique g1
        rw [h2] at g2
        cases g2
        exact ⟨_, rfl, by rw [h4]; exact g3⟩
    · rintro ⟨l', h, h'⟩
      cases h
      rw [h4] at h'
      exact .cons l n k p es rest h1 h2 h'

theorem takes_nil (t : Tokenizer α E) (map : α → Nat) (l rest : List α) : Takes t map l [] rest ↔ rest = l := by
  constructor
  · rintro ⟨it, h1, h2⟩
    cases h1
    rw [← h2, start_rest]
  · rintro rfl
    exact ⟨_, rfl, start_rest _⟩

/-- C87: patterns added at the end change nothing as long as they make no longer token at a place where a token begins; the first longer one is taken. -/
theorem c87_added (hparse : ParserOk parse) (hs1 : s1.Fair) (hc1 : Calm s1 parse ps) (hb1 : BuildsTo s1 parse ps (.ok (t1, ws1)))
    (hs2 : s2.Fair) (hc2 : Calm s2 parse qs) (hb2 : BuildsTo s2 parse qs (.ok (t2, ws2)))
    (hs : s.Fair) (hc : Calm s parse (ps ++ qs)) (hb : BuildsTo s parse (ps ++ qs) (.ok (t, ws))) (map : α → Nat) (l : List α) (es : List E) (rest : List α)
    (h : Takes t1 map l es rest)
    (ha : ∀ es1 e es2 l1 x, es = es1 ++ e :: es2 → Takes t1 map l es1 l1 → t1.first map l1 = some x → Ties x (t2.first map l1)) :
    Takes t map l es rest ∧
    (∀ x, t2.first map rest = some x → Beats x (t1.first map rest) → Takes t map l (es ++ [x.1]) x.2) := by
  induction es generalizing l with
  | nil =>
    rw [takes_nil] at h
    subst h
    refine ⟨(takes_nil _ _ _ _).2 rfl, fun x hx hbt => ?_⟩
    rw [List.nil_append, takes_cons hparse hs hb]
    refine ⟨x.2, ?_, (takes_nil _ _ _ _).2 rfl⟩
    rw [c87_first hparse hs1 hc1 hb1 hs2 hc2 hb2 hs hc hb, hx]
    generalize t1.first map rest = y at hbt
    cases y with
    | none => rfl
    | some y =>
      simp only [Beats] at hbt
      simp [longer, hbt]
  | cons e es ih =>
    obtain ⟨l', h1, h2⟩ := (takes_cons hparse hs1 hb1 map l e es rest).1 h
    have hti := ha [] e es l _ rfl ((takes_nil _ _ _ _).2 rfl) h1
    have hf : t.first map l = some (e, l') := by
      rw [c87_first hparse hs1 hc1 hb1 hs2 hc2 hb2 hs hc hb, h1]
      generalize t2.first map l = y at hti
      cases y with
      | none => rfl
      | some y =>
        simp only [Ties] at hti
        simp only [longer]
        rw [if_neg (by omega)]
    obtain ⟨g1, g2⟩ := ih l' h2 (fun es1 e' es2 l1 x he ht hx => ha (e :: es1) e' es2 l1 x (by rw [he]; rfl)
      ((takes_cons hparse hs1 hb1 map l e es1 l1).2 ⟨l', h1, ht⟩) hx)
    constructor
    · exact (takes_cons hparse hs hb map l e es rest).2 ⟨l', hf, g1⟩
    · intro x hx hbt
      exact (takes_cons hparse hs hb map l e _ x.2).2 ⟨l', hf, g2 x hx hbt⟩

/-- C87: whether a build succeeds depends on the patterns one by one. -/
theorem c87_builds (hparse : ParserOk parse) (hs1 : s1.Fair) (hs2 : s2.Fair) (hs : s.Fair) :
    (∃ t ws, BuildsTo s parse (ps ++ qs) (.ok (t, ws))) ↔
      (∃ t ws, BuildsTo s1 parse ps (.ok (t, ws))) ∧ ∃ t ws, BuildsTo s2 parse qs (.ok (t, ws)) := by
  rw [(c03_build_errors hparse hs (ps ++ qs)).2.2.1, (c03_build_errors hparse hs1 ps).2.2.1, (c03_build_errors hparse hs2 qs).2.2.1]
  simp only [List.mem_append]
  exact ⟨fun h => ⟨fun p hp => h p (.inl hp), fun p hp => h p (.inr hp)⟩, fun h p hp => hp.elim (h.1 p) (h.2 p)⟩

/-- C87: the warnings are those of the two tokenizers and one kind more: `(n + a, b)` if on some text `a` is the first of the new patterns to match and `b`
the last of the old ones. -/
theorem c87_warnings (hparse : ParserOk parse) (hs1 : s1.Fair) (hb1 : BuildsTo s1 parse ps (.ok (t1, ws1)))
    (hs2 : s2.Fair) (hb2 : BuildsTo s2 parse qs (.ok (t2, ws2))) (hs : s.Fair) (hb : BuildsTo s parse (ps ++ qs) (.ok (t, ws))) (a b : Nat) :
    (a < ps.length → ((a, b) ∈ ws ↔ (a, b) ∈ ws1)) ∧
    ((ps.length + a, ps.length + b) ∈ ws ↔ (a, b) ∈ ws2) ∧
    (b < ps.length → ((ps.length + a, b) ∈ ws ↔
      ∃ w, Least (PatCode parse qs) a w ∧ PatCode parse ps b w ∧ ∀ j, b < j → ¬ PatCode parse ps j w)) := by
  have e := (c41_warnings hparse hs hb).exact
  have e1 := (c41_warnings hparse hs1 hb1).exact
  have e2 := (c41_warnings hparse hs2 hb2).exact
  have left : ∀ {i w}, i < ps.length → PatCode parse (ps ++ qs) i w → PatCode parse ps i w := by
    intro i w hi h
    rcases patCode_append h with ⟨_, h⟩ | ⟨j, rfl, _⟩
    · exact h
    · omega
  refine ⟨fun ha => ?_, ?_, fun hb' => ?_⟩
  · rw [e, e1]
    constructor
    · rintro ⟨w, h1, h2, h3, h4⟩
      exact ⟨w, left ha h1, left (by omega) h2, h3, fun j hj hj' h => h4 j hj hj' (patCode_left h)⟩
    · rintro ⟨w, h1, h2, h3, h4⟩
      exact ⟨w, patCode_left h1, patCode_left h2, h3, fun j hj hj' h => h4 j hj hj' (left (by omega) h)⟩
  · rw [e, e2]
    constructor
    · rintro ⟨w, h1, h2, h3, h4⟩
      exact ⟨w, patCode_right.1 h1, patCode_right.1 h2, by omega, fun j hj hj' h => h4 (ps.length + j) (by omega) (by omega) (patCode_right.2 h)⟩
    · rintro ⟨w, h1, h2, h3, h4⟩
      refine ⟨w, patCode_right.2 h1, patCode_right.2 h2, by omega, fun j hj hj' h => ?_⟩
      rcases patCode_append h with ⟨hlt, _⟩ | ⟨j', rfl, hq⟩
      · omega
      · exact h4 j' (by omega) (by omega) hq
  · rw [e]
    constructor
    · rintro ⟨w, h1, h2, h3, h4⟩
      refine ⟨w, ⟨patCode_right.1 h1, fun j hj h => h4 (ps.length + j) (by omega) (by omega) (patCode_right.2 h)⟩, left hb' h2, fun j hj h => ?_⟩
      have := patCode_lt h
      exact h4 j hj (by omega) (patCode_left h)
    · rintro ⟨w, ⟨h1, h2⟩, h3, h4⟩
      refine ⟨w, patCode_right.2 h1, patCode_left h3, by omega, fun j hj hj' h => ?_⟩
      rcases patCode_append h with ⟨_, h⟩ | ⟨j', rfl, hq⟩
      · exact h4 j hj h
      · exact h2 j' (by omega) hq

/-! ## Examples -/

/-- What a build with `seeds0` makes of a text: the tokens of `collect`. -/
def cutBy (ps : List (Hir × (List Nat → List Nat → Nat × List Nat))) (input : List Nat) : Option (List (Nat × List Nat)) := (trial ps input).bind Prod.snd

/-- Letters and `a`: on `ab` the old pattern `[ab]+` wins, as it does on `a`, where both match; on `x` the new one is the only one that matches. -/
example : cutBy [numbered 0 (.rep .oneOrMore (.classU [(97, 98)]))] [97, 98, 97] = some [(0, [97, 98, 97])] ∧
    cutBy [numbered 1 ra, numbered 2 rx] [97, 98, 97] = some [(1, [97])] ∧
    cutBy [numbered 0 (.rep .oneOrMore (.classU [(97, 98)])), numbered 1 ra, numbered 2 rx] [97, 98, 97, 120, 97] =
      some [(0, [97, 98, 97]), (2, [120]), (0, [97])] ∧
    cutBy [numbered 1 ra, numbered 2 rx, numbered 0 (.rep .oneOrMore (.classU [(97, 98)]))] [97, 98, 97, 120, 97] =
      some [(0, [97, 98, 97]), (2, [120]), (1, [97])] := by
  refine ⟨?_, ?_, ?_, ?_⟩ <;> decide

/-- The hypotheses of `c87_first` hold for these patterns. -/
example : ∃ t1 ws1 t2 ws2 t ws, BuildsTo seeds0 parse0 [numbered 0 ra] (.ok (t1, ws1)) ∧ BuildsTo seeds0 parse0 [numbered 1 rb] (.ok (t2, ws2)) ∧
    BuildsTo seeds0 parse0 ([numbered 0 ra] ++ [numbered 1 rb]) (.ok (t, ws)) ∧
    Calm seeds0 parse0 [numbered 0 ra] ∧ Calm seeds0 parse0 [numbered 1 rb] ∧ Calm seeds0 parse0 ([numbered 0 ra] ++ [numbered 1 rb]) ∧
    t1.first id [98, 97] = none ∧ t2.first id [98, 97] = some ((1, [98]), [97]) ∧ t.first id [98, 97] = some ((1, [98]), [97]) := by
  refine ⟨_, _, _, _, _, _, ⟨50, rfl⟩, ⟨50, rfl⟩, ⟨50, rfl⟩, (calm0 _).2, (calm0 _).2, (calm0 _).2, ?_, ?_, ?_⟩ <;> decide

end Verif.Tok
