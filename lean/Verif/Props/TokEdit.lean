import Verif.Props.TokAhead
import Verif.Props.TokJoin
import Verif.Props.TokRead
import Verif.Props.TokOrder

/-!
# Property C95: what an edit of a text changes
-/

namespace Verif.Tok

variable {α E π ρ : Type} {parse : π → Except ρ Hir} {s : Seeds} {ps : List (π × (List Nat → List α → E))} {t : Tokenizer α E} {ws : List (Nat × Nat)}

/-! ## Lemmas -/

theorem not_stuck_of_accepts {u v : List Nat} {k : Nat} (h : t.accepts (u ++ v) = some k) : ¬ t.stuck u := by
  intro hst
  have : t.accepts (u ++ v) = none := by
    simp only [Tokenizer.accepts, DFA.obs, DFA.run_append, show t.dfa.run t.dfa.b u = none from hst]
    rfl
  rw [h] at this
  cases this

/-- The first token, and what is left. -/
theorem Tokens.first {M : Nat → List Nat → Prop} {map : α → Nat} {l : List α} {e : E} {es : List E} {rest : List α} (h : Tokens M ps map l (e :: es) rest) :
    ∃ n k, NextToken M map l n k ∧ Tokens M ps map (l.drop n) es rest := by
  generalize hx : e :: es = xs at h
  cases h with
  | nil => cases hx
  | cons _ n k p xs _ a1 a2 a3 => cases hx; exact ⟨n, k, a1, a3⟩

/-- Where blanks and other characters meet, a token ends. -/
theorem Tokens.border {M : Nat → List Nat → Prop} {map : α → Nat} {B : Nat → Bool} (hu : ∀ k (w : List α), M k (w.map map) → (∀ x ∈ w, B (map x) = true) ∨ ∀ x ∈ w, B (map x) = false)
    {l : List α} {es : List E} {rest : List α} (h : Tokens M ps map l es rest) : ∀ (x : List α) (c d : α) (y : List α), l = x ++ [c] ++ d :: y → B (map c) ≠ B (map d) →
    rest.length ≤ (d :: y).length → ∃ es1 es2, es = es1 ++ es2 ∧ Tokens M ps map l es1 (d :: y) ∧ Tokens M ps map (d :: y) es2 rest := by
  induction h with
  | nil l =>
    intro x c d y hl _ hlen
    rw [hl] at hlen
    simp at hlen
    omega
  | cons l n k p es rest h1 h2 h3 ih =>
    intro x c d y hl hcd hlen
    rcases Nat.lt_trichotomy n (x.length + 1) with hn | hn | hn
    · obtain ⟨es1, es2, rfl, g1, g2⟩ := ih (x.drop n) c d y (by rw [hl, List.append_assoc, List.drop_append_of_le_length (by omega)]; simp) hcd hlen
      exact ⟨_ :: es1, es2, rfl, .cons l n k p es1 _ h1 h2 g1, g2⟩
    · have hd : l.drop n = d :: y := by
        rw [hl, List.drop_left' (by simp [hn])]
      rw [hd] at h3
      exact ⟨[_], es, rfl, .cons l n k p [] _ h1 h2 (by rw [hd]; exact .nil _), h3⟩
    · exfalso
      have hm := hu k (l.take n) h1.2.1
      have hl2 : l.take n = x ++ [c] ++ (d :: y).take (n - (x.length + 1)) := by
        rw [hl, List.take_append, List.take_of_length_le (by simp; omega)]
        simp
      obtain ⟨m, hm'⟩ : ∃ m, n - (x.length + 1) = m + 1 := ⟨n - (x.length + 1) - 1, by omega⟩
      rw [hm', List.take_succ_cons] at hl2
      rw [hl2] at hm
      rcases hm with hm | hm
      · exact hcd (by rw [hm c (by simp), hm d (by simp)])
      · exact hcd (by rw [hm c (by simp), hm d (by simp)])

/-! ## C95 -/

/-- C95: an edit does not change the tokens that end more than `K` characters before it, if the tokenizer looks at most `K` characters ahead (C90). -/
theorem c95_before (hparse : ParserOk parse) (hs : s.Fair) (hb : BuildsTo s parse ps (.ok (t, ws))) (K : Nat) (hK : t.Ahead K) (map : α → Nat)
    (a r b b' : List α) (hr : K < r.length) (ht : ∀ x ∈ a ++ r, IsChar (map x)) (es : List E) (h : Takes t map (a ++ r ++ b) es (r ++ b)) :
    Takes t map (a ++ r ++ b') es (r ++ b') := by
  rw [takes_iff hparse hs hb] at h ⊢
  have hcut : Tokens (Acc' t) ps map (a ++ r) es r := h.cut rfl rfl
  refine hcut.join ?_
  rintro es1 e es2 rest1 rfl h1 b0 _ _ k hk
  obtain ⟨mid, g1, g2⟩ := hcut.split
  obtain rfl := g1.det h1
  obtain ⟨n, j, g3, g4⟩ := g2.first
  obtain ⟨d, hd⟩ := g4.suffix
  obtain ⟨c, hc⟩ := g1.suffix
  have hn := g3.1
  have hlen : mid.length - n = d.length + r.length := by
    have := congrArg List.length hd
    simpa using this
  have hx := hK (((mid.take n)).map map) ((mid.drop n).map map) j ?_ g3.2.1 ?_ ?_
  · simp only [List.length_map, List.length_drop] at hx
    omega
  · rw [← List.map_append, List.take_append_drop]
    intro y hy
    obtain ⟨z, hz, rfl⟩ := List.mem_map.1 hy
    exact ht z (by rw [hc]; simp [hz])
  · intro y z hyz hy
    have hyl : y.length + z.length = mid.length - n := by
      have := congrArg List.length hyz
      simp at this
      omega
    have hmid : (mid.take n).map map ++ y = (mid.take (n + y.length)).map map := by
      have : y = ((mid.drop n).take y.length).map map := by
        rw [List.map_take, hyz]
        simp
      rw [List.take_add, List.map_append]
      exact congrArg _ this
    rw [hmid]
    cases ha : t.accepts ((mid.take (n + y.length)).map map) with
    | none => rfl
    | some i => exact absurd ha (g3.2.2.2 (n + y.length) (by have := List.length_pos_iff.2 hy; omega) (by omega) i)
  · rw [← List.map_append, List.take_append_drop]
    rw [List.map_append] at hk
    exact not_stuck_of_accepts hk

/-- C95: and no smaller number will do: if the tokenizer looks further ahead, then some text has a token that changes when something is added more than `K` characters behind it
(for patterns without empty character classes). -/
theorem c95_sharp (hparse : ParserOk parse) (hs : s.Fair) (hc : Calm s parse ps) (hl : PatsLive parse ps) (hne : ps ≠ [])
    (hb : BuildsTo s parse ps (.ok (t, ws))) (K : Nat) (hK : ¬ t.Ahead K) :
    ∃ u x z, K < x.length ∧ IsText (u ++ x ++ z) ∧ ∀ (map : α → Nat) (a r b : List α), a.map map = u → r.map map = x → b.map map = z →
      (∃ e, Takes t map (a ++ r) [e] r) ∧ ¬ ∃ e, Takes t map (a ++ r ++ b) [e] (r ++ b) := by
  simp only [Tokenizer.Ahead, Classical.not_forall, Nat.not_le] at hK
  obtain ⟨u, x, k, h1, h2, h3, h4, h5⟩ := hK
  rw [stuck_iff_viable hparse hs hc hl hne hb, Classical.not_not] at h4
  obtain ⟨z, j, h6, h7⟩ := h4
  obtain ⟨j', h8⟩ : ∃ j', t.accepts (u ++ x ++ z) = some j' := by
    cases ha : t.accepts (u ++ x ++ z) with
    | some j' => exact ⟨j', rfl⟩
    | none => exact absurd h7 ((c41_translated_language hparse hs hc hb _).2.1 ha j)
  refine ⟨u, x, z, h5, ?_, ?_⟩
  · intro y hy
    rcases List.mem_append.1 hy with hy | hy
    · exact h1 y hy
    · exact h6 y hy
  · rintro map a r b rfl rfl rfl
    have hlt : k < ps.length := accepts_lt hparse hs hc hb h2
    constructor
    · refine ⟨_, (takes_iff hparse hs hb map _ _ _).2 (.cons (a ++ r) a.length k ps[k] [] _ ⟨by simp, ?_, ?_, ?_⟩ (List.getElem?_eq_getElem hlt) ?_)⟩
      · rw [List.take_left' rfl]
        exact h2
      · intro i hi hacc
        rw [List.take_left' rfl] at hacc
        have : some k = some i := h2.symm.trans hacc
        cases this
        omega
      · intro m hm hm' i hacc
        have e : ((a ++ r).take m).map map = a.map map ++ (r.take (m - a.length)).map map := by
          rw [List.take_append, List.take_of_length_le (by omega), List.map_append]
        rw [e] at hacc
        have hm2 : m ≤ a.length + r.length := by simpa using hm'
        have := h3 ((r.take (m - a.length)).map map) ((r.drop (m - a.length)).map map) (by rw [← List.map_append, List.take_append_drop]) (by
          intro he
          have := congrArg List.length he
          rw [List.length_map, List.length_take, List.length_nil] at this
          omega)
        have hacc : t.accepts _ = some i := hacc
        rw [this] at hacc
        cases hacc
      · rw [List.drop_left' rfl]
        exact .nil _
    · rintro ⟨e, h⟩
      rw [takes_iff hparse hs hb] at h
      obtain ⟨n, i, g1, g2⟩ := h.first
      generalize hes : ([] : List E) = es0 at g2
      have hd : (a ++ r ++ b).drop n = r ++ b := by
        generalize (a ++ r ++ b).drop n = l0 at g2
        generalize r ++ b = l1 at g2
        cases g2 with
        | nil => rfl
        | cons => cases hes
      have hn : n ≤ a.length := by
        have := congrArg List.length hd
        have := g1.1
        simp at *
        omega
      have h5' : K < r.length := by simpa using h5
      refine g1.2.2.2 (a ++ r ++ b).length ?_ (Nat.le_refl _) j' ?_
      · rw [List.length_append, List.length_append]
        omega
      · rw [List.take_length]
        simpa [Acc'] using h8

/-- C95: where a blank and another character meet, a token ends, if tokens consist of blanks or have none in them; so behind that place an edit before it changes nothing. -/
theorem c95_border (hparse : ParserOk parse) (hs : s.Fair) (hb : BuildsTo s parse ps (.ok (t, ws))) (map : α → Nat) (B : Nat → Bool)
    (hu : ∀ w, OneToken t map w → (∀ x ∈ w, B (map x) = true) ∨ ∀ x ∈ w, B (map x) = false)
    (x x' : List α) (c d : α) (y : List α) (hcd : B (map c) ≠ B (map d)) (es es' : List E) (rest rest' : List α)
    (h : Takes t map (x ++ [c] ++ d :: y) es rest) (h' : Takes t map (x' ++ [c] ++ d :: y) es' rest') (hr : rest.length ≤ (d :: y).length) (hr' : rest'.length ≤ (d :: y).length) :
    ∃ es1 es2 es1' es2', es = es1 ++ es2 ∧ es' = es1' ++ es2' ∧ Takes t map (x ++ [c] ++ d :: y) es1 (d :: y) ∧ Takes t map (x' ++ [c] ++ d :: y) es1' (d :: y) ∧
      ∀ n, (t.calls map (es1.length + n) (It.start (x ++ [c] ++ d :: y))).1.drop es1.length = (t.calls map (es1'.length + n) (It.start (x' ++ [c] ++ d :: y))).1.drop es1'.length := by
  have hu' : ∀ k (w : List α), Acc' t k (w.map map) → (∀ x ∈ w, B (map x) = true) ∨ ∀ x ∈ w, B (map x) = false :=
    fun k w hk => hu w ((oneToken_iff hparse hs hb map w).2 ⟨k, hk⟩)
  rw [takes_iff hparse hs hb] at h h'
  obtain ⟨es1, es2, e1, g1, _⟩ := h.border hu' x c d y rfl hcd hr
  obtain ⟨es1', es2', e1', g1', _⟩ := h'.border hu' x' c d y rfl hcd hr'
  rw [← takes_iff hparse hs hb] at g1 g1'
  exact ⟨es1, es2, es1', es2', e1, e1', g1, g1', fun n => c60_resync hparse hs hb map (x ++ [c]) (x' ++ [c]) (d :: y) es1 es1' g1 g1' n⟩

/-! ## Examples -/

/-- `a+` and line ends: no look-ahead; an edit two characters behind a token does not change it. -/
example : lineTok.Ahead 0 ∧ Takes lineTok id ([97] ++ [10] ++ [97]) [(0, [97])] ([10] ++ [97]) :=
  ⟨(c90_check parse0_ok seeds0_fair lineTok_builds 0).1 rfl, ⟨_, rfl, rfl⟩⟩

/-- The character directly behind a token matters: `a` becomes `aa`. -/
example : Takes lineTok id ([97] ++ [] ++ [10]) [(0, [97])] ([] ++ [10]) ∧ ¬ Takes lineTok id ([97] ++ [] ++ [97]) [(0, [97])] ([] ++ [97]) := by
  refine ⟨⟨_, rfl, rfl⟩, ?_⟩
  rintro ⟨it, h, _⟩
  have h : (lineTok.calls id 1 (It.start [97, 97])).1 = [.token (0, [97])] := congrArg Prod.fst h
  revert h
  decide

theorem lineTok_next {q c m : Nat} (h : lineTok.dfa.next q c = some m) : m ≠ 0 := by
  rw [DFA.next, Option.bind_eq_some_iff] at h
  obtain ⟨r, h1, h2⟩ := h
  have hwf := built_wf parse0_ok seeds0_fair lineTok_builds
  obtain ⟨lo, hi, h3, h4⟩ := (nextInRow_iff (hwf.rows r (List.mem_of_getElem? h1))).1 h2
  rintro rfl
  match q with
  | 0 => cases h1; simp at h3
  | 1 => cases h1; simp at h3
  | 2 => cases h1; simp at h3
  | q + 3 => cases h1

/-- The hypotheses of `c95_border` are met: `a` and `aaa` before a line end and `aa`. -/
example : (∀ w, OneToken lineTok id w → (∀ x ∈ w, (x == 10) = true) ∨ ∀ x ∈ w, (x == 10) = false) ∧
    Takes lineTok id ([] ++ [97] ++ 10 :: [97, 97]) [(0, [97]), (1, [10]), (0, [97, 97])] [] ∧
    Takes lineTok id ([97, 97] ++ [97] ++ 10 :: [97, 97]) [(0, [97, 97, 97]), (1, [10]), (0, [97, 97])] [] := by
  refine ⟨?_, ⟨_, rfl, rfl⟩, ⟨_, rfl, rfl⟩⟩
  intro w hw
  by_cases h10 : 10 ∈ w
  · obtain ⟨u, v, rfl⟩ := List.append_of_mem h10
    cases v with
    | cons y v => exact absurd hw (lineTok_sep u (y :: v) (by simp))
    | nil =>
      cases u with
      | nil => left; simp
      | cons y u =>
        exfalso
        rw [oneToken_iff parse0_ok seeds0_fair lineTok_builds] at hw
        obtain ⟨k, hk⟩ := hw
        have hrun : lineTok.dfa.run 0 (y :: u ++ [10]) = none := by
          have key : ∀ (u : List Nat) q m, q ≠ 0 → lineTok.dfa.run q u = some m → m ≠ 0 := by
            intro u
            induction u with
            | nil => intro q m hq h; cases h; exact hq
            | cons z u ih =>
              intro q m hq h
              rw [DFA.run, Option.bind_eq_some_iff] at h
              obtain ⟨q', h1, h2⟩ := h
              exact ih q' m (lineTok_next h1) h2
          rw [DFA.run_append]
          cases h : lineTok.dfa.run 0 (y :: u) with
          | none => rfl
          | some m =>
            rw [DFA.run, Option.bind_eq_some_iff] at h
            obtain ⟨q', h1, h2⟩ := h
            have hm := key u q' m (lineTok_next h1) h2
            match m with
            | 0 => exact absurd rfl hm
            | 1 => rfl
            | 2 => rfl
            | m + 3 => rfl
        have : lineTok.accepts (List.map id (y :: u ++ [10])) = none := by
          rw [List.map_id, Tokenizer.accepts, DFA.obs, show lineTok.dfa.b = 0 from rfl, hrun]
          rfl
        rw [Acc', this] at hk
        cases hk
  · right
    intro x hx
    simp only [beq_eq_false_iff_ne, ne_eq]
    rintro rfl
    exact h10 hx

end Verif.Tok
