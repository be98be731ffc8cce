import Verif.Tok.SpecProof

/-!
# Properties C10 - C17: the token iterator

All hold for every built tokenizer, whatever the hash seeds (also with collisions in the minimiser); "matches" is
therefore `Tokenizer.accepts`, related to the regular languages by C01, C02 and C04 (combined in C19).
`it : It α` is any state of the iterator, so "all call histories" is included; `It.rest` are the items not yet consumed.
-/

namespace Verif.Tok

variable {π ρ α E : Type} {parse : π → Except ρ Hir} {s : Seeds} {ps : List (π × (List Nat → List α → E))}
  {t : Tokenizer α E} {ws : List (Nat × Nat)}

/-- The items not yet consumed. -/
def It.rest (it : It α) : List α := it.queue ++ it.src

/-- After `w` the tables allow no further step. -/
def Tokenizer.stuck (t : Tokenizer α E) (w : List Nat) : Prop := t.dfa.run t.dfa.b w = none

theorem acc_iff (w : List Nat) (k : Nat) : t.dfa.Acc k w ↔ t.accepts w = some k := by
  unfold DFA.Acc Tokenizer.accepts
  cases t.dfa.obs w <;> simp

theorem acc_none_iff (w : List Nat) : (∀ k, ¬ t.dfa.Acc k w) ↔ t.accepts w = none := by
  simp only [acc_iff]
  cases t.accepts w <;> simp

theorem stuck_iff (w : List Nat) : t.stuck w ↔ t.dfa.obs w = none := by
  unfold Tokenizer.stuck DFA.obs
  simp

/-- One call of `next`, for a built tokenizer. -/
theorem next_built (map : α → Nat) (hparse : ParserOk parse) (hs : s.Fair) (hb : BuildsTo s parse ps (.ok (t, ws))) (it : It α) :
    ∃ r, r ≤ it.rest.length ∧ (∀ m < r, ¬ t.stuck ((it.rest.map map).take m)) ∧
      (r = it.rest.length ∨ t.stuck ((it.rest.map map).take r)) ∧
      (t.next map it).2.src = it.src.drop (r - it.queue.length) ∧
      (((t.next map it).1 = .none ∧ (t.next map it).2.rest = it.rest.drop r ∧
          ∀ n, t.accepts ((it.rest.map map).take n) = none) ∨
       (∃ (n k : Nat) (p : π × (List Nat → List α → E)), n ≤ it.rest.length ∧ n ≤ r ∧ ps[k]? = some p ∧ t.accepts ((it.rest.map map).take n) = some k ∧
          (∀ m, n < m → m ≤ it.rest.length → t.accepts ((it.rest.map map).take m) = none) ∧
          (t.next map it).1 = .token (p.2 ((it.rest.map map).take n) (it.rest.take n)) ∧
          (t.next map it).2.rest = it.rest.drop n)) := by
  obtain ⟨hirs, h1, h2, h3, h4⟩ := builds_spec hparse hs hb
  obtain ⟨r, ⟨a1, a2, a3⟩, a4, a5⟩ := next_spec (t := t) (map := map) (by rw [h4.maker]; simpa [h3] using h4.wf) it
  rw [List.length_map] at a1 a3
  refine ⟨r, a1, fun m hm h => a2 m hm ((stuck_iff _).1 h), a3.imp id (stuck_iff _).2, a4, ?_⟩
  rcases a5 with ⟨b1, b2, b3⟩ | ⟨n, k, f, b1, b2, b3, b4, b5, b6⟩
  · left
    refine ⟨b1, ?_, fun n => (acc_none_iff _).1 (b3 n)⟩
    unfold It.rest
    rw [b2, a4, List.drop_append]
  · right
    rw [h4.maker, List.getElem?_map, Option.map_eq_some_iff] at b2
    obtain ⟨p, hp, rfl⟩ := b2
    exact ⟨n, k, p, Nat.le_trans b1 a1, b1, hp, (acc_iff _ _).1 b3, fun m hm hm' => (acc_none_iff _).1 (b4 m hm hm'), b5, b6⟩

/-! ## C10 -/

/-- C10: a token covers the longest accepted prefix of the remaining items and is made by the callback of the accepting
pattern; conversely, if some prefix is accepted, a token is returned. -/
theorem c10_longest_match (hparse : ParserOk parse) (hs : s.Fair) (hb : BuildsTo s parse ps (.ok (t, ws)))
    (map : α → Nat) (it : It α) :
    (∀ e it', t.next map it = (.token e, it') →
      ∃ (n k : Nat) (p : π × (List Nat → List α → E)), n ≤ it.rest.length ∧ t.accepts ((it.rest.take n).map map) = some k ∧
        (∀ m, n < m → m ≤ it.rest.length → t.accepts ((it.rest.take m).map map) = none) ∧
        ps[k]? = some p ∧ e = p.2 ((it.rest.take n).map map) (it.rest.take n) ∧ it'.rest = it.rest.drop n) ∧
    ((∃ n k, t.accepts ((it.rest.take n).map map) = some k) → ∃ e it', t.next map it = (.token e, it')) := by
  obtain ⟨r, _, _, _, _, h | ⟨n, k, p, h0, _, h1, h2, h3, h4, h5⟩⟩ := next_built map hparse hs hb it
  · constructor
    · intro e it' he
      rw [he] at h
      simp at h
    · rintro ⟨n, k, hk⟩
      rw [List.map_take, h.2.2 n] at hk
      cases hk
  · simp only [List.map_take]
    constructor
    · intro e it' he
      rw [he] at h4 h5
      refine ⟨n, k, p, h0, h2, h3, h1, ?_, h5⟩
      cases h4
      rfl
    · intro _
      exact ⟨_, _, Prod.ext h4 rfl⟩

/-- `a`, `ab+`: on `abbc` the token is `abb`, by pattern 1. -/
example : (tok0 seeds0 [ra, .concat [ra, .rep .oneOrMore rb]]).map (fun r => r.1.next id ⟨[], [97, 98, 98, 99]⟩) =
    some (.token (1, [97, 98, 98]), ⟨[99], []⟩) := by decide

/-! ## C11, C12 -/

/-- C11 and C12 for `n` calls of `next` starting with the input: the input is the concatenation of one segment per call
and the items not yet consumed; a call that returns a token applied the callback of the pattern accepting the
characters of its segment to these characters and this segment. -/
theorem c11_nothing_lost (hparse : ParserOk parse) (hs : s.Fair) (hb : BuildsTo s parse ps (.ok (t, ws)))
    (map : α → Nat) (input : List α) (n : Nat) :
    ∃ segs : List (List α), segs.length = n ∧ (t.calls map n (It.start input)).1.length = n ∧
      input = segs.flatten ++ (t.calls map n (It.start input)).2.rest ∧
      ∀ (j : Nat) (seg : List α) (o : Out E), segs[j]? = some seg → (t.calls map n (It.start input)).1[j]? = some o →
        o = .none ∨ ∃ (k : Nat) (p : π × (List Nat → List α → E)), t.accepts (seg.map map) = some k ∧ ps[k]? = some p ∧
          o = .token (p.2 (seg.map map) seg) := by
  have key : ∀ (n : Nat) (it : It α), ∃ segs : List (List α), segs.length = n ∧ (t.calls map n it).1.length = n ∧
      it.rest = segs.flatten ++ (t.calls map n it).2.rest ∧
      ∀ (j : Nat) (seg : List α) (o : Out E), segs[j]? = some seg → (t.calls map n it).1[j]? = some o →
        o = .none ∨ ∃ (k : Nat) (p : π × (List Nat → List α → E)), t.accepts (seg.map map) = some k ∧ ps[k]? = some p ∧
          o = .token (p.2 (seg.map map) seg) := by
    intro n
    induction n with
    | zero => intro it; exact ⟨[], rfl, rfl, rfl, by simp⟩
    | succ n ih =>
      intro it
      obtain ⟨segs, i1, i2, i3, i4⟩ := ih (t.next map it).2
      have hc : t.calls map (n + 1) it = ((t.next map it).1 :: (t.calls map n (t.next map it).2).1, (t.calls map n (t.next map it).2).2) := rfl
      rw [hc]
      obtain ⟨r, _, _, _, _, h | ⟨m, k, p, h0, _, h1, h2, h3, h4, h5⟩⟩ := next_built map hparse hs hb it
      · refine ⟨it.rest.take r :: segs, by simp [i1], by simp [i2], ?_, ?_⟩
        · rw [List.flatten_cons, List.append_assoc, ← i3, h.2.1, List.take_append_drop]
        · intro j seg o hj ho
          cases j with
          | zero => left; simp at ho; rw [← ho, h.1]
          | succ j => exact i4 j seg o (by simpa using hj) (by simpa using ho)
      · refine ⟨it.rest.take m :: segs, by simp [i1], by simp [i2], ?_, ?_⟩
        · rw [List.flatten_cons, List.append_assoc, ← i3, h5, List.take_append_drop]
        · intro j seg o hj ho
          cases j with
          | zero =>
            right
            simp at ho hj
            subst hj
            rw [List.map_take]
            exact ⟨k, p, h2, h1, by rw [← ho, h4]⟩
          | succ j => exact i4 j seg o (by simpa using hj) (by simpa using ho)
  exact key n (It.start input)

/-- C12: the callback gets the characters of the items it gets, and is the one registered for their accept index. -/
theorem c12_callback_arguments (hparse : ParserOk parse) (hs : s.Fair) (hb : BuildsTo s parse ps (.ok (t, ws)))
    (map : α → Nat) (it : It α) (e : E) (it' : It α) (he : t.next map it = (.token e, it')) :
    ∃ (items : List α) (k : Nat) (p : π × (List Nat → List α → E)), it.rest = items ++ it'.rest ∧
      t.accepts (items.map map) = some k ∧ ps[k]? = some p ∧ e = p.2 (items.map map) items := by
  obtain ⟨n, k, p, _, h1, _, h3, h4, h5⟩ := (c10_longest_match hparse hs hb map it).1 e it' he
  exact ⟨_, k, p, by rw [h5, List.take_append_drop], h1, h3, h4⟩

/-- Three calls on `abca` for `a`, `b+`: `a`, `b`, then `c` is discarded; a fourth call goes on with `a`. -/
example : (tok0 seeds0 [ra, .rep .oneOrMore rb]).map (fun r => r.1.calls id 4 (It.start [97, 98, 99, 97])) =
    some ([.token (0, [97]), .token (1, [98]), .none, .token (0, [97])], ⟨[], []⟩) := by decide

/-! ## C13 -/

/-- C13: if the empty string is not accepted, tokens are not empty, and collecting the tokens of `n` items ends with at
most `n` tokens. -/
theorem c13_terminates (hparse : ParserOk parse) (hs : s.Fair) (hb : BuildsTo s parse ps (.ok (t, ws)))
    (h0 : t.accepts [] = none) (map : α → Nat) :
    (∀ it e it', t.next map it = (.token e, it') → it'.rest.length < it.rest.length) ∧
    ∀ input : List α, ∃ es it', t.collect map (input.length + 1) (It.start input) = some (es, it') ∧ es.length ≤ input.length := by
  have h1 : ∀ it e it', t.next map it = (.token e, it') → it'.rest.length < it.rest.length := by
    intro it e it' he
    obtain ⟨n, k, p, hn, ha, _, _, _, hr⟩ := (c10_longest_match hparse hs hb map it).1 e it' he
    have hpos : n ≠ 0 := by
      rintro rfl
      simp [h0] at ha
    rw [hr, List.length_drop]
    omega
  refine ⟨h1, ?_⟩
  have key : ∀ (n : Nat) (it : It α), it.rest.length ≤ n → ∃ es it', t.collect map (n + 1) it = some (es, it') ∧ es.length ≤ n := by
    intro n
    induction n with
    | zero =>
      intro it hl
      cases hn : t.next map it with
      | mk o it' =>
        cases o with
        | token e => have := h1 it e it' hn; omega
        | none => exact ⟨[], it', by simp [Tokenizer.collect, hn], by simp⟩
        | panic => exact ⟨[], it', by simp [Tokenizer.collect, hn], by simp⟩
    | succ n ih =>
      intro it hl
      cases hn : t.next map it with
      | mk o it' =>
        cases o with
        | token e =>
          have := h1 it e it' hn
          obtain ⟨es, it'', h2, h3⟩ := ih it' (by omega)
          refine ⟨e :: es, it'', ?_, by simpa using h3⟩
          rw [Tokenizer.collect, hn]
          simp only [h2, Option.map_some]
        | none => exact ⟨[], it', by simp [Tokenizer.collect, hn], by simp⟩
        | panic => exact ⟨[], it', by simp [Tokenizer.collect, hn], by simp⟩
  intro input
  exact key input.length (It.start input) (by simp [It.rest, It.start])

example : acc0 seeds0 [ra, .rep .oneOrMore rb] [] = some none := by decide

/-! ## C14 -/

/-- C14: if the empty string is accepted, every call of `next` returns a token, and collecting never ends. -/
theorem c14_endless (hparse : ParserOk parse) (hs : s.Fair) (hb : BuildsTo s parse ps (.ok (t, ws)))
    (k : Nat) (h0 : t.accepts [] = some k) (map : α → Nat) :
    (∀ it, ∃ e it', t.next map it = (.token e, it')) ∧ (∀ fuel it, t.collect map fuel it = none) := by
  have h1 : ∀ it, ∃ e it', t.next map it = (.token e, it') :=
    fun it => (c10_longest_match hparse hs hb map it).2 ⟨0, k, by simpa using h0⟩
  refine ⟨h1, ?_⟩
  intro fuel
  induction fuel with
  | zero => intro it; rfl
  | succ n ih =>
    intro it
    obtain ⟨e, it', he⟩ := h1 it
    rw [Tokenizer.collect, he]
    simp only [ih, Option.map_none]

/-- A pattern whose regular language contains the empty string is enough (absent collisions). -/
theorem c14_endless_lang (hparse : ParserOk parse) (hs : s.Fair) (hc : Calm s parse ps) (hb : BuildsTo s parse ps (.ok (t, ws)))
    (i : Nat) (h0 : PatLang parse ps i []) (map : α → Nat) :
    (∀ it, ∃ e it', t.next map it = (.token e, it')) ∧ (∀ fuel it, t.collect map fuel it = none) := by
  obtain ⟨hirs, h1, h2, h3, h4⟩ := builds_spec hparse hs.calm ((hc _).1 hb)
  obtain ⟨tn, d, h5, _⟩ := h4.dfa
  have hown := patLang_own h1 h5 h2 h0
  obtain ⟨k, hk1, hk2⟩ := least_of_some (P := fun j => OwnAt hirs j []) ⟨i, hown⟩
  exact c14_endless hparse hs hb k ((accepts_iff h4 s.calm_noCollision [] k).2 ⟨hk1, hk2⟩) map

/-- `b*` on the input `a`: empty tokens for ever. -/
example : (tok0 seeds0 [.rep .zeroOrMore rb]).map (fun r => (r.1.accepts [], (r.1.calls id 3 (It.start [97])).1)) =
    some (some 0, [.token (0, []), .token (0, []), .token (0, [])]) := by decide

/-! ## C15 -/

/-- C15: `None` is returned exactly if no prefix is accepted; discarded is then the shortest prefix on which the tables
are stuck, or everything if there is none. -/
theorem c15_none (hparse : ParserOk parse) (hs : s.Fair) (hb : BuildsTo s parse ps (.ok (t, ws)))
    (map : α → Nat) (it : It α) :
    ((t.next map it).1 = .none ↔ ∀ n, t.accepts ((it.rest.take n).map map) = none) ∧
    ((t.next map it).1 = .none → ∃ gone, it.rest = gone ++ (t.next map it).2.rest ∧
      (∀ m < gone.length, ¬ t.stuck ((gone.take m).map map)) ∧
      (t.stuck (gone.map map) ∨ ((t.next map it).2.rest = [] ∧ ¬ t.stuck (gone.map map)))) := by
  obtain ⟨r, h1, h2, h3, h4, ⟨a1, a2, a3⟩ | ⟨n, k, p, b0, b1, b2, b3, b4, b5, b6⟩⟩ := next_built map hparse hs hb it
  · refine ⟨⟨fun _ n => by rw [List.map_take]; exact a3 n, fun _ => a1⟩, fun _ => ?_⟩
    refine ⟨it.rest.take r, by rw [a2, List.take_append_drop], ?_, ?_⟩
    · intro m hm
      rw [List.length_take] at hm
      rw [List.take_take, Nat.min_eq_left (by omega), List.map_take]
      exact h2 m (by omega)
    · by_cases hst : t.stuck ((it.rest.take r).map map)
      · exact Or.inl hst
      · refine Or.inr ⟨?_, hst⟩
        rcases h3 with h3 | h3
        · rw [a2, h3, List.drop_length]
        · rw [List.map_take] at hst; exact absurd h3 hst
  · constructor
    · constructor
      · intro h; rw [b5] at h; cases h
      · intro h
        have := h n
        rw [List.map_take, b3] at this
        cases this
    · intro h; rw [b5] at h; cases h

/-- `abc` on `abd`: `None`, and `abd` is gone, though `abd` was never given to a callback. -/
example : (tok0 seeds0 [.concat [ra, rb, .literalU 99], .literalU 100]).map (fun r => r.1.next id (It.start [97, 98, 100])) =
    some (.none, ⟨[], []⟩) := by decide

/-! ## C16 -/

/-- C16: let `p` be the number of items one call pulls from the source.  If `p > 0`, the tables were not stuck on what had
been read before the last of them; if something is left in the source and at least the queue was read up, they are stuck
after the last item. -/
theorem c16_bounded_reading (hparse : ParserOk parse) (hs : s.Fair) (hb : BuildsTo s parse ps (.ok (t, ws)))
    (map : α → Nat) (it : It α) :
    ∃ pulled, it.src = pulled ++ (t.next map it).2.src ∧
      (∀ before x, pulled = before ++ [x] → ¬ t.stuck ((it.queue ++ before).map map)) ∧
      ((t.next map it).2.src ≠ [] → ∃ m, m ≤ (it.queue ++ pulled).length ∧ t.stuck (((it.queue ++ pulled).take m).map map)) := by
  obtain ⟨r, h1, h2, h3, h4, _⟩ := next_built map hparse hs hb it
  have hrl : it.rest.length = it.queue.length + it.src.length := by simp [It.rest]
  refine ⟨it.src.take (r - it.queue.length), by rw [h4, List.take_append_drop], ?_, ?_⟩
  · intro before x hx
    have hlen : before.length + 1 = min (r - it.queue.length) it.src.length := by
      have := congrArg List.length hx
      simpa using this.symm
    have hb1 : before = it.src.take before.length := by
      have : before = (it.src.take (r - it.queue.length)).take before.length := by rw [hx]; simp
      rwa [List.take_take, Nat.min_eq_left (by omega)] at this
    have : it.queue ++ before = it.rest.take (it.queue.length + before.length) := by
      unfold It.rest
      rw [List.take_append, List.take_of_length_le (by omega), Nat.add_sub_cancel_left, ← hb1]
    rw [this, List.map_take]
    exact h2 _ (by omega)
  · intro hne
    have hlt : r - it.queue.length < it.src.length := by
      apply Nat.lt_of_not_le
      intro hle
      rw [h4, List.drop_eq_nil_iff.2 hle] at hne
      exact hne rfl
    rcases h3 with h3 | h3
    · omega
    · refine ⟨r, ?_, ?_⟩
      · simp; omega
      · have : (it.queue ++ it.src.take (r - it.queue.length)).take r = it.rest.take r := by
          unfold It.rest
          rw [List.take_append, List.take_append, List.take_take, Nat.min_self]
        rw [this, List.map_take]
        exact h3

/-- `ab` on `aca…`: two items are read. -/
example : (tok0 seeds0 [.concat [ra, rb]]).map (fun r => (r.1.next id (It.start [97, 99, 97, 98])).2) = some ⟨[], [97, 98]⟩ := by decide

/-! ## C17 -/

/-- C17: if every single character is accepted and the empty string is not, collecting the tokens consumes the whole
input: it is the concatenation of the segments given to the callbacks. -/
theorem c17_catch_all (hparse : ParserOk parse) (hs : s.Fair) (hb : BuildsTo s parse ps (.ok (t, ws)))
    (map : α → Nat) (h0 : t.accepts [] = none) (input : List α) (h1 : ∀ x ∈ input, ∃ k, t.accepts [map x] = some k) :
    ∃ es it' segs, t.collect map (input.length + 1) (It.start input) = some (es, it') ∧ it'.rest = [] ∧
      input = List.flatten segs ∧ segs.length = es.length ∧
      ∀ (j : Nat) (seg : List α) (e : E), segs[j]? = some seg → es[j]? = some e →
        seg ≠ [] ∧ ∃ (k : Nat) (p : π × (List Nat → List α → E)), t.accepts (seg.map map) = some k ∧ ps[k]? = some p ∧
          e = p.2 (seg.map map) seg := by
  have key : ∀ (n : Nat) (it : It α), it.rest.length ≤ n → (∀ x ∈ it.rest, ∃ k, t.accepts [map x] = some k) →
      ∃ es it' segs, t.collect map (n + 1) it = some (es, it') ∧ it'.rest = [] ∧
      it.rest = List.flatten segs ∧ segs.length = es.length ∧
      ∀ (j : Nat) (seg : List α) (e : E), segs[j]? = some seg → es[j]? = some e →
        seg ≠ [] ∧ ∃ (k : Nat) (p : π × (List Nat → List α → E)), t.accepts (seg.map map) = some k ∧ ps[k]? = some p ∧
          e = p.2 (seg.map map) seg := by
    intro n
    induction n with
    | zero =>
      intro it hl hx
      have hnil : it.rest = [] := List.eq_nil_of_length_eq_zero (by omega)
      have hn : (t.next map it).1 = .none := by
        rw [(c15_none hparse hs hb map it).1]
        intro n
        simpa [hnil] using h0
      obtain ⟨gone, hg, _⟩ := (c15_none hparse hs hb map it).2 hn
      rw [hnil] at hg
      have hg' := (List.append_eq_nil_iff.1 hg.symm).2
      refine ⟨[], (t.next map it).2, [], ?_, hg', by simpa using hnil, rfl, by simp⟩
      rw [Tokenizer.collect]
      cases hh : t.next map it with
      | mk o it' => rw [hh] at hn; simp only at hn; subst hn; rfl
    | succ n ih =>
      intro it hl hx
      cases hr : it.rest with
      | nil =>
        have hn : (t.next map it).1 = .none := by
          rw [(c15_none hparse hs hb map it).1]
          intro n
          simpa [hr] using h0
        obtain ⟨gone, hg, _⟩ := (c15_none hparse hs hb map it).2 hn
        rw [hr] at hg
        have hg' := (List.append_eq_nil_iff.1 hg.symm).2
        refine ⟨[], (t.next map it).2, [], ?_, hg', by simp, rfl, by simp⟩
        rw [Tokenizer.collect]
        cases hh : t.next map it with
        | mk o it' => rw [hh] at hn; simp only at hn; subst hn; rfl
      | cons x l =>
        obtain ⟨k, hk⟩ := hx x (by rw [hr]; simp)
        obtain ⟨e, it', he⟩ := (c10_longest_match hparse hs hb map it).2 ⟨1, k, by rw [hr]; simpa using hk⟩
        obtain ⟨m, k', p, g1, g2, g3, g4, g5, g6⟩ := (c10_longest_match hparse hs hb map it).1 e it' he
        have hm : m ≠ 0 := by
          rintro rfl
          simp [h0] at g2
        obtain ⟨es, it'', segs, i1, i2, i3, i4, i5⟩ := ih it' (by rw [g6, List.length_drop]; omega)
          (fun y hy => hx y (by rw [g6] at hy; exact List.mem_of_mem_drop hy))
        refine ⟨e :: es, it'', it.rest.take m :: segs, ?_, i2, ?_, by simp [i4], ?_⟩
        · rw [Tokenizer.collect, he]
          simp only [i1, Option.map_some]
        · rw [List.flatten_cons, ← i3, g6, List.take_append_drop, hr]
        · intro j seg e' hj he'
          cases j with
          | zero =>
            simp at hj he'
            subst hj he'
            refine ⟨?_, k', p, g2, g4, g5⟩
            intro h
            have := congrArg List.length h
            rw [List.length_take, List.length_nil] at this
            omega
          | succ j => exact i5 j seg e' (by simpa using hj) (by simpa using he')
  obtain ⟨es, it', segs, h⟩ := key input.length (It.start input) (by simp [It.rest, It.start]) (by simpa [It.rest, It.start] using h1)
  exact ⟨es, it', segs, by simpa [It.rest, It.start] using h⟩

/-- `ab`, `[\0-z]` on `aab`. -/
example : (tok0 seeds0 [.concat [ra, rb], .classU [(0, 122)]]).map (fun r => (r.1.collect id 4 (It.start [97, 97, 98])).map Prod.fst) =
    some (some [(1, [97]), (0, [97, 98])]) := by decide

end Verif.Tok
