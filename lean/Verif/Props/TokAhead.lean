import Verif.Tok.AheadProof
import Verif.Props.TokMap
import Verif.Props.TokSmooth

/-!
# Property C90: how far the tokenizer looks beyond a token
-/

namespace Verif.Tok

variable {π ρ α E : Type} {parse : π → Except ρ Hir} {s : Seeds} {ps : List (π × (List Nat → List α → E))}
  {t : Tokenizer α E} {ws : List (Nat × Nat)}

/-- Behind a matched text, the tables go on for at most `K` characters without a longer match. -/
def Tokenizer.Ahead (t : Tokenizer α E) (K : Nat) : Prop :=
  ∀ u x k, IsText (u ++ x) → t.accepts u = some k → (∀ y z, x = y ++ z → y ≠ [] → t.accepts (u ++ y) = none) → ¬ t.stuck (u ++ x) → x.length ≤ K

/-- C90: in terms of the patterns (without empty character classes). -/
theorem c90_patterns (hparse : ParserOk parse) (hs : s.Fair) (hc : Calm s parse ps) (hl : PatsLive parse ps) (hne : ps ≠ [])
    (hb : BuildsTo s parse ps (.ok (t, ws))) (K : Nat) : t.Ahead K ↔ Near (PatCode parse ps) K := by
  have hst := stuck_iff_viable hparse hs hc hl hne hb
  have hacc := fun w => c41_translated_language hparse hs hc hb w
  constructor
  · intro h u x k h1 h2 h3 h4
    obtain ⟨j, hj⟩ : ∃ j, t.accepts u = some j := by
      cases ha : t.accepts u with
      | some j => exact ⟨j, rfl⟩
      | none => exact absurd h2 ((hacc u).2.1 ha k)
    refine h u x j h1 hj (fun y z e hy => (hacc _).2.2 fun i => h3 y z i e hy) ?_
    rw [hst]
    exact fun hn => hn h4
  · intro h u x k h1 h2 h3 h4
    refine h u x k h1 ((hacc u).1 k |>.1 h2).1 (fun y z j e hy => (hacc _).2.1 (h3 y z e hy) j) ?_
    rw [hst] at h4
    exact Classical.not_not.1 h4

theorem accepts_run {w : List Nat} {q : Nat} (h : t.dfa.run t.dfa.b w = some q) : t.accepts w = t.dfa.accept q := by
  simp [Tokenizer.accepts, DFA.obs, h]

/-- What `Ahead` says about walks. -/
theorem ahead_walk {K : Nat} : t.Ahead K ↔ ∀ u q k x q', IsText u → t.dfa.run t.dfa.b u = some q → t.dfa.accept q = some k →
    Walk t.dfa (fun q => (t.dfa.accept q).isNone) q x q' → x.length ≤ K := by
  constructor
  · intro h u q k x q' h1 h2 h3 h4
    refine h u x k ?_ ?_ ?_ ?_
    · intro c hc
      rcases List.mem_append.1 hc with hc | hc
      · exact h1 c hc
      · exact h4.text c hc
    · rw [accepts_run h2, h3]
    · rintro y z rfl hy
      obtain ⟨n, k1, _⟩ := h4.split
      rw [accepts_run (q := n) (by rw [DFA.run_append, h2]; exact k1.run)]
      simpa using k1.last hy
    · rw [Tokenizer.stuck, DFA.run_append, h2]
      simp [h4.run]
  · intro h u x k h1 h2 h3 h4
    cases hq : t.dfa.run t.dfa.b u with
    | none => rw [Tokenizer.accepts, DFA.obs, hq] at h2; cases h2
    | some q =>
      rw [accepts_run hq] at h2
      rw [Tokenizer.stuck, DFA.run_append, hq] at h4
      cases hx : t.dfa.run q x with
      | none => simp [hx] at h4
      | some q' =>
        refine h u q k x q' (fun c hc => h1 c (by simp [hc])) hq h2 ?_
        refine walk_of_run (fun c hc => h1 c (by simp [hc])) hx ?_
        intro y z n e hy hr
        have := h3 y z e hy
        rw [accepts_run (q := n) (by rw [DFA.run_append, hq]; exact hr)] at this
        simp [this]

/-- C90: the check on the tables is exact. -/
theorem c90_check (hparse : ParserOk parse) (hs : s.Fair) (hb : BuildsTo s parse ps (.ok (t, ws))) (K : Nat) :
    t.dfa.near K = true ↔ t.Ahead K := by
  have hd := built_wf hparse hs hb
  have hS : ∀ q ∈ t.dfa.accepting, q < t.dfa.rows.length := by
    intro q hq
    obtain ⟨w, k, _, h2, _⟩ := (mem_accepting hd).1 hq
    exact run_lt hd w _ q hd.b h2
  rw [ahead_walk, DFA.near, List.isEmpty_iff, List.eq_nil_iff_forall_not_mem]
  simp only [mem_after hd _ hS]
  constructor
  · intro h u q k x q' h1 h2 h3 h4
    by_cases hlt : x.length ≤ K
    · exact hlt
    · exfalso
      have e : x = x.take (K + 1) ++ x.drop (K + 1) := (List.take_append_drop _ _).symm
      rw [e] at h4
      obtain ⟨n, k1, _⟩ := h4.split
      exact h n ⟨q, (mem_accepting hd).2 ⟨u, k, h1, h2, h3⟩, _, by rw [List.length_take]; omega, k1⟩
  · rintro h m ⟨q, h1, x, h2, h3⟩
    obtain ⟨w, k, k1, k2, k3⟩ := (mem_accepting hd).1 h1
    have := h w q k x m k1 k2 k3 h3
    omega

/-- C90: if the look-ahead is bounded at all, it is less than the number of states. -/
theorem c90_bounded_or_not (hparse : ParserOk parse) (hs : s.Fair) (hb : BuildsTo s parse ps (.ok (t, ws))) :
    t.Ahead (t.dfa.rows.length - 1) ∨ ∀ K, ¬ t.Ahead K := by
  have hd := built_wf hparse hs hb
  by_cases h : t.Ahead (t.dfa.rows.length - 1)
  · exact .inl h
  · refine .inr fun K hK => h ?_
    rw [ahead_walk] at hK ⊢
    intro u q k x q' h1 h2 h3 h4
    have hq := run_lt hd u _ q hd.b h2
    have hcount : ((List.range t.dfa.rows.length).filter fun q => (t.dfa.accept q).isNone).length < t.dfa.rows.length := by
      have : ((List.range t.dfa.rows.length).filter fun q => (t.dfa.accept q).isNone).length < (List.range t.dfa.rows.length).length := by
        rw [List.length_filter_lt_length_iff_exists]
        exact ⟨q, List.mem_range.2 hq, by simp [h3]⟩
      rwa [List.length_range] at this
    by_cases hlt : x.length ≤ t.dfa.rows.length - 1
    · exact hlt
    · exfalso
      obtain ⟨x', k1, k2⟩ := h4.long hd hq (by omega) (K + 1)
      have := hK u q k x' q' h1 h2 h3 k2
      omega

/-- C90: so one look at the tables settles it: look-ahead without any bound is what the check finds for the number of states. -/
theorem c90_unbounded (hparse : ParserOk parse) (hs : s.Fair) (hb : BuildsTo s parse ps (.ok (t, ws))) :
    (∀ K, ¬ t.Ahead K) ↔ t.dfa.near (t.dfa.rows.length - 1) = false := by
  rw [← Bool.not_eq_true, c90_check hparse hs hb]
  constructor
  · exact fun h => h _
  · intro h
    exact (c90_bounded_or_not hparse hs hb).resolve_left h

/-- C90: `LooksAhead`, the condition of `c53_linear`, implies this one. -/
theorem c90_weaker {K : Nat} (h : t.LooksAhead K) : t.Ahead K := by
  intro u x k _ _ h3 h4
  by_cases hlt : x.length ≤ K
  · exact hlt
  · exfalso
    have hl : (u ++ x).length = u.length + x.length := List.length_append
    obtain ⟨n, j, g1, g2, g3⟩ := h (u ++ x) h4 (by omega)
    have e : (u ++ x).take n = u ++ x.take (n - u.length) := by rw [List.take_append, List.take_of_length_le (by omega)]
    rw [e, h3 (x.take (n - u.length)) (x.drop (n - u.length)) (List.take_append_drop _ _).symm] at g3
    · cases g3
    · intro hnil
      have := congrArg List.length hnil
      rw [List.length_take, List.length_nil] at this
      omega

/-- How much is read in a call that returns a token of `n` items. -/
theorem read_le {K : Nat} (hK : t.Ahead K) {w : List Nat} (hw : IsText w) {r n k : Nat} (hr : r ≤ w.length)
    (h1 : ∀ m < r, ¬ t.stuck (w.take m)) (h2 : t.accepts (w.take n) = some k) (h3 : ∀ m, n < m → m ≤ w.length → t.accepts (w.take m) = none) :
    r ≤ n + K + 1 := by
  by_cases hlt : r ≤ n + 1
  · omega
  · have he : w.take n ++ (w.take (r - 1)).drop n = w.take (r - 1) := by
      conv => rhs; rw [← List.take_append_drop n (w.take (r - 1))]
      rw [List.take_take, Nat.min_eq_left (by omega)]
    have := hK (w.take n) ((w.take (r - 1)).drop n) k ?_ h2 ?_ ?_
    · rw [List.length_drop, List.length_take] at this
      omega
    · rw [he]; exact fun c hc => hw c (List.mem_of_mem_take hc)
    · intro y z e hy
      have hpre : w.take n ++ y = w.take (n + y.length) := by
        have e1 : w.take (r - 1) = w.take n ++ y ++ z := by rw [← he, e, List.append_assoc]
        have hn : (w.take n).length = n := by rw [List.length_take]; omega
        have e3 := congrArg List.length e1
        simp only [List.length_append, hn, List.length_take] at e3
        have e2 : (w.take (r - 1)).take (n + y.length) = w.take n ++ y := by rw [e1]; exact List.take_left' (by simp only [List.length_append, hn])
        rw [List.take_take, Nat.min_eq_left (by omega)] at e2
        exact e2.symm
      have e3 := congrArg List.length e
      rw [List.length_drop, List.length_take, List.length_append] at e3
      have := List.length_pos_iff.2 hy
      rw [hpre]
      exact h3 _ (by omega) (by omega)
    · rw [he]; exact h1 _ (by omega)

theorem text_map {map : α → Nat} {l : List α} (h : ∀ x ∈ l, IsChar (map x)) : IsText (l.map map) := by
  intro c hc
  obtain ⟨x, h1, rfl⟩ := List.mem_map.1 hc
  exact h x h1

/-- C90: with look-ahead `K`, a call that returns a token looks at no more than `K + 1` items behind it. -/
theorem c90_reads (hparse : ParserOk parse) (hs : s.Fair) (hb : BuildsTo s parse ps (.ok (t, ws))) (K : Nat) (hK : t.Ahead K) (map : α → Nat)
    (it : It α) (hit : ∀ x ∈ it.rest, IsChar (map x)) (e : E) (h : (t.next map it).1 = .token e) :
    ∃ r n, it.rest.length = n + (t.next map it).2.rest.length ∧ r ≤ n + K + 1 ∧ (t.next map it).2.src = it.src.drop (r - it.queue.length) := by
  obtain ⟨r, h1, h2, h3, h4, h5⟩ := next_built map hparse hs hb it
  rcases h5 with ⟨a1, _⟩ | ⟨n, k, p, b1, b2, b3, b4, b5, b6, b7⟩
  · rw [h] at a1; cases a1
  · refine ⟨r, n, by rw [b7, List.length_drop]; omega, ?_, h4⟩
    exact read_le hK (text_map hit) (by simpa using h1) h2 b4 (by simpa using b5)

/-- C90: so the iterator never keeps more than `K + 1` items. -/
theorem c90_memory (hparse : ParserOk parse) (hs : s.Fair) (hb : BuildsTo s parse ps (.ok (t, ws))) (K : Nat) (hK : t.Ahead K) (map : α → Nat)
    (input : List α) (hin : ∀ x ∈ input, IsChar (map x)) (n : Nat) : (t.calls map n (It.start input)).2.queue.length ≤ K + 1 := by
  have key : ∀ (n : Nat) (it : It α), (∀ x ∈ it.rest, IsChar (map x)) → it.queue.length ≤ K + 1 → (t.calls map n it).2.queue.length ≤ K + 1 := by
    intro n
    induction n with
    | zero => intro it _ h; exact h
    | succ n ih =>
      intro it hit hq
      obtain ⟨r, h1, h2, h3, h4, h5⟩ := next_built map hparse hs hb it
      refine ih (t.next map it).2 ?_ ?_
      · have : ∃ j, (t.next map it).2.rest = it.rest.drop j := by
          rcases h5 with ⟨_, a2, _⟩ | ⟨n, k, p, b1, b2, b3, b4, b5, b6, b7⟩
          · exact ⟨r, a2⟩
          · exact ⟨n, b7⟩
        obtain ⟨j, hj⟩ := this
        intro x hx
        rw [hj] at hx
        exact hit x (List.mem_of_mem_drop hx)
      · have hs := congrArg List.length h4
        rw [List.length_drop] at hs
        have hl : it.rest.length = it.queue.length + it.src.length := by simp [It.rest]
        have hl' : (t.next map it).2.rest.length = (t.next map it).2.queue.length + (t.next map it).2.src.length := by simp [It.rest]
        rcases h5 with ⟨_, a2, _⟩ | ⟨n, k, p, b1, b2, b3, b4, b5, b6, b7⟩
        · have := congrArg List.length a2
          rw [List.length_drop] at this
          omega
        · have hr := read_le hK (text_map hit) (by simpa using h1) h2 b4 (by simpa using b5)
          have := congrArg List.length b7
          rw [List.length_drop] at this
          omega
  exact key n (It.start input) (by simpa [It.rest, It.start] using hin) (by simp [It.start])

/-- C90: and the closure of `tokenize_with` is asked at most `(K + 2) n` times for the tokens of `n` items, unless the empty text is a token. -/
theorem c90_linear (hparse : ParserOk parse) (hs : s.Fair) (hb : BuildsTo s parse ps (.ok (t, ws))) (h0 : t.accepts [] = none)
    (K : Nat) (hK : t.Ahead K) (f : α → Nat) (input : List α) (hin : ∀ x ∈ input, IsChar (f x)) :
    ∃ es it', t.collectM (counting f) (input.length + 1) (ItM.start input 0) = some (es, it') ∧ it'.mem ≤ (K + 2) * input.length := by
  have key : ∀ (n : Nat) (it : ItM Nat α), it.rest.length ≤ n → (∀ x ∈ it.rest, IsChar (f x)) →
      ∃ es it', t.collectM (counting f) (n + 1) it = some (es, it') ∧ it'.mem ≤ it.mem + (K + 2) * it.rest.length := by
    intro n
    induction n with
    | zero =>
      intro it hn _
      have hr : it.rest = [] := List.eq_nil_of_length_eq_zero (by omega)
      obtain ⟨r, h1, _, _, hm, h⟩ := c53_next hparse hs hb (counting f) it
      rcases h with ⟨a1, a2, _⟩ | ⟨n, k, p, b1, b2, b3, b4, b5, b6⟩
      · refine ⟨[], (t.nextM (counting f) it).2, ?_, ?_⟩
        · unfold Tokenizer.collectM
          cases hx : t.nextM (counting f) it
          rw [hx] at a1; simp only at a1; subst a1; rfl
        · rw [hm, memory_counting, hr]; simp
      · rw [hr, List.take_nil] at b3
        simp [letters, h0] at b3
    | succ n ih =>
      intro it hn hit
      obtain ⟨r, h1, h2, _, hm, h⟩ := c53_next hparse hs hb (counting f) it
      rw [memory_counting, List.length_take, Nat.min_eq_left h1] at hm
      simp only [letters_counting, List.map_take] at h h2
      rcases h with ⟨a1, a2, _⟩ | ⟨j, k, p, b1, b2, b3, b4, b5, b6⟩
      · refine ⟨[], (t.nextM (counting f) it).2, ?_, ?_⟩
        · unfold Tokenizer.collectM
          cases hx : t.nextM (counting f) it
          rw [hx] at a1; simp only at a1; subst a1; rfl
        · rw [hm, Nat.add_mul]
          omega
      · have hj : j ≠ 0 := by
          rintro rfl
          simp [h0] at b3
        have hr := read_le hK (text_map hit) (by simpa using h1) h2 b3 (by simpa using b4)
        obtain ⟨es, it', i1, i2⟩ := ih (t.nextM (counting f) it).2 (by rw [b6, List.length_drop]; omega)
          (by rw [b6]; exact fun x hx => hit x (List.mem_of_mem_drop hx))
        refine ⟨p.2 ((it.rest.map f).take j) (it.rest.take j) :: es, it', ?_, ?_⟩
        · rw [Tokenizer.collectM]
          cases hx : t.nextM (counting f) it
          rw [hx] at b5 i1; simp only at b5; subst b5
          simp only [i1, Option.map_some]
        · rw [hm, b6, List.length_drop] at i2
          have e : (K + 2) * it.rest.length = (K + 2) * (it.rest.length - j) + (K + 2) * j := by
            rw [← Nat.mul_add]; congr 1; omega
          have e2 : j + K + 1 ≤ (K + 2) * j := by
            obtain ⟨i, rfl⟩ : ∃ i, j = i + 1 := ⟨j - 1, by omega⟩
            rw [Nat.mul_add]
            have : i ≤ (K + 2) * i := Nat.le_mul_of_pos_left _ (by omega)
            omega
          omega
  obtain ⟨es, it', h1, h2⟩ := key input.length (ItM.start input 0) (by simp [ItM.rest, ItM.start]) (by simpa [ItM.rest, ItM.start] using hin)
  exact ⟨es, it', h1, by simpa [ItM.rest, ItM.start] using h2⟩

/-- C90: without a bound, for every `K` there is a text whose first call of `next` returns a token and keeps more than `K` items. -/
theorem c90_far (hparse : ParserOk parse) (hs : s.Fair) (hb : BuildsTo s parse ps (.ok (t, ws))) (K : Nat) (hK : ¬ t.Ahead K) :
    ∃ w, IsText w ∧ ∀ (map : α → Nat) (input : List α), input.map map = w →
      (∃ e, (t.next map (It.start input)).1 = .token e) ∧ K < (t.next map (It.start input)).2.queue.length ∧ (t.next map (It.start input)).2.src = [] := by
  simp only [Tokenizer.Ahead, Classical.not_forall, Nat.not_le] at hK
  obtain ⟨u, x, k, h1, h2, h3, h4, h5⟩ := hK
  refine ⟨u ++ x, h1, ?_⟩
  intro map input hin
  obtain ⟨r, g1, g2, g3, g4, g5⟩ := next_built map hparse hs hb (It.start input)
  have hrest : (It.start input).rest = input := by simp [It.rest, It.start]
  have hlen : input.length = u.length + x.length := by
    have := congrArg List.length hin
    simpa using this
  rw [hrest, hin] at g2 g3 g5
  rw [hrest] at g1
  have hr : r = input.length := by
    rcases g3 with g3 | g3
    · exact g3
    · refine absurd ?_ h4
      rw [Tokenizer.stuck] at g3 ⊢
      rw [← List.take_append_drop r (u ++ x), DFA.run_append, g3]
      rfl
  have hsrc : (t.next map (It.start input)).2.src = [] := by
    rw [g4, hr]
    simp [It.start]
  rcases g5 with ⟨a1, a2, a3⟩ | ⟨n, k', p, b1, b2, b3, b4, b5, b6, b7⟩
  · have := a3 u.length
    rw [List.take_left, h2] at this
    cases this
  · refine ⟨⟨_, b6⟩, ?_, hsrc⟩
    have hn : n ≤ u.length := by
      by_cases hle : n ≤ u.length
      · exact hle
      · exfalso
        have e : (u ++ x).take n = u ++ x.take (n - u.length) := by rw [List.take_append, List.take_of_length_le (by omega)]
        rw [e, h3 (x.take (n - u.length)) (x.drop (n - u.length)) (List.take_append_drop _ _).symm] at b4
        · cases b4
        · intro hnil
          have := congrArg List.length hnil
          rw [List.length_take, List.length_nil] at this
          omega
    have := congrArg List.length b7
    rw [It.rest, hsrc, List.append_nil, List.length_drop] at this
    omega

/-! ## Numbers with and without a fraction: one item is kept; a word that ends in `b`: none; `a` and `a*b`: no bound -/

def numPats : List Hir :=
  [.rep .oneOrMore (.classU [(48, 57)]), .concat [.rep .oneOrMore (.classU [(48, 57)]), .literalU 46, .rep .oneOrMore (.classU [(48, 57)])]]

def numTok : Tokenizer Nat (Nat × List Nat) :=
  ⟨⟨[[((48, 58), 2)], [((48, 58), 3)], [((46, 47), 1), ((48, 58), 2)], [((48, 58), 3)]], 0, [none, none, some 0, some 1]⟩, [tag 0, tag 1]⟩

theorem numTok_builds : BuildsTo seeds0 parse0 (tagged numPats) (.ok (numTok, [])) := ⟨50, rfl⟩

/-- Between the digits and the fraction one character is looked at, so `12.a` leaves `.` and `a` in the queue. -/
example : numTok.Ahead 1 ∧ ¬ numTok.Ahead 0 ∧ numTok.accepts [] = none ∧
    (numTok.next id (It.start [49, 50, 46, 97, 98])).2.queue = [46, 97] ∧ (numTok.next id (It.start [49, 50, 46, 97, 98])).2.src = [98] := by
  refine ⟨(c90_check parse0_ok seeds0_fair numTok_builds 1).1 rfl, fun h => ?_, rfl, rfl, rfl⟩
  have := (c90_check parse0_ok seeds0_fair numTok_builds 0).2 h
  cases this

/-- The hypotheses of `c90_patterns` are met. -/
example : Calm seeds0 parse0 (tagged numPats) ∧ PatsLive parse0 (tagged numPats) ∧ tagged numPats ≠ [] ∧ Near (PatCode parse0 (tagged numPats)) 1 :=
  ⟨fun _ => Iff.rfl, live0 (by decide), by decide,
    (c90_patterns parse0_ok seeds0_fair (fun _ => Iff.rfl) (live0 (by decide)) (by decide) numTok_builds 1).1
      ((c90_check parse0_ok seeds0_fair numTok_builds 1).1 rfl)⟩

def wordTok : Tokenizer Nat (Nat × List Nat) := ⟨⟨[[((97, 98), 0), ((98, 99), 1)], []], 0, [none, some 0]⟩, [tag 0]⟩

theorem wordTok_builds : BuildsTo seeds0 parse0 (tagged [.concat [.rep .zeroOrMore ra, rb]]) (.ok (wordTok, [])) := ⟨50, rfl⟩

theorem wordTok_run (n : Nat) : wordTok.dfa.run 0 (List.replicate n 97) = some 0 := by
  induction n with
  | zero => rfl
  | succ n ih =>
    rw [List.replicate_succ]
    exact (show wordTok.dfa.run 0 (97 :: List.replicate n 97) = wordTok.dfa.run 0 (List.replicate n 97) from rfl).trans ih

/-- C90: the condition is strictly weaker than that of `c53_linear`: for the pattern `a*b` nothing is kept behind a token. -/
theorem c90_strictly : wordTok.Ahead 0 ∧ ∀ K, ¬ wordTok.LooksAhead K := by
  refine ⟨(c90_check parse0_ok seeds0_fair wordTok_builds 0).1 rfl, fun K h => ?_⟩
  obtain ⟨n, k, g1, _, g3⟩ := h (List.replicate (K + 1) 97) (fun e => by rw [Tokenizer.stuck, show wordTok.dfa.b = 0 from rfl, wordTok_run] at e; cases e) (by simp)
  rw [List.length_replicate] at g1
  rw [List.take_replicate, Nat.min_eq_left g1, accepts_run (wordTok_run n)] at g3
  cases g3

/-- C90: with the patterns `a` and `a*b` there is no bound (this is the tokenizer of `c53_quadratic`). -/
theorem c90_late (K : Nat) : ¬ lateTok.Ahead K := (c90_unbounded parse0_ok seeds0_fair lateTok_builds).2 rfl K

end Verif.Tok
