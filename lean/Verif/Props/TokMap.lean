import Verif.Tok.MapStateProof
import Verif.Props.TokSource

/-!
# Property C53: `tokenize_with` with a stateful closure, and how often the closure is called
-/

namespace Verif.Tok

variable {π ρ α E μ : Type} {parse : π → Except ρ Hir} {s : Seeds} {ps : List (π × (List Nat → List α → E))}
  {t : Tokenizer α E} {ws : List (Nat × Nat)}

/-- The items not yet consumed. -/
def ItM.rest (it : ItM μ α) : List α := it.queue ++ it.src

/-- C53: one call asks the closure once for each of the first `r` remaining items, in order, and for no other (`r` counts the items up to
and including the first with which the tables are stuck); the outcome is the longest match of the answers; the callback gets the answers and
the items they were given for; if there is no match, the items asked for are gone. -/
theorem c53_next (hparse : ParserOk parse) (hs : s.Fair) (hb : BuildsTo s parse ps (.ok (t, ws))) (m : Closure μ α) (it : ItM μ α) :
    ∃ r, r ≤ it.rest.length ∧ (∀ j < r, ¬ t.stuck (letters m it.mem (it.rest.take j))) ∧
      (r = it.rest.length ∨ t.stuck (letters m it.mem (it.rest.take r))) ∧
      (t.nextM m it).2.mem = memory m it.mem (it.rest.take r) ∧
      (((t.nextM m it).1 = .none ∧ (t.nextM m it).2.rest = it.rest.drop r ∧
          ∀ n, t.accepts (letters m it.mem (it.rest.take n)) = none) ∨
       (∃ (n k : Nat) (p : π × (List Nat → List α → E)), n ≤ r ∧ ps[k]? = some p ∧ t.accepts (letters m it.mem (it.rest.take n)) = some k ∧
          (∀ j, n < j → j ≤ it.rest.length → t.accepts (letters m it.mem (it.rest.take j)) = none) ∧
          (t.nextM m it).1 = .token (p.2 (letters m it.mem (it.rest.take n)) (it.rest.take n)) ∧
          (t.nextM m it).2.rest = it.rest.drop n)) := by
  obtain ⟨hirs, h1, h2, h3, h4⟩ := builds_spec hparse hs hb
  obtain ⟨r, ⟨a1, a2, a3⟩, am, a4, a5⟩ := nextM_spec (t := t) (m := m) (by rw [h4.maker]; simpa [h3] using h4.wf) it
  rw [letters_length] at a1 a3
  simp only [letters_take] at a2 a3 a5
  refine ⟨r, a1, fun j hj h => a2 j hj ((stuck_iff _).1 h), a3.imp id (stuck_iff _).2, am, ?_⟩
  rcases a5 with ⟨b1, b2, b3⟩ | ⟨n, k, f, b1, b2, b3, b4, b5, b6⟩
  · left
    refine ⟨b1, ?_, fun n => (acc_none_iff _).1 (b3 n)⟩
    unfold ItM.rest
    rw [b2, a4, List.drop_append]
  · right
    rw [h4.maker, List.getElem?_map, Option.map_eq_some_iff] at b2
    obtain ⟨p, hp, rfl⟩ := b2
    exact ⟨n, k, p, b1, hp, (acc_iff _ _).1 b3, fun m hm hm' => (acc_none_iff _).1 (b4 m hm hm'), b5, b6⟩

/-- C53: whatever the closure answers, no call panics and no item is lost or handed over twice: the input is the concatenation of one segment
per call and the items not yet consumed; a call that returns a token applied a callback to its segment and to as many characters. -/
theorem c53_nothing_lost (hparse : ParserOk parse) (hs : s.Fair) (hb : BuildsTo s parse ps (.ok (t, ws))) (m : Closure μ α) (mem : μ)
    (input : List α) (n : Nat) :
    ∃ segs : List (List α), segs.length = n ∧ (t.callsM m n (ItM.start input mem)).1.length = n ∧
      input = segs.flatten ++ (t.callsM m n (ItM.start input mem)).2.rest ∧
      ∀ (j : Nat) (seg : List α) (o : Out E), segs[j]? = some seg → (t.callsM m n (ItM.start input mem)).1[j]? = some o →
        o = .none ∨ ∃ (k : Nat) (p : π × (List Nat → List α → E)) (w : List Nat), ps[k]? = some p ∧ w.length = seg.length ∧
          t.accepts w = some k ∧ o = .token (p.2 w seg) := by
  have key : ∀ (n : Nat) (it : ItM μ α), ∃ segs : List (List α), segs.length = n ∧ (t.callsM m n it).1.length = n ∧
      it.rest = segs.flatten ++ (t.callsM m n it).2.rest ∧
      ∀ (j : Nat) (seg : List α) (o : Out E), segs[j]? = some seg → (t.callsM m n it).1[j]? = some o →
        o = .none ∨ ∃ (k : Nat) (p : π × (List Nat → List α → E)) (w : List Nat), ps[k]? = some p ∧ w.length = seg.length ∧
          t.accepts w = some k ∧ o = .token (p.2 w seg) := by
    intro n
    induction n with
    | zero => intro it; exact ⟨[], rfl, rfl, rfl, by simp⟩
    | succ n ih =>
      intro it
      obtain ⟨segs, i1, i2, i3, i4⟩ := ih (t.nextM m it).2
      obtain ⟨r, h1, _, _, _, h⟩ := c53_next hparse hs hb m it
      obtain ⟨seg, hseg, ho⟩ : ∃ seg, it.rest = seg ++ (t.nextM m it).2.rest ∧ ((t.nextM m it).1 = .none ∨
          ∃ (k : Nat) (p : π × (List Nat → List α → E)) (w : List Nat), ps[k]? = some p ∧ w.length = seg.length ∧
          t.accepts w = some k ∧ (t.nextM m it).1 = .token (p.2 w seg)) := by
        rcases h with ⟨a1, a2, _⟩ | ⟨n, k, p, b1, b2, b3, b4, b5, b6⟩
        · exact ⟨it.rest.take r, by rw [a2, List.take_append_drop], Or.inl a1⟩
        · exact ⟨it.rest.take n, by rw [b6, List.take_append_drop], Or.inr ⟨k, p, _, b2, letters_length _ _, b3, b5⟩⟩
      refine ⟨seg :: segs, by simp [i1], by simp [Tokenizer.callsM, i2], ?_, ?_⟩
      · rw [hseg, i3]
        simp [Tokenizer.callsM]
      · intro j sg o hj hj'
        cases j with
        | zero =>
          simp [Tokenizer.callsM] at hj hj'
          subst hj; subst hj'
          exact ho
        | succ j => exact i4 j sg o (by simpa using hj) (by simpa [Tokenizer.callsM] using hj')
  exact key n (ItM.start input mem)

/-- C53: if the answers do not depend on the memory, all calls return what they return with the pure function. -/
theorem c53_pure (m : Closure μ α) (f : α → Nat) (hf : ∀ mem x, (m mem x).1 = f x) (n : Nat) (it : ItM μ α) :
    (t.callsM m n it).1 = (t.calls f n ⟨it.queue, it.src⟩).1 ∧
      (t.callsM m n it).2.queue = (t.calls f n ⟨it.queue, it.src⟩).2.queue ∧
      (t.callsM m n it).2.src = (t.calls f n ⟨it.queue, it.src⟩).2.src := by
  have hitem : ∀ (d : DFA) (sc : Scan α) mem x, scanItemM d m sc mem x = (scanItem d f sc x).map fun (b, s) => (b, s, (m mem x).2) := by
    intro d sc mem x
    unfold scanItemM scanItem
    simp only [hf]
  have hsrc : ∀ (d : DFA) (src : List α) (sc : Scan α) mem, ∃ mem', scanSrcM d m sc mem src =
      (scanSrc d f sc src).map fun (s, it) => (s, ⟨it.queue, it.src, mem'⟩) := by
    intro d src
    induction src with
    | nil => intro sc mem; exact ⟨mem, rfl⟩
    | cons x l ih =>
      intro sc mem
      simp only [scanSrcM, scanSrc, hitem]
      cases scanItem d f sc x with
      | none => exact ⟨mem, rfl⟩
      | some r =>
        obtain ⟨b, s⟩ := r
        cases b with
        | false => exact ⟨_, rfl⟩
        | true => exact ih s _
  have hscan : ∀ (d : DFA) (q src : List α) (sc : Scan α) mem, ∃ mem', scanM d m sc mem q src =
      (scan d f sc q src).map fun (s, it) => (s, ⟨it.queue, it.src, mem'⟩) := by
    intro d q
    induction q with
    | nil => intro src sc mem; exact hsrc d src sc mem
    | cons x l ih =>
      intro src sc mem
      simp only [scanM, scan, hitem]
      cases scanItem d f sc x with
      | none => exact ⟨mem, rfl⟩
      | some r =>
        obtain ⟨b, s⟩ := r
        cases b with
        | false => exact ⟨_, rfl⟩
        | true => exact ih src s _
  have hnext : ∀ it : ItM μ α, ∃ mem', t.nextM m it = ((t.next f ⟨it.queue, it.src⟩).1,
      ⟨(t.next f ⟨it.queue, it.src⟩).2.queue, (t.next f ⟨it.queue, it.src⟩).2.src, mem'⟩) := by
    intro it
    obtain ⟨mem', h⟩ := hscan t.dfa it.queue it.src { node := t.dfa.b, pat := t.dfa.accept t.dfa.b, len := 0, i := 0, items := [], chars := [] } it.mem
    unfold Tokenizer.nextM Tokenizer.next
    simp only [h]
    cases scan t.dfa f { node := t.dfa.b, pat := t.dfa.accept t.dfa.b, len := 0, i := 0, items := [], chars := [] } it.queue it.src with
    | none => exact ⟨it.mem, rfl⟩
    | some r =>
      obtain ⟨sc, i⟩ := r
      refine ⟨mem', ?_⟩
      simp only [Option.map_some]
      cases sc.pat with
      | none => rfl
      | some k =>
        simp only
        cases t.maker[k]? <;> rfl
  induction n generalizing it with
  | zero => exact ⟨rfl, rfl, rfl⟩
  | succ n ih =>
    obtain ⟨mem', h⟩ := hnext it
    obtain ⟨i1, i2, i3⟩ := ih ⟨(t.next f ⟨it.queue, it.src⟩).2.queue, (t.next f ⟨it.queue, it.src⟩).2.src, mem'⟩
    simp only [Tokenizer.callsM, Tokenizer.calls, h]
    exact ⟨by rw [i1], i2, i3⟩

theorem memory_counting (f : α → Nat) (k : Nat) (l : List α) : memory (counting f) k l = k + l.length := by
  induction l generalizing k with
  | nil => rfl
  | cons x l ih => simp only [memory, counting, List.length_cons] at ih ⊢; rw [ih]; omega

theorem letters_counting (f : α → Nat) (k : Nat) (l : List α) : letters (counting f) k l = l.map f := by
  induction l generalizing k with
  | nil => rfl
  | cons x l ih => simp only [letters, counting, List.map_cons] at ih ⊢; rw [ih]

/-- C53: collecting the tokens of `n` items asks the closure at most `1 + 2 + … + n` times, unless the empty text is a token. -/
theorem c53_at_most_quadratic (hparse : ParserOk parse) (hs : s.Fair) (hb : BuildsTo s parse ps (.ok (t, ws))) (h0 : t.accepts [] = none)
    (f : α → Nat) (input : List α) :
    ∃ es it', t.collectM (counting f) (input.length + 1) (ItM.start input 0) = some (es, it') ∧
      it'.mem ≤ input.length * (input.length + 1) / 2 := by
  have key : ∀ (n : Nat) (it : ItM Nat α), it.rest.length ≤ n → ∃ es it', t.collectM (counting f) (n + 1) it = some (es, it') ∧
      it'.mem ≤ it.mem + n * (n + 1) / 2 := by
    intro n
    induction n with
    | zero =>
      intro it hn
      have hr : it.rest = [] := List.eq_nil_of_length_eq_zero (by omega)
      obtain ⟨r, h1, _, _, hm, h⟩ := c53_next hparse hs hb (counting f) it
      rcases h with ⟨a1, a2, _⟩ | ⟨n, k, p, b1, b2, b3, b4, b5, b6⟩
      · refine ⟨[], (t.nextM (counting f) it).2, ?_, ?_⟩
        · unfold Tokenizer.collectM
          cases hx : t.nextM (counting f) it
          rw [hx] at a1; simp only at a1; subst a1; rfl
        · rw [hm, memory_counting, hr]; simp
      · rw [hr, List.take_nil] at b3
        simp [letters, h0] at b3
    | succ n ih =>
      intro it hn
      obtain ⟨r, h1, _, _, hm, h⟩ := c53_next hparse hs hb (counting f) it
      rw [memory_counting, List.length_take] at hm
      have e : (n + 1) * (n + 1 + 1) / 2 = n * (n + 1) / 2 + (n + 1) := by
        rw [show (n + 1) * (n + 1 + 1) = n * (n + 1) + 2 * (n + 1) by rw [← Nat.add_mul, Nat.mul_comm]]
        omega
      rcases h with ⟨a1, a2, _⟩ | ⟨j, k, p, b1, b2, b3, b4, b5, b6⟩
      · refine ⟨[], (t.nextM (counting f) it).2, ?_, by rw [hm]; omega⟩
        unfold Tokenizer.collectM
        cases hx : t.nextM (counting f) it
        rw [hx] at a1; simp only at a1; subst a1; rfl
      · have hj : j ≠ 0 := by
          rintro rfl
          simp [letters, h0] at b3
        obtain ⟨es, it', i1, i2⟩ := ih (t.nextM (counting f) it).2 (by rw [b6, List.length_drop]; omega)
        refine ⟨p.2 (letters (counting f) it.mem (it.rest.take j)) (it.rest.take j) :: es, it', ?_, by rw [hm] at i2; omega⟩
        rw [Tokenizer.collectM]
        cases hx : t.nextM (counting f) it
        rw [hx] at b5 i1; simp only at b5; subst b5
        simp only [i1, Option.map_some]
  simpa [ItM.start] using key input.length (ItM.start input 0) (by simp [ItM.rest, ItM.start])

/-- Any text of more than `K` characters on which the tables are not stuck has a matching prefix that is at most `K` shorter. -/
def Tokenizer.LooksAhead (t : Tokenizer α E) (K : Nat) : Prop :=
  ∀ w, ¬ t.stuck w → K < w.length → ∃ n k, n ≤ w.length ∧ w.length ≤ n + K ∧ t.accepts (w.take n) = some k

/-- C53: with bounded look-ahead the closure is asked linearly often. -/
theorem c53_linear (hparse : ParserOk parse) (hs : s.Fair) (hb : BuildsTo s parse ps (.ok (t, ws))) (h0 : t.accepts [] = none)
    (K : Nat) (hK : t.LooksAhead K) (f : α → Nat) (input : List α) :
    ∃ es it', t.collectM (counting f) (input.length + 1) (ItM.start input 0) = some (es, it') ∧
      it'.mem ≤ (K + 2) * input.length + (K + 1) := by
  have hr : ∀ it : ItM Nat α, ∀ r, r ≤ it.rest.length → (∀ j < r, ¬ t.stuck (letters (counting f) it.mem (it.rest.take j))) → K + 1 < r →
      ∃ n k, r ≤ n + K + 1 ∧ n ≤ it.rest.length ∧ n ≤ r ∧ t.accepts (letters (counting f) it.mem (it.rest.take n)) = some k := by
    intro it r h1 h2 hlt
    have hl : (letters (counting f) it.mem (it.rest.take (r - 1))).length = r - 1 := by
      rw [letters_length, List.length_take, Nat.min_eq_left (by omega)]
    obtain ⟨n, k, g1, g2, g3⟩ := hK _ (h2 (r - 1) (by omega)) (by rw [hl]; omega)
    rw [hl] at g1 g2
    rw [letters_take, List.take_take, Nat.min_eq_left g1] at g3
    exact ⟨n, k, by omega, by omega, by omega, g3⟩
  have key : ∀ (n : Nat) (it : ItM Nat α), it.rest.length ≤ n → ∃ es it', t.collectM (counting f) (n + 1) it = some (es, it') ∧
      it'.mem ≤ it.mem + it.rest.length + (K + 1) * n + (K + 1) := by
    intro n
    induction n with
    | zero =>
      intro it hn
      have hrest : it.rest = [] := List.eq_nil_of_length_eq_zero (by omega)
      obtain ⟨r, h1, _, _, hm, h⟩ := c53_next hparse hs hb (counting f) it
      rcases h with ⟨a1, a2, _⟩ | ⟨n, k, p, b1, b2, b3, b4, b5, b6⟩
      · refine ⟨[], (t.nextM (counting f) it).2, ?_, ?_⟩
        · unfold Tokenizer.collectM
          cases hx : t.nextM (counting f) it
          rw [hx] at a1; simp only at a1; subst a1; rfl
        · rw [hm, memory_counting, hrest]; simp
      · rw [hrest, List.take_nil] at b3
        simp [letters, h0] at b3
    | succ n ih =>
      intro it hn
      obtain ⟨r, h1, h2, _, hm, h⟩ := c53_next hparse hs hb (counting f) it
      rw [memory_counting, List.length_take, Nat.min_eq_left h1] at hm
      rw [Nat.mul_succ]
      rcases h with ⟨a1, a2, a3⟩ | ⟨j, k, p, b1, b2, b3, b4, b5, b6⟩
      · refine ⟨[], (t.nextM (counting f) it).2, ?_, by rw [hm]; omega⟩
        unfold Tokenizer.collectM
        cases hx : t.nextM (counting f) it
        rw [hx] at a1; simp only at a1; subst a1; rfl
      · have hj : j ≠ 0 := by
          rintro rfl
          simp [letters, h0] at b3
        have hrj : r ≤ j + K + 1 := by
          by_cases hlt : K + 1 < r
          · obtain ⟨i, k', g1, g2, g3, g4⟩ := hr it r h1 h2 hlt
            by_cases hij : i ≤ j
            · omega
            · rw [b4 i (by omega) g2] at g4; cases g4
          · omega
        obtain ⟨es, it', i1, i2⟩ := ih (t.nextM (counting f) it).2 (by rw [b6, List.length_drop]; omega)
        refine ⟨p.2 (letters (counting f) it.mem (it.rest.take j)) (it.rest.take j) :: es, it', ?_, ?_⟩
        · rw [Tokenizer.collectM]
          cases hx : t.nextM (counting f) it
          rw [hx] at b5 i1; simp only at b5; subst b5
          simp only [i1, Option.map_some]
        · rw [hm, b6, List.length_drop] at i2
          omega
  obtain ⟨es, it', h1, h2⟩ := key input.length (ItM.start input 0) (by simp [ItM.rest, ItM.start])
  refine ⟨es, it', h1, ?_⟩
  simp only [ItM.start, ItM.rest, List.nil_append] at h2
  have : (K + 2) * input.length = input.length + (K + 1) * input.length := by
    rw [show K + 2 = (K + 1) + 1 by omega, Nat.add_mul (K + 1)]; omega
  omega

/-! ## Witnesses -/

/-- The tokenizer for the patterns `a`, `a*b`. -/
def lateTok : Tokenizer Nat (Nat × List Nat) :=
  ⟨⟨[[((97, 98), 2), ((98, 99), 3)], [((97, 98), 1), ((98, 99), 3)], [((97, 98), 1), ((98, 99), 3)], []], 0, [none, none, some 0, some 1]⟩,
    [tag 0, tag 1]⟩

theorem lateTok_builds : BuildsTo seeds0 parse0 (tagged [ra, .concat [.rep .zeroOrMore ra, rb]]) (.ok (lateTok, [])) := ⟨50, rfl⟩

theorem late_run : ∀ n, lateTok.dfa.run 1 (List.replicate n 97) = some 1
  | 0 => rfl
  | n + 1 => late_run n

/-- C53: the bound `1 + 2 + … + n` is reached: patterns `a`, `a*b` on `aⁿ`. -/
theorem c53_quadratic (n : Nat) : BuildsTo seeds0 parse0 (tagged [ra, .concat [.rep .zeroOrMore ra, rb]]) (.ok (lateTok, [])) ∧
    lateTok.collectM (counting id) (n + 1) (ItM.start (List.replicate n 97) 0) =
      some (List.replicate n (0, [97]), ⟨[], [], n * (n + 1) / 2⟩) := by
  refine ⟨lateTok_builds, ?_⟩
  have key : ∀ (n : Nat) (it : ItM Nat Nat), it.rest = List.replicate n 97 →
      ∃ it', lateTok.collectM (counting id) (n + 1) it = some (List.replicate n (0, [97]), it') ∧ it'.rest = [] ∧ it'.mem = it.mem + n * (n + 1) / 2 := by
    intro n
    induction n with
    | zero =>
      intro it hit
      obtain ⟨r, h1, h2, h3, hm, h⟩ := c53_next parse0_ok seeds0_fair lateTok_builds (counting id) it
      rw [hit] at h h1 hm
      rcases h with ⟨a1, a2, _⟩ | ⟨j, k, p, b1, b2, b3, b4, b5, b6⟩
      · refine ⟨(lateTok.nextM (counting id) it).2, ?_, by rw [a2]; simp, ?_⟩
        · unfold Tokenizer.collectM
          cases hx : lateTok.nextM (counting id) it
          rw [hx] at a1; simp only at a1; subst a1; rfl
        · rw [hm, memory_counting]; simp
      · rw [letters_counting, List.replicate_zero, List.take_nil] at b3
        simp [lateTok, Tokenizer.accepts, DFA.obs, DFA.run, DFA.accept] at b3
    | succ n ih =>
      intro it hit
      obtain ⟨r, h1, h2, h3, hm, h⟩ := c53_next parse0_ok seeds0_fair lateTok_builds (counting id) it
      rw [hit] at h h1 hm h3
      have htake : ∀ j, letters (counting id) it.mem ((List.replicate (n + 1) 97).take j) = List.replicate (min j (n + 1)) 97 := by
        intro j
        rw [letters_counting, List.take_replicate, List.map_replicate]; rfl
      simp only [htake] at h h3
      have hns : ∀ j, ¬ lateTok.stuck (List.replicate j 97) := by
        intro j
        match j with
        | 0 => simp [Tokenizer.stuck, DFA.run]
        | 1 => exact fun h => nomatch (show some 2 = none from h)
        | j + 2 =>
          have : lateTok.dfa.run lateTok.dfa.b (List.replicate (j + 2) 97) = lateTok.dfa.run 1 (List.replicate j 97) := rfl
          rw [Tokenizer.stuck, this, late_run]; simp
      have hr : r = n + 1 := by
        rcases h3 with h3 | h3
        · simpa using h3
        · exact absurd h3 (hns _)
      subst hr
      rw [memory_counting, List.length_take, List.length_replicate, Nat.min_self] at hm
      have hacc1 : lateTok.accepts (List.replicate 1 97) = some 0 := rfl
      have hacc2 : ∀ j, lateTok.accepts (List.replicate (j + 2) 97) = none := by
        intro j
        have : lateTok.dfa.run lateTok.dfa.b (List.replicate (j + 2) 97) = lateTok.dfa.run 1 (List.replicate j 97) := rfl
        rw [Tokenizer.accepts, DFA.obs, this, late_run]; rfl
      rcases h with ⟨a1, a2, a3⟩ | ⟨j, k, p, b1, b2, b3, b4, b5, b6⟩
      · have := a3 1
        rw [Nat.min_eq_left (by omega), hacc1] at this
        cases this
      · rw [Nat.min_eq_left b1] at b3 b5
        obtain rfl : j = 1 := by
          match j with
          | 0 =>
            have := b4 1 (by omega) (by simp)
            rw [Nat.min_eq_left (by omega), hacc1] at this
            cases this
          | 1 => rfl
          | j + 2 => rw [hacc2] at b3; cases b3
        rw [hacc1] at b3
        cases b3
        cases b2
        obtain ⟨it', i1, i2, i3⟩ := ih (lateTok.nextM (counting id) it).2 (by rw [b6, List.drop_replicate]; rfl)
        refine ⟨it', ?_, i2, ?_⟩
        · rw [Tokenizer.collectM]
          cases hx : lateTok.nextM (counting id) it
          rw [hx] at b5 i1; simp only at b5; subst b5
          simp only [i1, Option.map_some, tag, List.replicate_succ, List.take_succ_cons, List.take_zero]
        · rw [i3, hm]
          have e : (n + 1) * (n + 1 + 1) / 2 = n * (n + 1) / 2 + (n + 1) := by
            rw [show (n + 1) * (n + 1 + 1) = n * (n + 1) + 2 * (n + 1) by rw [← Nat.add_mul, Nat.mul_comm]]
            omega
          omega
  obtain ⟨⟨q, sr, mem⟩, h1, h2, h3⟩ := key n (ItM.start (List.replicate n 97) 0) (by simp [ItM.rest, ItM.start])
  rw [h1]
  simp only [ItM.rest, List.append_eq_nil_iff] at h2
  obtain ⟨rfl, rfl⟩ := h2
  simp only [ItM.start, Nat.zero_add] at h3
  rw [h3]

/-- A closure that makes every second answer a `b`. -/
def fickle : Closure Nat Nat := fun k x => (if k % 2 = 0 then x else 98, k + 1)

/-- C53: an item that was looked at and put back is asked for again, and can get another answer: with the patterns `a`, `b` the second `a` of
`aa` is seen as `b` in the first call and as `a` in the second. -/
theorem c53_asked_again : (tok0 seeds0 [ra, rb]).map (fun r => (r.1.callsM fickle 2 (ItM.start [97, 97] 0), letters fickle 0 [97, 97])) =
    some (([.token (0, [97]), .token (0, [97])], ⟨[], [], 3⟩), [97, 98]) := by rfl

/-- The tokenizer for the patterns `a`, `b`. -/
def abTok : Tokenizer Nat (Nat × List Nat) :=
  ⟨⟨[[((97, 98), 1), ((98, 99), 2)], [], []], 0, [none, some 0, some 1]⟩, [tag 0, tag 1]⟩

theorem abTok_step (c : Nat) : abTok.dfa.next 0 c = if c = 97 then some 1 else if c = 98 then some 2 else none := by
  have : abTok.dfa.next 0 c = nextInRow [((97, 98), 1), ((98, 99), 2)] c := rfl
  rw [this]
  unfold nextInRow lastLE lastLE lastLE
  by_cases h1 : 97 ≤ c
  · by_cases h2 : 98 ≤ c
    · by_cases h3 : c < 99
      · obtain rfl : c = 98 := by omega
        rfl
      · rw [if_neg (show c ≠ 97 by omega), if_neg (show c ≠ 98 by omega)]; simp [h1, h2, h3]
    · obtain rfl : c = 97 := by omega
      rfl
  · rw [if_neg (show c ≠ 97 by omega), if_neg (show c ≠ 98 by omega)]; simp [h1]

/-- The hypotheses of `c53_linear` are met by the patterns `a`, `b` with `K = 0`. -/
example : BuildsTo seeds0 parse0 (tagged [ra, rb]) (.ok (abTok, [])) ∧ abTok.accepts [] = none ∧ abTok.LooksAhead 0 := by
  refine ⟨⟨50, rfl⟩, rfl, ?_⟩
  intro w hw hl
  match w, hl with
  | c :: w, _ =>
    have h1 : abTok.dfa.run abTok.dfa.b (c :: w) = (abTok.dfa.next 0 c).bind fun n => abTok.dfa.run n w := rfl
    rw [Tokenizer.stuck, h1, abTok_step] at hw
    have h2 : w = [] := by
      cases w with
      | nil => rfl
      | cons c' w =>
        refine absurd ?_ hw
        split
        · rfl
        · split <;> rfl
    subst h2
    by_cases ha : c = 97
    · subst ha; exact ⟨1, 0, by simp, by simp, rfl⟩
    · by_cases hb : c = 98
      · subst hb; exact ⟨1, 1, by simp, by simp, rfl⟩
      · rw [if_neg ha, if_neg hb] at hw
        exact absurd rfl hw

end Verif.Tok
