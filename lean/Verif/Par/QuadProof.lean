import Verif.Par.LinearProof
import Verif.Props.ParSeeds

/-!
# A grammar on which error recovery takes quadratic time
-/

namespace Verif.Par

/-- `L → ε | L A c | L error | L b`, `A → a | A a` -/
def gQuad : Gram :=
  ⟨[⟨0, []⟩, ⟨0, [.nt 0, .nt 1, .tm (.sym 2)]⟩, ⟨0, [.nt 0, .tm .err]⟩, ⟨0, [.nt 0, .tm (.sym 1)]⟩, ⟨1, [.tm (.sym 0)]⟩,
    ⟨1, [.nt 1, .tm (.sym 0)]⟩], 0⟩

def tQuad : Tables :=
  { action := [(0, [(.sym 0, .reduce 0), (.sym 1, .reduce 0), (.err, .reduce 0), (.eoi, .reduce 0)]),
      (1, [(.err, .shift 3), (.sym 1, .shift 4), (.sym 0, .shift 5), (.eoi, .accept)]),
      (2, [(.sym 2, .shift 6), (.sym 0, .shift 7)]),
      (3, [(.sym 0, .reduce 2), (.sym 1, .reduce 2), (.err, .reduce 2), (.eoi, .reduce 2)]),
      (4, [(.sym 0, .reduce 3), (.sym 1, .reduce 3), (.err, .reduce 3), (.eoi, .reduce 3)]),
      (5, [(.sym 0, .reduce 4), (.sym 2, .reduce 4)]),
      (6, [(.sym 0, .reduce 1), (.sym 1, .reduce 1), (.err, .reduce 1), (.eoi, .reduce 1)]),
      (7, [(.sym 0, .reduce 5), (.sym 2, .reduce 5)])]
    goto := [(0, [(0, 1)]), (1, [(1, 2)])]
    errors := [(1, [2, 2, 2, 2])]
    start := 0 }

def pQuad : Parser Nat Nat Nat := ⟨plainRules gQuad ++ [⟨2, [.nt 0], fun _ => .error 0⟩], tQuad⟩

theorem pQuad_makes : MakesParser idSeeds (plainRules gQuad) 0 pQuad [] := ⟨⟨20, by decide +kernel, by simp⟩, _, rfl⟩

/-- `aⁿ b` -/
def quadInput (n : Nat) : List Nat := List.replicate n 0 ++ [1]

theorem quadInput_a {n j : Nat} (h : j < n) : (quadInput n)[j]? = some 0 := by
  unfold quadInput
  rw [List.getElem?_append_left (by simpa using h), List.getElem?_replicate, if_pos h]

theorem quadInput_b {n : Nat} : (quadInput n)[n]? = some 1 := by
  unfold quadInput
  rw [List.getElem?_append_right (by simp)]
  simp

/-- A moment of the parse: token `j` is next. -/
structure At (n : Nat) (c : Cfg Nat Nat) (j q : Nat) (st : List (Nat × SSym Nat)) (recov : List Nat) (lg : Nat) : Prop where
  state : c.state = q
  stack : c.stack = st
  recov : c.recov = recov
  log : c.log.length = lg
  src : c.read ++ c.src = quadInput n
  le : j ≤ c.read.length
  buffer : c.buffer = bufOf id c.read j

theorem At.read_le {n j q st recov lg} {c : Cfg Nat Nat} (h : At n c j q st recov lg) : c.read.length ≤ n + 1 := by
  have := congrArg List.length h.src
  simp [quadInput] at this
  omega

/-- The next token gets into the buffer. -/
theorem At.fill {n j q st recov lg} {c : Cfg Nat Nat} (h : At n c j q st recov lg) {t : Nat} (ht : (quadInput n)[j]? = some t) :
    At n (Par.fill id c) j q st recov lg ∧ j < (Par.fill id c).read.length ∧
      (Par.fill id c).buffer = (.sym t, j) :: bufOf id (Par.fill id c).read (j + 1) := by
  by_cases hlt : j < c.read.length
  · have hb : c.buffer = (.sym t, j) :: bufOf id c.read (j + 1) := by
      rw [h.buffer]
      refine bufOf_cons ?_
      rw [← h.src, List.getElem?_append_left hlt] at ht
      exact ht
    rw [fill_id hb]
    exact ⟨h, hlt, hb⟩
  · have hj : j = c.read.length := by have := h.le; omega
    have hb : c.buffer = [] := by rw [h.buffer]; exact bufOf_end (by omega)
    have hs : c.src = t :: c.src.drop 1 := by
      rw [← h.src, List.getElem?_append_right (by omega), hj, Nat.sub_self] at ht
      cases hc : c.src with
      | nil => rw [hc] at ht; cases ht
      | cons x l => rw [hc] at ht; cases ht; rfl
    have hf : Par.fill id c = { c with buffer := [(.sym t, c.read.length)], read := c.read ++ [t], src := c.src.drop 1, pulls := c.pulls + 1 } := by
      unfold Par.fill
      rw [hb]
      simp only
      rw [hs]
      rfl
    have hbuf : bufOf id (c.read ++ [t]) j = [(.sym t, j)] := by
      rw [bufOf_cons (t := t) (by rw [List.getElem?_append_right (by omega), hj, Nat.sub_self]; rfl), bufOf_end (by simp; omega)]
      rfl
    rw [hf]
    refine ⟨⟨h.state, h.stack, h.recov, h.log, ?_, by simp; omega, ?_⟩, by simp; omega, ?_⟩
    · simp only
      rw [List.append_assoc, List.singleton_append, ← hs]
      exact h.src
    · simp only
      rw [hbuf, hj]
    · simp only
      rw [bufOf_end (by simp; omega), hj]

theorem fill_length (c : Cfg Nat Nat) : c.read.length ≤ (Par.fill id c).read.length := by
  unfold Par.fill
  split
  · exact Nat.le_refl _
  · split <;> simp

theorem step_shift {N T E : Type} {p : Parser N T E} {idx : T → Nat} {c : Cfg N T} {t : Nat} {i s : Nat} {b : List (Term × Nat)}
    (hb : c.buffer = (.sym t, i) :: b) (h : p.tab.act c.state (.sym t) = some (.shift s)) :
    step idx p c = .more { c with state := s, stack := (c.state, .tok t i) :: c.stack, buffer := b } := by
  unfold step
  rw [fill_id hb]
  simp only [hb]
  obtain ⟨row, h1, h2⟩ := Option.bind_eq_some_iff.1 h
  simp only [h1, h2]

theorem At.shift {n j q st recov lg} {c : Cfg Nat Nat} (h : At n c j q st recov lg) {t s : Nat} (ht : (quadInput n)[j]? = some t)
    (ha : pQuad.tab.act q (.sym t) = some (.shift s)) :
    ∃ c', step id pQuad c = .more c' ∧ At n c' (j + 1) s ((q, .tok t j) :: st) recov lg := by
  obtain ⟨h1, h2, h3⟩ := h.fill ht
  rw [← step_fill', step_shift h3 (by rw [h1.state]; exact ha)]
  refine ⟨_, rfl, ⟨rfl, ?_, h1.recov, h1.log, h1.src, h2, rfl⟩⟩
  simp only
  rw [h1.state, h1.stack]

theorem onReduce_eq {N T E : Type} {p : Parser N T E} {c : Cfg N T} {r : Nat} {rule : Rule N T E} {popped rest : List (Nat × SSym N)}
    {args : List (Arg N T)} {v : N} {s : Nat} (hr : p.rules[r]? = some rule) (hst : c.stack = popped ++ rest) (hl : popped.length = rule.rhs.length)
    (ha : mkArgs c.read 0 (popped.reverse.map Prod.snd) = some args) (hv : rule.gen args = .ok v)
    (hs : (get ((popped.reverse.head?.map Prod.fst).getD c.state) p.tab.goto).bind (get rule.lhs) = some s) :
    onReduce p c r = .more { c with
      log := (r, args) :: c.log
      state := s
      stack := ((popped.reverse.head?.map Prod.fst).getD c.state, .nt v (firstIndex c.read.length (popped.reverse.map Prod.snd))) :: rest
      recov := if c.recov.contains r then [] else c.recov } := by
  unfold onReduce
  rw [hr]
  simp only
  rw [if_neg (by rw [hst]; simp; omega)]
  have h1 : c.stack.take rule.rhs.length = popped := by rw [hst, ← hl, List.take_left]
  have h2 : c.stack.drop rule.rhs.length = rest := by rw [hst, ← hl, List.drop_left]
  rw [h1, h2, ha]
  simp only
  rw [hv]
  simp only
  rw [hs]

theorem At.reduce {n j q rest recov lg} {popped : List (Nat × SSym Nat)} {c : Cfg Nat Nat} (h : At n c j q (popped ++ rest) recov lg) {t r : Nat}
    (ht : (quadInput n)[j]? = some t) (ha : pQuad.tab.act q (.sym t) = some (.reduce r)) {rule : Rule Nat Nat Nat} {v s : Nat}
    (hr : pQuad.rules[r]? = some rule) (hl : popped.length = rule.rhs.length)
    (hargs : ∀ read : List Nat, j < read.length → c.read.length ≤ read.length → ∃ args, mkArgs read 0 (popped.reverse.map Prod.snd) = some args ∧ rule.gen args = .ok v)
    (hs : (get ((popped.reverse.head?.map Prod.fst).getD q) pQuad.tab.goto).bind (get rule.lhs) = some s) :
    ∃ c' dflt, step id pQuad c = .more c' ∧ At n c' j s (((popped.reverse.head?.map Prod.fst).getD q,
      .nt v (firstIndex dflt (popped.reverse.map Prod.snd))) :: rest) (if recov.contains r then [] else recov) (lg + 1) := by
  obtain ⟨h1, h2, h3⟩ := h.fill ht
  obtain ⟨args, k1, k2⟩ := hargs _ h2 (fill_length c)
  have k3 := onReduce_eq hr h1.stack hl k1 k2 (by rw [h1.state]; exact hs)
  rw [← step_fill', step_reduce h3 (by rw [h1.state]; exact ha), k3]
  refine ⟨_, (Par.fill id c).read.length, rfl, ⟨rfl, ?_, ?_, ?_, h1.src, h1.le, h1.buffer⟩⟩
  · simp only; rw [h1.state]
  · simp only; rw [h1.recov]
  · simp only; rw [List.length_cons, h1.log]

/-- `A → a` -/
theorem At.reduce4 {n j i st lg} {c : Cfg Nat Nat} (h : At n c j 5 ((1, .tok 0 i) :: st) [] lg) (hj : j < n) (hi : i < j) :
    ∃ c', step id pQuad c = .more c' ∧ At n c' j 2 ((1, .nt 1 i) :: st) [] (lg + 1) := by
  obtain ⟨c', d, h1, h2⟩ := At.reduce (popped := [(1, .tok 0 i)]) h (quadInput_a hj) (r := 4) rfl (v := 1) (s := 2) rfl rfl (by
    intro read hr _
    have : i < read.length := by omega
    exact ⟨[.tok read[i]], by simp [mkArgs, this], rfl⟩) rfl
  exact ⟨c', h1, h2⟩

/-- `A → A a` -/
theorem At.reduce5 {n j i i0 v st lg} {c : Cfg Nat Nat} (h : At n c j 7 ((2, .tok 0 i) :: (1, .nt v i0) :: st) [] lg) (hj : j < n) (hi : i < j) :
    ∃ c', step id pQuad c = .more c' ∧ At n c' j 2 ((1, .nt 2 i0) :: st) [] (lg + 1) := by
  obtain ⟨c', d, h1, h2⟩ := At.reduce (popped := [(2, .tok 0 i), (1, .nt v i0)]) h (quadInput_a hj) (r := 5) rfl (v := 2) (s := 2) rfl rfl (by
    intro read hr _
    have : i < read.length := by omega
    exact ⟨[.nt v, .tok read[i]], by simp [mkArgs, this], rfl⟩) rfl
  exact ⟨c', h1, h2⟩

/-- `L → L error` -/
theorem At.reduce2 {n j t lo hi v i0 lg} {c : Cfg Nat Nat} (h : At n c j 3 [(1, .err lo hi), (0, .nt v i0)] [2, 2, 2, 2] lg)
    (ht : (quadInput n)[j]? = some t) (hlo : lo ≤ hi + 1) (hhi : hi < c.read.length) :
    ∃ c', step id pQuad c = .more c' ∧ At n c' j 1 [(0, .nt 2 i0)] [] (lg + 1) := by
  have hact : pQuad.tab.act 3 (.sym t) = some (.reduce 2) := by
    unfold quadInput at ht
    rcases List.mem_append.1 (List.mem_of_getElem? ht) with h1 | h1
    · rw [List.eq_of_mem_replicate h1]; rfl
    · rw [List.mem_singleton.1 h1]; rfl
  obtain ⟨c', d, h1, h2⟩ := At.reduce (popped := [(1, .err lo hi), (0, .nt v i0)]) (rest := []) h ht hact (v := 2) (s := 1) rfl rfl (by
    intro read _ hr
    have : hi < read.length := by omega
    exact ⟨[.nt v, .err ((read.drop lo).take (hi + 1 - lo))], by simp [mkArgs, this, hlo], rfl⟩) rfl
  exact ⟨c', h1, h2⟩

/-- An error in front of `b`: everything behind the first token that was not yet under an `L` is read again. -/
theorem At.error {n q st i0 rest lg} {c : Cfg Nat Nat} (h : At n c n q st [] lg) (hi : i0 < n)
    (ha : pQuad.tab.act q (.sym 1) = none) {row : List (Term × Action Nat)} (hrow : get q pQuad.tab.action = some row)
    (hrec : recover pQuad.tab.errors false [] st q n n false = some (1, rest, [2, 2, 2, 2], i0, n, true)) :
    ∃ c', step id pQuad c = .more c' ∧ At n c' (i0 + 1) 3 ((1, .err i0 n) :: rest) [2, 2, 2, 2] lg ∧ n < c'.read.length := by
  obtain ⟨h1, h2, h3⟩ := h.fill quadInput_b
  have hb : (Par.fill id c).buffer = bufOf id (Par.fill id c).read n := h1.buffer
  have hstep : step id pQuad (Par.fill id c) = onError id pQuad (Par.fill id c) (.sym 1) n := by
    unfold step
    rw [fill_id h3]
    simp only [h3, h1.state, hrow]
    have : get (Term.sym 1) row = none := by
      unfold Tables.act at ha
      rw [hrow] at ha
      exact ha
    rw [this]
  have herr : onError id pQuad (Par.fill id c) (.sym 1) n = .more { Par.fill id c with
      state := 3, stack := (1, .err i0 n) :: rest, buffer := bufOf id (Par.fill id c).read (i0 + 1), recov := [2, 2, 2, 2] } := by
    unfold onError
    have : (Term.sym 1 == Term.eoi) = false := rfl
    rw [this, h1.recov, h1.stack, h1.state, hrec]
    simp only
    rw [hb, repush_bufOf (by omega)]
    simp only
    have h4 : get 1 pQuad.tab.action = some [(.err, .shift 3), (.sym 1, .shift 4), (.sym 0, .shift 5), (.eoi, .accept)] := rfl
    rw [h4]
    have h5 : get Term.err [(Term.err, Action.shift 3), (.sym 1, .shift 4), (.sym 0, .shift 5), (.eoi, .accept)] = some (.shift 3) := rfl
    simp only [h5]
    rw [Nat.min_eq_left (by omega), bufOf_cons (t := (Par.fill id c).read[i0]) (List.getElem?_eq_getElem (by omega))]
    rfl
  rw [← step_fill', hstep, herr]
  exact ⟨_, rfl, ⟨rfl, rfl, rfl, h1.log, h1.src, by simp only; omega, rfl⟩, h2⟩

def QReach (c c' : Cfg Nat Nat) : Prop := ∃ m, run id pQuad m c = .more c'

theorem QReach.one {c c' : Cfg Nat Nat} (h : step id pQuad c = .more c') : QReach c c' := ⟨1, by simp only [run, h]⟩

theorem QReach.trans {c c' c'' : Cfg Nat Nat} (h : QReach c c') (h' : QReach c' c'') : QReach c c'' := by
  obtain ⟨m, h⟩ := h
  obtain ⟨k, h'⟩ := h'
  exact ⟨m + k, by rw [run_add, h]; exact h'⟩

/-- Reading the rest of the `a`s, up to the error. -/
theorem At.scan (n : Nat) : ∀ (d : Nat) {j i0 v w i1 lg : Nat} {c : Cfg Nat Nat}, j + d + 1 = n → i0 < j →
    At n c j 2 [(1, .nt v i0), (0, .nt w i1)] [] lg →
    ∃ c', QReach c c' ∧ At n c' (i0 + 1) 3 [(1, .err i0 n), (0, .nt w i1)] [2, 2, 2, 2] (lg + d) ∧ n < c'.read.length := by
  intro d
  induction d with
  | zero =>
    intro j i0 v w i1 lg c hd hi h
    obtain ⟨c1, h1, h2⟩ := h.shift (quadInput_a (by omega)) (s := 7) rfl
    rw [show j + 1 = n by omega] at h2
    obtain ⟨c2, h3, h4, h5⟩ := h2.error (i0 := i0) (by omega) rfl rfl rfl
    exact ⟨c2, (QReach.one h1).trans (QReach.one h3), h4, h5⟩
  | succ d ih =>
    intro j i0 v w i1 lg c hd hi h
    obtain ⟨c1, h1, h2⟩ := h.shift (quadInput_a (by omega)) (s := 7) rfl
    obtain ⟨c2, h3, h4⟩ := h2.reduce5 (by omega) (by omega)
    obtain ⟨c3, h5, h6, h7⟩ := ih (by omega) (by omega) h4
    exact ⟨c3, ((QReach.one h1).trans (QReach.one h3)).trans h5, by rw [show lg + (d + 1) = lg + 1 + d by omega]; exact h6, h7⟩

/-- One error, and all the work until it. -/
theorem At.round {n j w i1 lg : Nat} {c : Cfg Nat Nat} (hj : j < n) (h : At n c j 1 [(0, .nt w i1)] [] lg) :
    ∃ c', QReach c c' ∧ At n c' (j + 1) 1 [(0, .nt 2 i1)] [] (lg + (n - j)) := by
  obtain ⟨c1, h1, h2⟩ := h.shift (quadInput_a hj) (s := 5) rfl
  have key : ∃ c', QReach c1 c' ∧ At n c' (j + 1) 3 [(1, .err j n), (0, .nt w i1)] [2, 2, 2, 2] (lg + (n - j - 1)) ∧ n < c'.read.length := by
    by_cases he : j + 1 = n
    · rw [he] at h2
      obtain ⟨c2, h3, h4, h5⟩ := h2.error (i0 := j) (by omega) rfl rfl rfl
      refine ⟨c2, QReach.one h3, ?_, h5⟩
      rw [show lg + (n - j - 1) = lg by omega]
      exact h4
    · obtain ⟨c2, h3, h4⟩ := h2.reduce4 (by omega) (by omega)
      obtain ⟨c3, h5, h6, h7⟩ := At.scan n (n - j - 2) (by omega) (by omega) h4
      refine ⟨c3, (QReach.one h3).trans h5, ?_, h7⟩
      rw [show lg + (n - j - 1) = lg + 1 + (n - j - 2) by omega]
      exact h6
  obtain ⟨c2, h3, h4, h5⟩ := key
  obtain ⟨t, ht⟩ : ∃ t, (quadInput n)[j + 1]? = some t := by
    by_cases he : j + 1 = n
    · exact ⟨1, by rw [he]; exact quadInput_b⟩
    · exact ⟨0, quadInput_a (by omega)⟩
  obtain ⟨c3, h6, h7⟩ := h4.reduce2 ht (by omega) h5
  refine ⟨c3, ((QReach.one h1).trans h3).trans (QReach.one h6), ?_⟩
  rw [show lg + (n - j) = lg + (n - j - 1) + 1 by omega]
  exact h7

theorem At.rounds (n : Nat) : ∀ (d : Nat) {j w i1 lg : Nat} {c : Cfg Nat Nat}, j + d = n → At n c j 1 [(0, .nt w i1)] [] lg →
    ∃ c' w', QReach c c' ∧ At n c' n 1 [(0, .nt w' i1)] [] (lg + d * (d + 1) / 2) := by
  intro d
  induction d with
  | zero =>
    intro j w i1 lg c hd h
    have : j = n := by omega
    subst this
    exact ⟨c, w, ⟨0, rfl⟩, h⟩
  | succ d ih =>
    intro j w i1 lg c hd h
    obtain ⟨c1, h1, h2⟩ := h.round (by omega)
    obtain ⟨c2, w', h3, h4⟩ := ih (by omega) h2
    refine ⟨c2, w', h1.trans h3, ?_⟩
    have : (d + 1) * (d + 1 + 1) / 2 = d * (d + 1) / 2 + (d + 1) := by
      rw [show (d + 1) * (d + 1 + 1) = d * (d + 1) + 2 * (d + 1) by rw [← Nat.add_mul, Nat.mul_comm]]
      omega
    rw [this, show lg + (d * (d + 1) / 2 + (d + 1)) = lg + (n - j) + d * (d + 1) / 2 by omega]
    exact h4

theorem At.start (n : Nat) : ∃ c w, QReach (Cfg.init pQuad (quadInput n)) c ∧ At n c 0 1 [(0, .nt 0 w)] [] 1 := by
  have h0 : At n (Cfg.init pQuad (quadInput n)) 0 0 [] [] 0 := ⟨rfl, rfl, rfl, rfl, rfl, Nat.le_refl _, rfl⟩
  obtain ⟨t, ht, ha⟩ : ∃ t, (quadInput n)[0]? = some t ∧ pQuad.tab.act 0 (.sym t) = some (.reduce 0) := by
    cases n with
    | zero => exact ⟨1, quadInput_b, rfl⟩
    | succ n => exact ⟨0, quadInput_a (by omega), rfl⟩
  obtain ⟨c', d, h1, h2⟩ := At.reduce (popped := []) (rest := []) h0 ht ha (v := 0) (s := 1) rfl rfl (by
    intro read _ _
    exact ⟨[], rfl, rfl⟩) rfl
  exact ⟨c', _, QReach.one h1, h2⟩

/-- The end: `b` and the end of the input. -/
theorem At.finish {n w i lg : Nat} {c : Cfg Nat Nat} (h : At n c n 1 [(0, .nt w i)] [] lg) :
    ∃ m c', run id pQuad m c = .done (.ok 2) c' ∧ c'.log.length = lg + 1 := by
  obtain ⟨c1, h1, h2⟩ := h.shift quadInput_b (s := 4) rfl
  have hlen : c1.read.length = n + 1 := by have := h2.read_le; have := h2.le; omega
  have hsrc : c1.src = [] := by
    have := congrArg List.length h2.src
    simp [quadInput] at this
    exact List.length_eq_zero_iff.1 (by omega)
  have hf : Par.fill id c1 = { c1 with buffer := [(.eoi, 0)], pulls := c1.pulls + 1 } := by
    unfold Par.fill
    rw [h2.buffer, bufOf_end (by omega)]
    simp only
    rw [hsrc]
  have hn : n < c1.read.length := by omega
  have k3 := onReduce_eq (p := pQuad) (c := Par.fill id c1) (r := 3) (popped := [(1, .tok 1 n), (0, .nt w i)]) (rest := [])
    (args := [.nt w, .tok c1.read[n]]) (v := 2) (s := 1) rfl (by rw [hf]; exact h2.stack) rfl (by rw [hf]; simp [mkArgs, hn]) rfl rfl
  have h3 : step id pQuad c1 = onReduce pQuad (Par.fill id c1) 3 := by
    rw [← step_fill', step_reduce (a := .eoi) (i := 0) (b := []) (r := 3) (by rw [hf]) (by rw [hf]; simp only; rw [h2.state]; rfl)]
  rw [k3, hf] at h3
  refine ⟨3, ?_⟩
  simp only [run, h1, h3]
  refine ⟨_, rfl, ?_⟩
  change (_ :: c1.log).length = _
  rw [List.length_cons, h2.log]

theorem quad_run (n : Nat) : ∃ c, ParsesTo id pQuad (quadInput n) (.ok 2) c ∧ c.log.length = n * (n + 1) / 2 + 2 := by
  obtain ⟨c1, i, ⟨m1, h1⟩, h2⟩ := At.start n
  obtain ⟨c2, w, ⟨m2, h3⟩, h4⟩ := At.rounds n n (by omega) h2
  obtain ⟨m3, c3, h5, h6⟩ := h4.finish
  refine ⟨c3, ⟨m1 + (m2 + m3), ?_⟩, by omega⟩
  rw [run_add, h1]
  simp only
  rw [run_add, h3]
  exact h5

end Verif.Par
