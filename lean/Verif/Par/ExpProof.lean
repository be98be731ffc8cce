import Verif.Par.QuadProof

/-!
# A grammar on which error recovery takes exponential time
-/

namespace Verif.Par

/-- Statements: `L → ε | L I`, `I → e ; | S w ; | error ;`, `S → { L }`, with `e` for an expression and `w` for `while (…)`. -/
def gDo : Gram :=
  ⟨[⟨0, []⟩, ⟨0, [.nt 0, .nt 1]⟩, ⟨1, [.tm (.sym 0), .tm (.sym 1)]⟩, ⟨1, [.nt 2, .tm (.sym 4), .tm (.sym 1)]⟩,
    ⟨1, [.tm .err, .tm (.sym 1)]⟩, ⟨2, [.tm (.sym 2), .nt 0, .tm (.sym 3)]⟩], 0⟩

def tDo : Tables :=
  { action := [(0, [(.sym 0, .reduce 0), (.sym 2, .reduce 0), (.err, .reduce 0), (.eoi, .reduce 0)]),
      (1, [(.sym 0, .shift 3), (.err, .shift 5), (.sym 2, .shift 6), (.eoi, .accept)]),
      (2, [(.sym 0, .reduce 1), (.sym 2, .reduce 1), (.err, .reduce 1), (.eoi, .reduce 1)]),
      (3, [(.sym 1, .shift 7)]),
      (4, [(.sym 4, .shift 8)]),
      (5, [(.sym 1, .shift 9)]),
      (6, [(.sym 0, .reduce 0), (.sym 2, .reduce 0), (.sym 3, .reduce 0), (.err, .reduce 0)]),
      (7, [(.sym 0, .reduce 2), (.sym 2, .reduce 2), (.err, .reduce 2), (.eoi, .reduce 2)]),
      (8, [(.sym 1, .shift 11)]),
      (9, [(.sym 0, .reduce 4), (.sym 2, .reduce 4), (.err, .reduce 4), (.eoi, .reduce 4)]),
      (10, [(.sym 0, .shift 13), (.err, .shift 15), (.sym 2, .shift 6), (.sym 3, .shift 16)]),
      (11, [(.sym 0, .reduce 3), (.sym 2, .reduce 3), (.err, .reduce 3), (.eoi, .reduce 3)]),
      (12, [(.sym 0, .reduce 1), (.sym 2, .reduce 1), (.sym 3, .reduce 1), (.err, .reduce 1)]),
      (13, [(.sym 1, .shift 17)]),
      (14, [(.sym 4, .shift 18)]),
      (15, [(.sym 1, .shift 19)]),
      (16, [(.sym 4, .reduce 5)]),
      (17, [(.sym 0, .reduce 2), (.sym 2, .reduce 2), (.sym 3, .reduce 2), (.err, .reduce 2)]),
      (18, [(.sym 1, .shift 20)]),
      (19, [(.sym 0, .reduce 4), (.sym 2, .reduce 4), (.sym 3, .reduce 4), (.err, .reduce 4)]),
      (20, [(.sym 0, .reduce 3), (.sym 2, .reduce 3), (.sym 3, .reduce 3), (.err, .reduce 3)])]
    goto := [(0, [(0, 1)]), (1, [(1, 2), (2, 4)]), (6, [(0, 10)]), (10, [(1, 12), (2, 14)])]
    errors := [(1, [4, 4, 4, 4]), (10, [4, 4, 4, 4])]
    start := 0 }

def pDo : Parser Nat Nat Nat := ⟨plainRules gDo ++ [⟨3, [.nt 0], fun _ => .error 0⟩], tDo⟩

theorem pDo_makes : MakesParser idSeeds (plainRules gDo) 0 pDo [] := ⟨⟨60, by decide +kernel, by simp⟩, _, rfl⟩

/-- `{ e ; { e ; … } w } w`: `n` blocks inside of each other, where the `;` behind `w` is missing. -/
def nest : Nat → List Nat
  | 0 => []
  | n + 1 => [2, 0, 1] ++ nest n ++ [3, 4]

/-- The outermost block is correct. -/
def doInput (n : Nat) : List Nat := nest n ++ [1]

theorem nest_length (n : Nat) : (nest n).length = 5 * n := by
  induction n with
  | zero => rfl
  | succ n ih => simp [nest, ih]; omega

theorem doInput_length (n : Nat) : (doInput n).length = 5 * n + 1 := by simp [doInput, nest_length]

/-- The way in. -/
theorem nest_open (n : Nat) : ∀ i, i < n → (nest n)[3 * i]? = some 2 ∧ (nest n)[3 * i + 1]? = some 0 ∧ (nest n)[3 * i + 2]? = some 1 := by
  induction n with
  | zero => intro i h; omega
  | succ n ih =>
    intro i h
    cases i with
    | zero => exact ⟨rfl, rfl, rfl⟩
    | succ i =>
      have hl := nest_length n
      obtain ⟨h1, h2, h3⟩ := ih i (by omega)
      have key : ∀ j t, (nest n)[j]? = some t → (nest (n + 1))[j + 3]? = some t := by
        intro j t hj
        have hlt : j < (nest n).length := by
          rw [List.getElem?_eq_some_iff] at hj; exact hj.1
        simp only [nest, List.cons_append, List.nil_append, List.getElem?_cons_succ]
        rw [List.getElem?_append_left hlt]
        exact hj
      exact ⟨key _ _ h1, key _ _ h2, key _ _ h3⟩

/-- The innermost two closings. -/
theorem nest_close (n : Nat) : ∀ j t, ([3, 4, 3, 4] : List Nat)[j]? = some t → (nest (n + 2))[3 * (n + 2) + j]? = some t := by
  induction n with
  | zero =>
    intro j t h
    rw [show 3 * (0 + 2) + j = j + 6 by omega]
    exact h
  | succ n ih =>
    intro j t h
    have := ih j t h
    have hlt : 3 * (n + 2) + j < (nest (n + 2)).length := by
      rw [List.getElem?_eq_some_iff] at this; exact this.1
    rw [show n + 1 + 2 = (n + 2) + 1 by omega, nest, show 3 * (n + 2 + 1) + j = 3 * (n + 2) + j + 3 by omega]
    simp only [List.cons_append, List.nil_append, List.getElem?_cons_succ]
    rw [List.getElem?_append_left hlt]
    exact this

theorem doInput_nest {n j t : Nat} (h : (nest n)[j]? = some t) : (doInput n)[j]? = some t := by
  have hlt : j < (nest n).length := by
    rw [List.getElem?_eq_some_iff] at h; exact h.1
  rw [doInput, List.getElem?_append_left hlt]
  exact h

/-- A moment of the parse: token `j` is next. -/
structure AtE (n : Nat) (c : Cfg Nat Nat) (j q : Nat) (st : List (Nat × SSym Nat)) (lg : Nat) : Prop where
  state : c.state = q
  stack : c.stack = st
  recov : c.recov = [] ∨ c.recov = [4, 4, 4, 4]
  log : c.log.length = lg
  src : c.read ++ c.src = doInput n
  le : j ≤ c.read.length
  buffer : c.buffer = bufOf id c.read j

theorem AtE.fill {m j q st lg} {c : Cfg Nat Nat} (h : AtE m c j q st lg) {t : Nat} (ht : (doInput m)[j]? = some t) :
    AtE m (Par.fill id c) j q st lg ∧ j < (Par.fill id c).read.length ∧
      (Par.fill id c).buffer = (.sym t, j) :: bufOf id (Par.fill id c).read (j + 1) := by
  by_cases hlt : j < c.read.length
  · have hb : c.buffer = (.sym t, j) :: bufOf id c.read (j + 1) := by
      rw [h.buffer]
      refine bufOf_cons ?_
      rw [← h.src, List.getElem?_append_left hlt] at ht
      exact ht
    rw [fill_id hb]
    exact ⟨h, hlt, hb⟩
  · have hj : j = c.read.length := by have := h.le; omega
    have hb : c.buffer = [] := by rw [h.buffer]; exact bufOf_end (by omega)
    have hs : c.src = t :: c.src.drop 1 := by
      rw [← h.src, List.getElem?_append_right (by omega), hj, Nat.sub_self] at ht
      cases hc : c.src with
      | nil => rw [hc] at ht; cases ht
      | cons x l => rw [hc] at ht; cases ht; rfl
    have hf : Par.fill id c = { c with buffer := [(.sym t, c.read.length)], read := c.read ++ [t], src := c.src.drop 1, pulls := c.pulls + 1 } := by
      unfold Par.fill
      rw [hb]
      simp only
      rw [hs]
      rfl
    have hbuf : bufOf id (c.read ++ [t]) j = [(.sym t, j)] := by
      rw [bufOf_cons (t := t) (by rw [List.getElem?_append_right (by omega), hj, Nat.sub_self]; rfl), bufOf_end (by simp; omega)]
      rfl
    rw [hf]
    refine ⟨⟨h.state, h.stack, h.recov, h.log, ?_, by simp; omega, ?_⟩, by simp; omega, ?_⟩
    · simp only
      rw [List.append_assoc, List.singleton_append, ← hs]
      exact h.src
    · simp only
      rw [hbuf, hj]
    · simp only
      rw [bufOf_end (by simp; omega), hj]

def EReach (c c' : Cfg Nat Nat) : Prop := (∃ m, run id pDo m c = .more c') ∧ c.read.length ≤ c'.read.length

theorem EReach.one {c c' : Cfg Nat Nat} (h : step id pDo c = .more c') (hl : c.read.length ≤ c'.read.length) : EReach c c' :=
  ⟨⟨1, by simp only [run, h]⟩, hl⟩

theorem EReach.trans {c c' c'' : Cfg Nat Nat} (h : EReach c c') (h' : EReach c' c'') : EReach c c'' := by
  obtain ⟨⟨m, h⟩, l⟩ := h
  obtain ⟨⟨k, h'⟩, l'⟩ := h'
  exact ⟨⟨m + k, by rw [run_add, h]; exact h'⟩, Nat.le_trans l l'⟩

theorem AtE.shift {m j q st lg} {c : Cfg Nat Nat} (h : AtE m c j q st lg) {t s : Nat} (ht : (doInput m)[j]? = some t)
    (ha : pDo.tab.act q (.sym t) = some (.shift s)) :
    ∃ c', EReach c c' ∧ AtE m c' (j + 1) s ((q, .tok t j) :: st) lg := by
  obtain ⟨h1, h2, h3⟩ := h.fill ht
  have hstep := step_shift (idx := id) h3 (by rw [h1.state]; exact ha)
  rw [step_fill'] at hstep
  refine ⟨_, .one hstep (fill_length c), ⟨rfl, ?_, h1.recov, h1.log, h1.src, h2, rfl⟩⟩
  simp only
  rw [h1.state, h1.stack]

theorem AtE.reduce {m j q rest lg} {popped : List (Nat × SSym Nat)} {c : Cfg Nat Nat} (h : AtE m c j q (popped ++ rest) lg) {t r : Nat}
    (ht : (doInput m)[j]? = some t) (ha : pDo.tab.act q (.sym t) = some (.reduce r)) {rule : Rule Nat Nat Nat} {v s q0 : Nat}
    (hr : pDo.rules[r]? = some rule) (hl : popped.length = rule.rhs.length)
    (hargs : ∀ read : List Nat, c.read.length ≤ read.length → j < read.length →
      ∃ args, mkArgs read 0 (popped.reverse.map Prod.snd) = some args ∧ rule.gen args = .ok v)
    (hq : (popped.reverse.head?.map Prod.fst).getD q = q0)
    (hs : (get q0 pDo.tab.goto).bind (get rule.lhs) = some s) :
    ∃ c' d, EReach c c' ∧ AtE m c' j s ((q0, .nt v (firstIndex d (popped.reverse.map Prod.snd))) :: rest) (lg + 1) := by
  obtain ⟨h1, h2, h3⟩ := h.fill ht
  obtain ⟨args, k1, k2⟩ := hargs _ (fill_length c) h2
  have k3 := onReduce_eq hr h1.stack hl k1 k2 (by rw [h1.state, hq]; exact hs)
  have hstep := step_reduce (idx := id) (p := pDo) h3 (by rw [h1.state]; exact ha)
  rw [step_fill', k3] at hstep
  refine ⟨_, (Par.fill id c).read.length, .one hstep (fill_length c), ⟨rfl, ?_, ?_, ?_, h1.src, h1.le, h1.buffer⟩⟩
  · simp only; rw [h1.state, hq]
  · simp only
    split
    · exact .inl rfl
    · exact h1.recov
  · simp only; rw [List.length_cons, h1.log]

theorem AtE.error {m j q st q0 i eh rest lg t s} {c : Cfg Nat Nat} (h : AtE m c j q st lg) (ht : (doInput m)[j]? = some t) (hi : i ≤ j)
    {row : List (Term × Action Nat)} (hrow : get q pDo.tab.action = some row) (ha : get (Term.sym t) row = none)
    (hrec : ∀ rc, rc = [] ∨ rc = [4, 4, 4, 4] → recover pDo.tab.errors false rc st q j j false = some (q0, rest, [4, 4, 4, 4], i, eh, true))
    {row0 : List (Term × Action Nat)} (hrow0 : get q0 pDo.tab.action = some row0) (ha0 : get Term.err row0 = some (.shift s)) :
    ∃ c', EReach c c' ∧ AtE m c' (i + 1) s ((q0, .err (min i eh) j) :: rest) lg ∧ j < c'.read.length := by
  obtain ⟨h1, h2, h3⟩ := h.fill ht
  have hb : (Par.fill id c).buffer = bufOf id (Par.fill id c).read j := h1.buffer
  have hstep : step id pDo (Par.fill id c) = onError id pDo (Par.fill id c) (.sym t) j := by
    unfold step
    rw [fill_id h3]
    simp only [h3, h1.state, hrow, ha]
  have herr : onError id pDo (Par.fill id c) (.sym t) j = .more { Par.fill id c with
      state := s, stack := (q0, .err (min i eh) j) :: rest, buffer := bufOf id (Par.fill id c).read (i + 1), recov := [4, 4, 4, 4] } := by
    unfold onError
    have : (Term.sym t == Term.eoi) = false := rfl
    rw [this, h1.stack, h1.state, hrec _ h1.recov]
    simp only
    rw [hb, repush_bufOf (by omega)]
    simp only [hrow0, ha0]
    rw [Nat.min_eq_left (by omega : i ≤ j), bufOf_cons (t := (Par.fill id c).read[i]) (List.getElem?_eq_getElem (by omega))]
    rfl
  rw [herr, step_fill'] at hstep
  exact ⟨_, .one hstep (fill_length c), ⟨rfl, rfl, .inr rfl, h1.log, h1.src, by simp only; omega, rfl⟩, h2⟩

/-- How many callbacks there are for `n` blocks without `;`. -/
def work : Nat → Nat
  | 0 => 0
  | n + 1 => 2 * work n + 6

theorem work_eq (n : Nat) : work n + 6 = 6 * 2 ^ n := by
  induction n with
  | zero => rfl
  | succ n ih => rw [work, Nat.pow_succ]; omega

/-- A statement `e ;` or `error ;` at the end of the list is behind us. -/
theorem AtE.item {n j lg w x i v : Nat} {st : List (Nat × SSym Nat)} {c : Cfg Nat Nat}
    (h : AtE n c j 12 ((10, .nt w x) :: (6, .nt v i) :: st) lg) {t : Nat} (ht : (doInput n)[j]? = some t) (ht' : t = 2 ∨ t = 3) :
    ∃ c', EReach c c' ∧ AtE n c' j 10 ((6, .nt 2 i) :: st) (lg + 1) := by
  obtain ⟨c1, d, r1, h1⟩ := AtE.reduce (popped := [(10, .nt w x), (6, .nt v i)]) (rest := st) h ht (r := 1) (by rcases ht' with rfl | rfl <;> rfl)
    (v := 2) (s := 10) (q0 := 6) rfl rfl (by
      intro read _ _
      exact ⟨[.nt v, .nt w], rfl, rfl⟩) rfl rfl
  exact ⟨c1, r1, h1⟩

/-- All blocks from here on are read, inside of a block. -/
theorem AtE.blocks (n : Nat) : ∀ (r : Nat) {k v i lg : Nat} {st : List (Nat × SSym Nat)} {c : Cfg Nat Nat}, k + r = n + 2 →
    AtE (n + 2) c (3 * k) 10 ((6, .nt v i) :: st) lg →
    ∃ c' v', EReach c c' ∧ AtE (n + 2) c' (3 * (n + 2)) 10 ((6, .nt v' i) :: st) (lg + work r) := by
  have z0 := doInput_nest (nest_close n 0 3 rfl)
  have z1 := doInput_nest (nest_close n 1 4 rfl)
  have z2 := doInput_nest (nest_close n 2 3 rfl)
  intro r
  induction r with
  | zero =>
    intro k v i lg st c hk h
    have : k = n + 2 := by omega
    subst this
    exact ⟨c, v, ⟨⟨0, rfl⟩, Nat.le_refl _⟩, h⟩
  | succ r ih =>
    intro k v i lg st c hk h
    obtain ⟨o1, o2, o3⟩ := nest_open (n + 2) k (by omega)
    have o1 := doInput_nest o1
    have o2 := doInput_nest o2
    have o3 := doInput_nest o3
    obtain ⟨t, ht, ht'⟩ : ∃ t, (doInput (n + 2))[3 * k + 2 + 1]? = some t ∧ (t = 2 ∨ t = 3) := by
      by_cases he : k + 1 = n + 2
      · exact ⟨3, by rw [show 3 * k + 2 + 1 = 3 * (n + 2) + 0 by omega]; exact z0, .inr rfl⟩
      · exact ⟨2, doInput_nest (nest_open (n + 2) (k + 1) (by omega)).1, .inl rfl⟩
    -- `{ e ;`
    obtain ⟨c1, r1, h1⟩ := h.shift (t := 2) (s := 6) o1 rfl
    obtain ⟨c2, d2, r2, h2⟩ := AtE.reduce (popped := []) (rest := (10, .tok 2 (3 * k)) :: (6, .nt v i) :: st) h1 (t := 0) (r := 0) o2 rfl
      (v := 0) (s := 10) (q0 := 6) rfl rfl (fun read _ _ => ⟨[], rfl, rfl⟩) rfl rfl
    obtain ⟨c3, r3, h3⟩ := h2.shift (t := 0) (s := 13) o2 rfl
    obtain ⟨c4, r4, h4⟩ := h3.shift (t := 1) (s := 17) o3 rfl
    obtain ⟨c5, d5, r5, h5⟩ := AtE.reduce (popped := [(13, .tok 1 (3 * k + 1 + 1)), (10, .tok 0 (3 * k + 1))]) h4 (r := 2) ht (by rcases ht' with rfl | rfl <;> rfl)
      (v := 2) (s := 12) (q0 := 10) rfl rfl (by
        intro read _ e
        have e1 : 3 * k + 1 < read.length := by omega
        have e2 : 3 * k + 1 + 1 < read.length := by omega
        exact ⟨[.tok read[3 * k + 1], .tok read[3 * k + 1 + 1]], by simp [mkArgs, e1, e2], rfl⟩) rfl rfl
    obtain ⟨c6, r6, h6⟩ := h5.item ht ht'
    -- the blocks inside
    obtain ⟨c7, v7, r7, h7⟩ := ih (k := k + 1) (by omega) h6
    -- `} w` and an error
    obtain ⟨c8, r8, h8⟩ := h7.shift (t := 3) (s := 16) z0 rfl
    obtain ⟨c9, d9, r9, h9⟩ := AtE.reduce (popped := [(10, .tok 3 (3 * (n + 2))), (6, .nt v7 _), (10, .tok 2 (3 * k))]) h8 (t := 4) (r := 5) z1 rfl
      (v := 3) (s := 14) (q0 := 10) rfl rfl (by
        intro read _ e
        have e1 : 3 * k < read.length := by omega
        have e2 : 3 * (n + 2) < read.length := by omega
        exact ⟨[.tok read[3 * k], .nt v7, .tok read[3 * (n + 2)]], by simp [mkArgs, e1, e2]; omega, rfl⟩) rfl rfl
    obtain ⟨c10, r10, h10⟩ := h9.shift (t := 4) (s := 18) z1 rfl
    obtain ⟨c11, r11, h11, _⟩ := h10.error (q0 := 10) (i := 3 * k) (eh := 3 * (n + 2) + 1 + 1) (rest := (6, .nt v i) :: st) (t := 3) (s := 15) z2 (by omega) rfl rfl
      (by rintro rc (rfl | rfl) <;> rfl) rfl rfl
    -- `e` is skipped
    obtain ⟨c12, r12, h12, _⟩ := h11.error (q0 := 10) (i := 3 * k + 1) (eh := min (3 * k) (3 * (n + 2) + 1 + 1)) (rest := (6, .nt v i) :: st) (t := 0) (s := 15) o2 (by omega) rfl rfl
      (by rintro rc (rfl | rfl) <;> rfl) rfl rfl
    obtain ⟨c13, r13, h13⟩ := h12.shift (t := 1) (s := 19) o3 rfl
    obtain ⟨c14, d14, r14, h14⟩ := AtE.reduce (popped := [(15, .tok 1 (3 * k + 1 + 1)), (10, .err (min (3 * k + 1) (min (3 * k) (3 * (n + 2) + 1 + 1))) (3 * k + 1))]) h13 (r := 4) ht
      (by rcases ht' with rfl | rfl <;> rfl)
      (v := 2) (s := 12) (q0 := 10) rfl rfl (by
        intro read _ e
        have e1 : 3 * k + 1 < read.length := by omega
        have e2 : 3 * k + 1 + 1 < read.length := by omega
        refine ⟨[.err ((read.drop (min (3 * k + 1) (min (3 * k) (3 * (n + 2) + 1 + 1)))).take (3 * k + 1 + 1 - min (3 * k + 1) (min (3 * k) (3 * (n + 2) + 1 + 1)))),
          .tok read[3 * k + 1 + 1]], ?_, rfl⟩
        simp only [List.reverse_cons, List.reverse_nil, List.nil_append, List.cons_append, List.map_cons, List.map_nil, mkArgs]
        rw [if_pos ⟨by omega, e1⟩]
        simp [e2]) rfl rfl
    obtain ⟨c15, r15, h15⟩ := h14.item ht ht'
    -- the blocks inside, once more
    obtain ⟨c16, v16, r16, h16⟩ := ih (k := k + 1) (by omega) h15
    refine ⟨c16, v16, r1.trans (r2.trans (r3.trans (r4.trans (r5.trans (r6.trans (r7.trans (r8.trans (r9.trans (r10.trans (r11.trans
      (r12.trans (r13.trans (r14.trans (r15.trans r16)))))))))))))), ?_⟩
    rw [show lg + work (r + 1) = lg + 1 + 1 + 1 + work r + 1 + 1 + 1 + work r by rw [work]; omega]
    exact h16

/-- A moment of the parse with many calls of callbacks behind it. -/
theorem do_calls (n : Nat) : ∃ m c, run id pDo m (Cfg.init pDo (doInput (n + 2))) = .more c ∧ 2 ^ (n + 2) ≤ c.log.length := by
  obtain ⟨o1, o2, o3⟩ := nest_open (n + 2) 0 (by omega)
  have o1 := doInput_nest o1
  have o2 := doInput_nest o2
  have o3 := doInput_nest o3
  have ht := doInput_nest (nest_open (n + 2) 1 (by omega)).1
  have h0 : AtE (n + 2) (Cfg.init pDo (doInput (n + 2))) 0 0 [] 0 := ⟨rfl, rfl, .inl rfl, rfl, rfl, Nat.le_refl _, rfl⟩
  obtain ⟨c0, d0, r0, h0⟩ := AtE.reduce (popped := []) (rest := []) h0 (t := 2) (r := 0) o1 rfl
    (v := 0) (s := 1) (q0 := 0) rfl rfl (fun read _ _ => ⟨[], rfl, rfl⟩) rfl rfl
  obtain ⟨c1, r1, h1⟩ := h0.shift (t := 2) (s := 6) o1 rfl
  obtain ⟨c2, d2, r2, h2⟩ := AtE.reduce (popped := []) h1 (t := 0) (r := 0) o2 rfl
    (v := 0) (s := 10) (q0 := 6) rfl rfl (fun read _ _ => ⟨[], rfl, rfl⟩) rfl rfl
  obtain ⟨c3, r3, h3⟩ := h2.shift (t := 0) (s := 13) o2 rfl
  obtain ⟨c4, r4, h4⟩ := h3.shift (t := 1) (s := 17) o3 rfl
  obtain ⟨c5, d5, r5, h5⟩ := AtE.reduce (popped := [(13, .tok 1 2), (10, .tok 0 1)]) h4 (t := 2) (r := 2) ht rfl
    (v := 2) (s := 12) (q0 := 10) rfl rfl (by
      intro read _ e
      have e1 : 1 < read.length := by omega
      have e2 : 2 < read.length := by omega
      exact ⟨[.tok read[1], .tok read[2]], by simp [mkArgs, e1, e2], rfl⟩) rfl rfl
  obtain ⟨c6, r6, h6⟩ := h5.item ht (.inl rfl)
  obtain ⟨c7, v7, r7, h7⟩ := AtE.blocks n (n + 1) (k := 1) (by omega) h6
  obtain ⟨⟨m, hm⟩, _⟩ := r0.trans (r1.trans (r2.trans (r3.trans (r4.trans (r5.trans (r6.trans r7))))))
  refine ⟨m, c7, hm, ?_⟩
  rw [h7.log]
  have := work_eq (n + 1)
  have e1 : 2 ^ (n + 2) = 2 * 2 ^ (n + 1) := by rw [Nat.pow_succ 2 (n + 1)]; omega
  omega

end Verif.Par
