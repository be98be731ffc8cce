import Verif.Par.TestMain
import Verif.Par.HeightProof

/-!
# The run of the program of `parser_generator/tests/main.rs`
-/

namespace Verif.Par.TestMain

open Verif.Par

def table : Tables :=
  { action := [(0, [(.sym 0, .shift 4), (.err, .shift 5)]), (1, [(.sym 1, .shift 6), (.eoi, .accept)]),
      (2, [(.sym 2, .shift 7), (.sym 1, .reduce 1), (.eoi, .reduce 1)]),
      (3, [(.sym 1, .reduce 3), (.sym 2, .reduce 3), (.eoi, .reduce 3)]),
      (4, [(.sym 1, .reduce 4), (.sym 2, .reduce 4), (.eoi, .reduce 4)]),
      (5, [(.sym 1, .reduce 5), (.sym 2, .reduce 5), (.eoi, .reduce 5)]),
      (6, [(.sym 0, .shift 4), (.err, .shift 5)]), (7, [(.sym 0, .shift 4), (.err, .shift 5)]),
      (8, [(.sym 2, .shift 7), (.sym 1, .reduce 0), (.eoi, .reduce 0)]),
      (9, [(.sym 1, .reduce 2), (.sym 2, .reduce 2), (.eoi, .reduce 2)])]
    goto := [(0, [(0, 1), (1, 2), (2, 3)]), (6, [(1, 8), (2, 3)]), (7, [(2, 9)])]
    errors := [(0, [5, 5, 5]), (6, [5, 5, 5]), (7, [5, 5, 5])]
    start := 0 }

def pT : Parser Nt Tok (List Tok) := ⟨rules ++ [⟨3, [.nt 0], fun _ => .error []⟩], table⟩

abbrev C := Cfg Nt Tok
abbrev St := List (Nat × SSym Nt)

/-- Some rounds later. -/
def To (c c' : C) : Prop := ∃ n, run Tok.index pT n c = .more c'

theorem To.refl (c : C) : To c c := ⟨0, rfl⟩

theorem To.trans {a b c : C} (h : To a b) (h' : To b c) : To a c := by
  obtain ⟨n, h⟩ := h
  obtain ⟨m, h'⟩ := h'
  exact ⟨n + m, by rw [run_add, h]; exact h'⟩

theorem step_fill (c : C) : step Tok.index pT (fill Tok.index c) = step Tok.index pT c := by
  have : fill Tok.index (fill Tok.index c) = fill Tok.index c := by
    obtain ⟨st, read, src, buffer, stack, recov, log, pulls⟩ := c
    cases buffer <;> cases src <;> rfl
  unfold step
  rw [this]

theorem To.step {a b : C} (h : step Tok.index pT a = .more b) : To a b := ⟨1, by simp [run, h]⟩

/-- The last round. -/
def Fin (c : C) (x : Except (PErr (List Tok)) Nt) : Prop := ∃ n c', run Tok.index pT n c = .done x c'

theorem Fin.of {a b : C} {x} (h : To a b) {d} (hd : step Tok.index pT b = .done x d) : Fin a x := by
  obtain ⟨n, h⟩ := h
  exact ⟨n + 1, d, by rw [run_snoc n _ _ h, hd]⟩

def factors (ts : List Nat) : List Nt := ts.map fun n => .f (.num n)
def terms (es : List (List Nat)) : List Nt := es.map fun l => .t (factors l)

/-- In front of an operand. -/
inductive Wait (m : Nat) : Nat → St → List (List Nat) → List Nat → Prop
  | start : Wait m 0 [] [] []
  | plus (i k es) : i < m → Wait m 6 [(1, .tok 1 i), (0, .nt (.e (terms es)) k)] es []
  | star (i k ts) : i < m → Wait m 7 [(2, .tok 2 i), (0, .nt (.t (factors ts)) k)] [] ts
  | both (i k i' k' es ts) : i < m → i' < m →
      Wait m 7 [(8, .tok 2 i), (6, .nt (.t (factors ts)) k), (1, .tok 1 i'), (0, .nt (.e (terms es)) k')] es ts

/-- Behind a product. -/
inductive Term1 (m : Nat) : Nat → St → List (List Nat) → List Nat → Prop
  | first (k ts) : Term1 m 2 [(0, .nt (.t (factors ts)) k)] [] ts
  | later (k i k' es ts) : i < m → Term1 m 8 [(6, .nt (.t (factors ts)) k), (1, .tok 1 i), (0, .nt (.e (terms es)) k')] es ts

theorem Wait.mono {m m' st stack es ts} (h : Wait m st stack es ts) (hm : m ≤ m') : Wait m' st stack es ts := by
  cases h
  · exact .start
  · exact .plus _ _ _ (by omega)
  · exact .star _ _ _ (by omega)
  · exact .both _ _ _ _ _ _ (by omega) (by omega)

theorem get_lt {read : List Tok} {i m : Nat} (h : i < m) (hm : m < read.length) : ∃ t, read[i]? = some t :=
  ⟨_, List.getElem?_eq_getElem (by omega)⟩

/-- The operand is a number, and what comes next ends it. -/
theorem number_done {m st stack es ts} (hw : Wait m st stack es ts) {read : List Tok} {n : Nat} (hm : m < read.length) (hn : read[m]? = some (.num n))
    (a : Term) (ha : a = .sym 1 ∨ a = .sym 2 ∨ a = .eoi) (x : Nat) (src log pulls)
    (c : C) (hc : fill Tok.index c = ⟨4, read, src, [(a, x)], (st, .tok 0 m) :: stack, [], log, pulls⟩) :
    ∃ st' stack' log', Term1 m st' stack' es (ts ++ [n]) ∧
      To c ⟨st', read, src, [(a, x)], stack', [], log', pulls⟩ := by
  have h1 : To c
      ⟨if st = 7 then 9 else 3, read, src, [(a, x)], (st, .nt (.f (.num n)) m) :: stack, [], (4, [.tok (.num n)]) :: log, pulls⟩ := by
    apply To.step
    rw [← step_fill, hc]
    cases hw <;> rcases ha with rfl | rfl | rfl <;>
      simp [step, fill, onReduce, pT, table, get, rules, mkArgs, hn, onNumber, firstIndex]
  cases hw with
  | start =>
    refine ⟨_, _, (3, [.nt (.f (.num n))]) :: (4, [.tok (.num n)]) :: log, .first m [n], h1.trans (To.step ?_)⟩
    rcases ha with rfl | rfl | rfl <;> simp [step, fill, onReduce, pT, table, get, rules, mkArgs, onProd, firstIndex, factors]
  | plus i k es hi =>
    refine ⟨_, _, (3, [.nt (.f (.num n))]) :: (4, [.tok (.num n)]) :: log, .later m i k es [n] hi, h1.trans (To.step ?_)⟩
    rcases ha with rfl | rfl | rfl <;> simp [step, fill, onReduce, pT, table, get, rules, mkArgs, onProd, firstIndex, factors]
  | star i k ts hi =>
    obtain ⟨t, ht⟩ := get_lt hi hm
    refine ⟨_, _, (2, [.nt (.t (factors ts)), .tok t, .nt (.f (.num n))]) :: (4, [.tok (.num n)]) :: log, .first k (ts ++ [n]), h1.trans (To.step ?_)⟩
    rcases ha with rfl | rfl | rfl <;> simp [step, fill, onReduce, pT, table, get, rules, mkArgs, onStar, firstIndex, factors, ht]
  | both i k i' k' es ts hi hi' =>
    obtain ⟨t, ht⟩ := get_lt hi hm
    refine ⟨_, _, (2, [.nt (.t (factors ts)), .tok t, .nt (.f (.num n))]) :: (4, [.tok (.num n)]) :: log, .later k i' k' es (ts ++ [n]) hi', h1.trans (To.step ?_)⟩
    rcases ha with rfl | rfl | rfl <;> simp [step, fill, onReduce, pT, table, get, rules, mkArgs, onStar, firstIndex, factors, ht]

/-- The product is added to the sum. -/
theorem term_done {m st stack es ts} (hw : Term1 m st stack es ts) {read : List Tok} (hm : m < read.length)
    (a : Term) (ha : a = .sym 1 ∨ a = .eoi) (x : Nat) (src log pulls) :
    ∃ k log', To ⟨st, read, src, [(a, x)], stack, [], log, pulls⟩ ⟨1, read, src, [(a, x)], [(0, .nt (.e (terms (es ++ [ts]))) k)], [], log', pulls⟩ := by
  cases hw with
  | first k ts =>
    refine ⟨k, (1, [.nt (.t (factors ts))]) :: log, To.step ?_⟩
    rcases ha with rfl | rfl <;> simp [step, fill, onReduce, pT, table, get, rules, mkArgs, onSum, firstIndex, terms]
  | later k i k' es ts hi =>
    obtain ⟨t, ht⟩ := get_lt hi hm
    refine ⟨k', (0, [.nt (.e (terms es)), .tok t, .nt (.t (factors ts))]) :: log, To.step ?_⟩
    rcases ha with rfl | rfl <;> simp [step, fill, onReduce, pT, table, get, rules, mkArgs, onPlus, firstIndex, terms, ht]

/-- The next token, in front of an operand, is a number. -/
theorem number_read {m st stack es ts} (hw : Wait m st stack es ts) (read : List Tok) (hm : m = read.length) (n : Nat) (src log pulls) :
    To ⟨st, read, .num n :: src, [], stack, [], log, pulls⟩ ⟨4, read ++ [.num n], src, [], (st, .tok 0 m) :: stack, [], log, pulls + 1⟩ := by
  subst hm
  apply To.step
  cases hw <;> simp [step, fill, Tok.index, pT, table, get]

/-- The configuration in front of an operand. -/
def At (input : List Tok) (c : C) (rest : List Tok) (es : List (List Nat)) (ts : List Nat) : Prop :=
  ∃ st read stack log pulls, c = ⟨st, read, rest, [], stack, [], log, pulls⟩ ∧ Wait read.length st stack es ts ∧ read ++ rest = input

theorem At.plus {input c rest es ts n} (h : At input c (.num n :: .plus :: rest) es ts) :
    ∃ c', To c c' ∧ At input c' rest (es ++ [ts ++ [n]]) [] := by
  obtain ⟨st, read, stack, log, pulls, rfl, hw, hi⟩ := h
  have h1 := number_read hw read rfl n (.plus :: rest) log pulls
  have hf : fill Tok.index ⟨4, read ++ [.num n], .plus :: rest, [], (st, .tok 0 read.length) :: stack, [], log, pulls + 1⟩ =
      ⟨4, read ++ [.num n] ++ [.plus], rest, [(.sym 1, (read ++ [Tok.num n]).length)], (st, .tok 0 read.length) :: stack, [], log, pulls + 1 + 1⟩ := rfl
  obtain ⟨st', stack', log', h2, h3⟩ := number_done hw (read := read ++ [.num n] ++ [.plus]) (n := n) (by simp only [List.length_append, List.length_cons, List.length_nil]; omega) (by simp) (.sym 1) (Or.inl rfl)
    (read ++ [Tok.num n]).length rest log (pulls + 1 + 1) _ hf
  obtain ⟨k, log'', h4⟩ := term_done h2 (read := read ++ [.num n] ++ [.plus]) (by simp only [List.length_append, List.length_cons, List.length_nil]; omega) (.sym 1) (Or.inl rfl) (read ++ [Tok.num n]).length rest log' (pulls + 1 + 1)
  refine ⟨_, h1.trans (h3.trans (h4.trans (To.step (b := ⟨6, read ++ [.num n] ++ [.plus], rest, [], [(1, .tok 1 (read ++ [Tok.num n]).length), (0, .nt (.e (terms (es ++ [ts ++ [n]]))) k)], [], log'', pulls + 1 + 1⟩) ?_))), _, _, _, _, _, rfl, .plus _ _ _ (by simp), ?_⟩
  · simp [step, fill, pT, table, get]
  · simp [← hi]

theorem At.star {input c rest es ts n} (h : At input c (.num n :: .star :: rest) es ts) :
    ∃ c', To c c' ∧ At input c' rest es (ts ++ [n]) := by
  obtain ⟨st, read, stack, log, pulls, rfl, hw, hi⟩ := h
  have h1 := number_read hw read rfl n (.star :: rest) log pulls
  have hf : fill Tok.index ⟨4, read ++ [.num n], .star :: rest, [], (st, .tok 0 read.length) :: stack, [], log, pulls + 1⟩ =
      ⟨4, read ++ [.num n] ++ [.star], rest, [(.sym 2, (read ++ [Tok.num n]).length)], (st, .tok 0 read.length) :: stack, [], log, pulls + 1 + 1⟩ := rfl
  obtain ⟨st', stack', log', h2, h3⟩ := number_done hw (read := read ++ [.num n] ++ [.star]) (n := n) (by simp only [List.length_append, List.length_cons, List.length_nil]; omega) (by simp) (.sym 2) (Or.inr (Or.inl rfl))
    (read ++ [Tok.num n]).length rest log (pulls + 1 + 1) _ hf
  cases h2 with
  | first k ts =>
    refine ⟨_, h1.trans (h3.trans (To.step (b := ⟨7, read ++ [.num n] ++ [.star], rest, [], [(2, .tok 2 (read ++ [Tok.num n]).length), (0, .nt (.t (factors (ts ++ [n]))) k)], [], log', pulls + 1 + 1⟩) ?_)), _, _, _, _, _, rfl, .star _ _ _ (by simp), ?_⟩
    · simp [step, fill, pT, table, get]
    · simp [← hi]
  | later k i k' es ts h0 =>
    refine ⟨_, h1.trans (h3.trans (To.step (b := ⟨7, read ++ [.num n] ++ [.star], rest, [], [(8, .tok 2 (read ++ [Tok.num n]).length), (6, .nt (.t (factors (ts ++ [n]))) k), (1, .tok 1 i), (0, .nt (.e (terms es)) k')], [], log', pulls + 1 + 1⟩) ?_)), _, _, _, _, _, rfl, .both _ _ _ _ _ _ (by simp) (by simp; omega), ?_⟩
    · simp [step, fill, pT, table, get]
    · simp [← hi]

/-- The last operand. -/
theorem At.last {input c es ts n} (h : At input c [.num n] es ts) : Fin c (.ok (value (es ++ [ts ++ [n]]))) := by
  obtain ⟨st, read, stack, log, pulls, rfl, hw, hi⟩ := h
  have h1 := number_read hw read rfl n [] log pulls
  have hf : fill Tok.index ⟨4, read ++ [.num n], [], [], (st, .tok 0 read.length) :: stack, [], log, pulls + 1⟩ =
      ⟨4, read ++ [.num n], [], [(.eoi, 0)], (st, .tok 0 read.length) :: stack, [], log, pulls + 1 + 1⟩ := rfl
  obtain ⟨st', stack', log', h2, h3⟩ := number_done hw (read := read ++ [.num n]) (n := n) (by simp) (by simp) .eoi (Or.inr (Or.inr rfl))
    0 [] log (pulls + 1 + 1) _ hf
  obtain ⟨k, log'', h4⟩ := term_done h2 (read := read ++ [.num n]) (by simp) .eoi (Or.inr rfl) 0 [] log' (pulls + 1 + 1)
  refine Fin.of (h1.trans (h3.trans h4)) (d := ⟨1, read ++ [.num n], [], [(.eoi, 0)], [(0, .nt (.e (terms (es ++ [ts ++ [n]]))) k)], [], log'', pulls + 1 + 1⟩) ?_
  simp [step, fill, pT, table, get, value, terms, factors]

theorem drop_range {a b : Nat} (h : b ≤ a) : (List.range b).drop a = [] := List.drop_eq_nil_of_le (by simpa using h)

/-- An operator instead of an operand. -/
theorem At.operator {input c rest es ts o} (h : At input c (o :: rest) es ts) (ho : ∀ n, o ≠ .num n) : Fin c (.error (.reducer [o])) := by
  obtain ⟨st, read, stack, log, pulls, rfl, hw, hi⟩ := h
  have h1 : To ⟨st, read, o :: rest, [], stack, [], log, pulls⟩
      ⟨5, read ++ [o], rest, [(.sym o.index, read.length)], (st, .err read.length read.length) :: stack, [5, 5, 5], log, pulls + 1⟩ := by
    apply To.step
    cases o with
    | num n => exact absurd rfl (ho n)
    | plus => cases hw <;> simp [step, fill, Tok.index, pT, table, get, Par.onError, recover, recovRules, repush, allSome, drop_range]
    | star => cases hw <;> simp [step, fill, Tok.index, pT, table, get, Par.onError, recover, recovRules, repush, allSome, drop_range]
  refine Fin.of h1 (d := ⟨5, read ++ [o], rest, [(.sym o.index, read.length)], (st, .err read.length read.length) :: stack, [5, 5, 5], (5, [.err [o]]) :: log, pulls + 1⟩) ?_
  cases o with
  | num n => exact absurd rfl (ho n)
  | plus => simp [step, fill, Tok.index, pT, table, get, onReduce, rules, mkArgs, onError]
  | star => simp [step, fill, Tok.index, pT, table, get, onReduce, rules, mkArgs, onError]

/-- The end instead of an operand. -/
theorem At.nothing {t input c es ts} (h : At (t :: input) c [] es ts) : Fin c (.error (.reducer [t])) := by
  obtain ⟨st, read, stack, log, pulls, rfl, hw, hi⟩ := h
  rw [List.append_nil] at hi
  subst hi
  have h1 : To ⟨st, t :: input, [], [], stack, [], log, pulls⟩
      ⟨5, t :: input, [], [(.eoi, 0)], (st, .err 0 0) :: stack, [5, 5, 5], log, pulls + 1⟩ := by
    apply To.step
    cases hw <;> simp [step, fill, pT, table, get, Par.onError, recover, recovRules, repush, allSome]
  refine Fin.of h1 (d := ⟨5, t :: input, [], [(.eoi, 0)], (st, .err 0 0) :: stack, [5, 5, 5], (5, [.err [t]]) :: log, pulls + 1⟩) ?_
  simp [step, fill, pT, table, get, onReduce, rules, mkArgs, onError]

/-- More numbers are skipped. -/
theorem skip_numbers {m st stack es ts} (hw : Wait m st stack es ts) (ns : List Nat) : ∀ (read : List Tok) (j : Nat) (src log pulls), j + 1 = read.length → m ≤ j →
    ∃ pulls', To ⟨5, read, ns.map .num ++ src, [], (st, .err m j) :: stack, [5, 5, 5], log, pulls⟩
      ⟨5, read ++ ns.map .num, src, [], (st, .err m (j + ns.length)) :: stack, [5, 5, 5], log, pulls'⟩ := by
  induction ns with
  | nil => intro read j src log pulls _ _; exact ⟨pulls, by simpa using To.refl _⟩
  | cons n ns ih =>
    intro read j src log pulls hj hm
    obtain ⟨pulls', h1⟩ := ih (read ++ [.num n]) (j + 1) src log (pulls + 1) (by simp; omega) (by omega)
    refine ⟨pulls', To.trans (To.step ?_) (by simpa [Nat.add_assoc, Nat.add_comm 1] using h1)⟩
    cases hw <;> simp [step, fill, Tok.index, pT, table, get, Par.onError, recover, recovRules, repush, allSome, drop_range, hj] <;> omega

theorem Fin.trans {a b : C} {x} (h : To a b) (h' : Fin b x) : Fin a x := by
  obtain ⟨n, h⟩ := h
  obtain ⟨m, d, h'⟩ := h'
  exact ⟨n + m, d, by rw [run_add, h]; exact h'⟩

/-- Several numbers instead of one. -/
theorem At.numbers {input c es ts n n' w} (ns : List Nat) (h : At input c (.num n :: .num n' :: ns.map Tok.num ++ w) es ts)
    (hw : ∀ n v, w ≠ .num n :: v) : Fin c (.error (.reducer (.num n :: .num n' :: ns.map Tok.num))) := by
  obtain ⟨st, read, stack, log, pulls, rfl, hwt, hi⟩ := h
  have h1 := number_read hwt read rfl n (.num n' :: (ns.map Tok.num ++ w)) log pulls
  have h2 : To ⟨4, read ++ [Tok.num n], .num n' :: (ns.map Tok.num ++ w), [], (st, .tok 0 read.length) :: stack, [], log, pulls + 1⟩
      ⟨5, read ++ [Tok.num n] ++ [Tok.num n'], ns.map Tok.num ++ w, [(.sym 0, read.length + 1)], (st, .err read.length (read.length + 1)) :: stack, [5, 5, 5], log, pulls + 1 + 1⟩ := by
    apply To.step
    have : (List.range (read.length + 1)).drop read.length = [read.length] := by
      rw [List.range_succ, List.drop_left' (by simp)]
    cases hwt <;> simp [step, fill, Tok.index, pT, table, get, Par.onError, recover, recovRules, repush, allSome, this]
  have h3 : To ⟨5, read ++ [Tok.num n] ++ [Tok.num n'], ns.map Tok.num ++ w, [(.sym 0, read.length + 1)], (st, .err read.length (read.length + 1)) :: stack, [5, 5, 5], log, pulls + 1 + 1⟩
      ⟨5, read ++ [Tok.num n] ++ [Tok.num n'], ns.map Tok.num ++ w, [], (st, .err read.length (read.length + 1)) :: stack, [5, 5, 5], log, pulls + 1 + 1⟩ := by
    apply To.step
    cases hwt <;> simp [step, fill, pT, table, get, Par.onError, recover, recovRules, repush, allSome, drop_range]
  obtain ⟨pulls', h4⟩ := skip_numbers hwt ns (read ++ [Tok.num n] ++ [Tok.num n']) (read.length + 1) w log (pulls + 1 + 1) (by simp) (by omega)
  have h5 := ((h1.trans h2).trans h3).trans h4
  have key : ∀ v, (((read ++ [Tok.num n] ++ [Tok.num n'] ++ ns.map Tok.num) ++ v).drop read.length).take (read.length + 1 + ns.length + 1 - read.length)
      = Tok.num n :: .num n' :: ns.map Tok.num := by
    intro v
    have : read.length + 1 + ns.length + 1 - read.length = (Tok.num n :: .num n' :: ns.map Tok.num).length := by simp; omega
    rw [this, List.append_assoc, List.append_assoc, List.append_assoc, List.drop_left' rfl, ← List.append_assoc, ← List.append_assoc]
    exact List.take_left' (by simp)
  cases w with
  | nil =>
    have k := key []
    simp only [List.append_nil] at k
    refine Fin.of h5 (d := ⟨5, read ++ [Tok.num n] ++ [Tok.num n'] ++ ns.map Tok.num, [], [(.eoi, 0)], (st, .err read.length (read.length + 1 + ns.length)) :: stack, [5, 5, 5],
      (5, [.err (.num n :: .num n' :: ns.map Tok.num)]) :: log, pulls' + 1⟩) ?_
    have hl : read.length + 1 + ns.length < (read ++ [Tok.num n] ++ [Tok.num n'] ++ ns.map Tok.num).length := by simp; omega
    generalize (read ++ [Tok.num n] ++ [Tok.num n'] ++ ns.map Tok.num) = r at k hl ⊢
    have : read.length ≤ read.length + 1 + ns.length + 1 := by omega
    simp [step, fill, pT, table, get, onReduce, rules, mkArgs, onError, k, hl, this]
  | cons o v =>
    have k := key [o]
    refine Fin.of h5 (d := ⟨5, read ++ [Tok.num n] ++ [Tok.num n'] ++ ns.map Tok.num ++ [o], v, [(.sym o.index, (read ++ [Tok.num n] ++ [Tok.num n'] ++ ns.map Tok.num).length)],
      (st, .err read.length (read.length + 1 + ns.length)) :: stack, [5, 5, 5], (5, [.err (.num n :: .num n' :: ns.map Tok.num)]) :: log, pulls' + 1⟩) ?_
    have hl : read.length + 1 + ns.length < (read ++ [Tok.num n] ++ [Tok.num n'] ++ ns.map Tok.num ++ [o]).length := by simp; omega
    generalize (read ++ [Tok.num n] ++ [Tok.num n'] ++ ns.map Tok.num) = r at k hl ⊢
    have : read.length ≤ read.length + 1 + ns.length + 1 := by omega
    cases o with
    | num n => exact absurd rfl (hw n v)
    | plus => simp only [List.length_append, List.length_cons, List.length_nil] at hl; simp [step, fill, Tok.index, pT, table, get, onReduce, rules, mkArgs, onError, k, hl, this]
    | star => simp only [List.length_append, List.length_cons, List.length_nil] at hl; simp [step, fill, Tok.index, pT, table, get, onReduce, rules, mkArgs, onError, k, hl, this]

/-! ## Whole inputs -/

theorem At.even {input u} (hu : Even u) : ∀ {c rest es ts}, At input c (u ++ rest) es ts → ∃ c' es' ts', To c c' ∧ At input c' rest es' ts' := by
  induction hu with
  | nil => intro c rest es ts h; exact ⟨c, es, ts, To.refl _, h⟩
  | plus n w _ ih =>
    intro c rest es ts h
    obtain ⟨c1, h1, h2⟩ := At.plus h
    obtain ⟨c2, es', ts', h3, h4⟩ := ih h2
    exact ⟨c2, es', ts', h1.trans h3, h4⟩
  | star n w _ ih =>
    intro c rest es ts h
    obtain ⟨c1, h1, h2⟩ := At.star h
    obtain ⟨c2, es', ts', h3, h4⟩ := ih h2
    exact ⟨c2, es', ts', h1.trans h3, h4⟩

theorem At.product {input rest} (l : List Nat) (hl : l ≠ []) : ∀ {c es ts}, At input c (product l ++ .plus :: rest) es ts →
    ∃ c', To c c' ∧ At input c' rest (es ++ [ts ++ l]) [] := by
  induction l with
  | nil => exact absurd rfl hl
  | cons n l ih =>
    intro c es ts h
    cases l with
    | nil => exact At.plus h
    | cons n' l =>
      obtain ⟨c1, h1, h2⟩ := At.star (n := n) h
      obtain ⟨c2, h3, h4⟩ := ih (by simp) h2
      exact ⟨c2, h1.trans h3, by simpa using h4⟩

theorem At.lastProduct {input} (l : List Nat) (hl : l ≠ []) : ∀ {c es ts}, At input c (TestMain.product l) es ts → Fin c (.ok (value (es ++ [ts ++ l]))) := by
  induction l with
  | nil => exact absurd rfl hl
  | cons n l ih =>
    intro c es ts h
    cases l with
    | nil => exact At.last h
    | cons n' l =>
      obtain ⟨c1, h1, h2⟩ := At.star (n := n) h
      have h3 := ih (by simp) h2
      exact Fin.trans h1 (by simpa using h3)

theorem At.sum {input} (ls : List (List Nat)) (hl : ls ≠ []) (hne : ∀ l ∈ ls, l ≠ []) : ∀ {c es}, At input c (TestMain.sum ls) es [] → Fin c (.ok (value (es ++ ls))) := by
  induction ls with
  | nil => exact absurd rfl hl
  | cons l ls ih =>
    intro c es h
    cases ls with
    | nil => exact At.lastProduct l (hne l (by simp)) h
    | cons l' ls =>
      obtain ⟨c1, h1, h2⟩ := At.product l (hne l (by simp)) (rest := TestMain.sum (l' :: ls)) h
      have h3 := ih (by simp) (fun x hx => hne x (List.mem_cons_of_mem _ hx)) h2
      exact Fin.trans h1 (by simpa using h3)

theorem At.init (input : List Tok) : At input (Cfg.init pT input) input [] [] :=
  ⟨0, [], [], [], 0, rfl, .start, rfl⟩

theorem run_sum (ls : List (List Nat)) (hl : ls ≠ []) (hne : ∀ l ∈ ls, l ≠ []) : ∃ c, ParsesTo Tok.index pT (TestMain.sum ls) (.ok (value ls)) c := by
  obtain ⟨n, c, h⟩ := At.sum ls hl hne (At.init (TestMain.sum ls))
  exact ⟨c, n, h⟩

theorem run_blames {input l} (h : Blames input l) : ∃ c, ParsesTo Tok.index pT input (.error (.reducer l)) c := by
  have key : Fin (Cfg.init pT input) (.error (.reducer l)) := by
    cases h with
    | numbers u ns w hu h2 hw =>
      have h0 := At.init (u ++ ns.map .num ++ w)
      rw [List.append_assoc] at h0 ⊢
      obtain ⟨c, es, ts, h1, h3⟩ := At.even hu h0
      match ns, h2 with
      | n :: n' :: ns, _ => exact Fin.trans h1 (At.numbers ns h3 hw)
    | operator u o w hu ho =>
      obtain ⟨c, es, ts, h1, h3⟩ := At.even hu (At.init (u ++ o :: w))
      exact Fin.trans h1 (At.operator h3 ho)
    | nothing t u hu =>
      obtain ⟨c, es, ts, h1, h3⟩ := At.even hu (rest := []) (by simpa using At.init (t :: u))
      exact Fin.trans h1 (At.nothing h3)
  obtain ⟨n, c, h⟩ := key
  exact ⟨c, n, h⟩

theorem run_empty : ParsePanics Tok.index pT [] := ⟨2, rfl⟩

theorem numbers_first (w : List Tok) : ∃ (ns : List Nat) (v : List Tok), w = ns.map .num ++ v ∧ ∀ n u, v ≠ .num n :: u := by
  induction w with
  | nil => exact ⟨[], [], rfl, by simp⟩
  | cons t w ih =>
    obtain ⟨ns, v, rfl, h⟩ := ih
    cases t with
    | num n => exact ⟨n :: ns, v, rfl, h⟩
    | plus => exact ⟨[], _, rfl, by simp⟩
    | star => exact ⟨[], _, rfl, by simp⟩

theorem cover : ∀ (k : Nat) (w : List Tok), w.length ≤ k → (∃ ls : List (List Nat), ls ≠ [] ∧ (∀ l ∈ ls, l ≠ []) ∧ w = TestMain.sum ls) ∨
    (∃ l, Blames w l) ∨ w = [] := by
  have pre : ∀ (n : Nat) (o : Tok) (w l : List Tok), (∀ u, Even u → Even (.num n :: o :: u)) → Blames w l → ∃ l, Blames (.num n :: o :: w) l := by
    intro n o w l ho h
    cases h with
    | numbers u ns w hu h2 hw => exact ⟨_, by simpa using Blames.numbers (.num n :: o :: u) ns w (ho _ hu) h2 hw⟩
    | operator u o' w hu h2 => exact ⟨_, Blames.operator (.num n :: o :: u) o' w (ho _ hu) h2⟩
    | nothing t u hu => exact ⟨_, Blames.nothing (.num n) (o :: t :: u) (ho _ hu)⟩
  intro k
  induction k with
  | zero => intro w h; exact Or.inr (Or.inr (List.length_eq_zero_iff.1 (Nat.le_zero.1 h)))
  | succ k ih =>
    intro w h
    match w with
    | [] => exact Or.inr (Or.inr rfl)
    | .plus :: w => exact Or.inr (Or.inl ⟨_, Blames.operator [] .plus w .nil (by simp)⟩)
    | .star :: w => exact Or.inr (Or.inl ⟨_, Blames.operator [] .star w .nil (by simp)⟩)
    | [.num n] => exact Or.inl ⟨[[n]], by simp, by simp, rfl⟩
    | .num n :: .num n' :: w =>
      obtain ⟨ns, v, rfl, hv⟩ := numbers_first w
      exact Or.inr (Or.inl ⟨_, Blames.numbers [] (n :: n' :: ns) v .nil (by simp) hv⟩)
    | .num n :: .plus :: w =>
      rcases ih w (by simp at h; omega) with ⟨ls, h1, h2, rfl⟩ | ⟨l, h1⟩ | rfl
      · refine Or.inl ⟨[n] :: ls, by simp, by simpa using h2, ?_⟩
        cases ls with
        | nil => exact absurd rfl h1
        | cons l ls => rfl
      · exact Or.inr (Or.inl (pre n .plus w l (fun _ => .plus _ _) h1))
      · exact Or.inr (Or.inl ⟨_, Blames.nothing _ _ (.plus n [] .nil)⟩)
    | .num n :: .star :: w =>
      rcases ih w (by simp at h; omega) with ⟨ls, h1, h2, rfl⟩ | ⟨l, h1⟩ | rfl
      · cases ls with
        | nil => exact absurd rfl h1
        | cons l ls =>
          refine Or.inl ⟨(n :: l) :: ls, by simp, ?_, ?_⟩
          · intro x hx
            rcases List.mem_cons.1 hx with rfl | hx
            · simp
            · exact h2 x (by simp [hx])
          · have hl := h2 l (by simp)
            cases l with
            | nil => exact absurd rfl hl
            | cons m l =>
              cases ls <;> rfl
      · exact Or.inr (Or.inl (pre n .star w l (fun _ => .star _ _) h1))
      · exact Or.inr (Or.inl ⟨_, Blames.nothing _ _ (.star n [] .nil)⟩)

end Verif.Par.TestMain
