import Verif.Par.Pump
import Verif.Props.Nesting
import Verif.Props.ParLL1

/-!
# Property C106: long accepted inputs have parts that can be repeated; what rules cannot say, callbacks can
-/

namespace Verif.Par

variable {N T E : Type} {o : Seeds} {rules : List (Rule N T E)} {start : Nat} {p : Parser N T E} {idx : T → Nat}

/-- The parser accepts the input. -/
def Takes (idx : T → Nat) (p : Parser N T E) (input : List T) : Prop := ∃ v c, ParsesTo idx p input (.ok v) c

theorem sentence_gen {g : Gram} {w : List Nat} : g.Sentence w ↔ Gen g.rules [.nt g.start] (tms (syms w)) := by
  unfold Gram.Sentence
  rw [gen_iff]
  simp [tms, syms, Function.comp_def]

theorem times_map {T U : Type} (f : T → U) (u : List T) (i : Nat) : (times u i).map f = times (u.map f) i := by
  simp [times, List.map_flatten]

/-- C106: let there be no warnings, no error rules and no failing callbacks; let `m` be the number of different non-terminals with
rules and let no right-hand side be longer than `k`.  An accepted input of more than `k ^ m` tokens has two parts, not both empty, which
can be left out together or repeated together any number of times, and the result is accepted. -/
theorem c106_pump (ho : o.Fair) (hok : (gram rules start).Ok) (hn : (gram rules start).NoError)
    (hg : ∀ r ∈ rules, ∀ l, ∃ v, r.gen l = .ok v) (hm : MakesParser o rules start p []) (k : Nat) (hk : 1 ≤ k)
    (hR : ∀ r ∈ rules, r.rhs.length ≤ k) (input : List T) (h : Takes idx p input)
    (hl : k ^ (rules.map Rule.lhs).eraseDups.length < input.length) :
    ∃ u v x y z, input = u ++ v ++ x ++ y ++ z ∧ v ++ y ≠ [] ∧ ∀ i, Takes idx p (u ++ times v i ++ x ++ times y i ++ z) := by
  obtain ⟨a, c, h⟩ := h
  have hs := c23_sentence o ho rules start hok hn p [] hm idx input a c h
  have hh : heads (gram rules start).rules = (rules.map Rule.lhs).eraseDups := by
    simp [heads, gram, Function.comp_def, Rule.plain]
  have hloop := long_loops k hk (R := (gram rules start).rules) (w := syms (input.map idx)) (by
    intro r hr
    obtain ⟨r', hr', rfl⟩ := List.mem_map.1 hr
    exact hR r' hr') (sentence_gen.1 hs) (by rw [hh]; simpa [syms] using hl)
  obtain ⟨u, v, x, y, z, e, hne, hp⟩ := hloop.pump
  have e' : input.map (fun t => Term.sym (idx t)) = u ++ v ++ x ++ y ++ z := by rw [← e]; simp [syms]
  obtain ⟨a1, z', rfl, e1, rfl⟩ := List.map_eq_append_iff.1 e'
  obtain ⟨a2, y', rfl, e2, rfl⟩ := List.map_eq_append_iff.1 e1
  obtain ⟨a3, x', rfl, e3, rfl⟩ := List.map_eq_append_iff.1 e2
  obtain ⟨u', v', rfl, rfl, rfl⟩ := List.map_eq_append_iff.1 e3
  refine ⟨u', v', x', y', z', rfl, ?_, fun i => ?_⟩
  · intro h0
    apply hne
    rw [← List.map_append, h0]
    rfl
  · apply c24_accepts o ho rules start hok hg p hm idx
    rw [sentence_gen]
    have e : tms (syms ((u' ++ times v' i ++ x' ++ times y' i ++ z').map idx)) = tms (u'.map (fun t => Term.sym (idx t)) ++
        times (v'.map fun t => Term.sym (idx t)) i ++ x'.map (fun t => Term.sym (idx t)) ++ times (y'.map fun t => Term.sym (idx t)) i ++
        z'.map fun t => Term.sym (idx t)) := by
      simp [syms, ← times_map, Function.comp_def]
    rw [e]
    exact hp i

theorem times_length (u : List T) (i : Nat) : (times u i).length = i * u.length := by simp [times]

/-- C106: a parser that accepts anything accepts an input of at most `k ^ m` tokens: after an accepted input there is a short one. -/
theorem c106_short (ho : o.Fair) (hok : (gram rules start).Ok) (hn : (gram rules start).NoError)
    (hg : ∀ r ∈ rules, ∀ l, ∃ v, r.gen l = .ok v) (hm : MakesParser o rules start p []) (k : Nat) (hk : 1 ≤ k)
    (hR : ∀ r ∈ rules, r.rhs.length ≤ k) (input : List T) (h : Takes idx p input) :
    ∃ w, w.Sublist input ∧ w.length ≤ k ^ (rules.map Rule.lhs).eraseDups.length ∧ Takes idx p w := by
  generalize hL : input.length = L
  induction L using Nat.strongRecOn generalizing input with
  | _ L ih =>
    by_cases hl : input.length ≤ k ^ (rules.map Rule.lhs).eraseDups.length
    · exact ⟨input, List.Sublist.refl _, hl, h⟩
    · obtain ⟨u, v, x, y, z, rfl, hne, hp⟩ := c106_pump ho hok hn hg hm k hk hR input h (by omega)
      have h0 := hp 0
      simp only [times, List.replicate_zero, List.flatten_nil, List.append_nil] at h0
      have hlen : 0 < (v ++ y).length := List.length_pos_iff.2 hne
      obtain ⟨w, h1, h2, h3⟩ := ih (u ++ x ++ z).length (by simp at hlen hL ⊢; omega) _ h0 rfl
      refine ⟨w, h1.trans ?_, h2, h3⟩
      have a1 : (u ++ x).Sublist (u ++ v ++ x) := (List.sublist_append_left u v).append (List.Sublist.refl x)
      exact (a1.trans (List.sublist_append_left _ y)).append (List.Sublist.refl z)

/-- C106: the lengths of the accepted inputs are unbounded just if an input of more than `k ^ m` tokens is accepted. -/
theorem c106_unbounded (ho : o.Fair) (hok : (gram rules start).Ok) (hn : (gram rules start).NoError)
    (hg : ∀ r ∈ rules, ∀ l, ∃ v, r.gen l = .ok v) (hm : MakesParser o rules start p []) (k : Nat) (hk : 1 ≤ k)
    (hR : ∀ r ∈ rules, r.rhs.length ≤ k) :
    (∀ n, ∃ input, n < input.length ∧ Takes idx p input) ↔
      ∃ input, k ^ (rules.map Rule.lhs).eraseDups.length < input.length ∧ Takes idx p input := by
  refine ⟨fun h => h _, fun ⟨input, hl, h⟩ n => ?_⟩
  obtain ⟨u, v, x, y, z, rfl, hne, hp⟩ := c106_pump ho hok hn hg hm k hk hR input h hl
  refine ⟨_, ?_, hp (n + 1)⟩
  have hlen : 0 < (v ++ y).length := List.length_pos_iff.2 hne
  simp only [List.length_append, times_length] at hlen ⊢
  have : (n + 1) * 1 ≤ (n + 1) * (v.length + y.length) := Nat.mul_le_mul_left _ hlen
  rw [Nat.mul_add] at this
  omega

/-- `n` times `a`, then `n` times `b`, then `n` times `c`. -/
def thrice (a b c : T) (n : Nat) : List T := List.replicate n a ++ List.replicate n b ++ List.replicate n c

theorem thrice_sorted (a b c : T) (n : Nat) (rk : T → Nat) (h1 : rk a ≤ rk b) (h2 : rk b ≤ rk c) :
    (thrice a b c n).Pairwise fun s t => rk s ≤ rk t := by
  unfold thrice
  simp only [List.pairwise_append, List.pairwise_replicate, List.mem_append, List.mem_replicate]
  refine ⟨⟨by omega, by omega, ?_⟩, by omega, ?_⟩
  · rintro s ⟨_, rfl⟩ t ⟨_, rfl⟩
    exact h1
  · rintro s (⟨_, rfl⟩ | ⟨_, rfl⟩) t ⟨_, rfl⟩ <;> omega

/-- C106: no rules make a parser that accepts exactly the inputs `aa…a bb…b cc…c` with three times the same number of tokens, as long
as there are no warnings, no error rules and no failing callbacks. -/
theorem c106_thrice (ho : o.Fair) (hok : (gram rules start).Ok) (hn : (gram rules start).NoError)
    (hg : ∀ r ∈ rules, ∀ l, ∃ v, r.gen l = .ok v) (hm : MakesParser o rules start p []) (a b c : T) (hab : a ≠ b) (hbc : b ≠ c)
    (hac : a ≠ c) : ¬ ∀ input, Takes idx p input ↔ ∃ n, input = thrice a b c n := by
  classical
  intro h
  let k := (rules.map fun r => r.rhs.length).sum + 1
  have hR : ∀ r ∈ rules, r.rhs.length ≤ k := by
    have key : ∀ (l : List (Rule N T E)), ∀ r ∈ l, r.rhs.length ≤ (l.map fun r => r.rhs.length).sum := by
      intro l
      induction l with
      | nil => simp
      | cons r' l ih =>
        intro r hr
        simp only [List.map_cons, List.sum_cons]
        rcases List.mem_cons.1 hr with rfl | hr
        · omega
        · have := ih r hr
          omega
    exact fun r hr => Nat.le_succ_of_le (key rules r hr)
  let n := k ^ (rules.map Rule.lhs).eraseDups.length + 1
  have hlen : ∀ n, (thrice a b c n).length = 3 * n := by intro n; simp [thrice]; omega
  obtain ⟨u, v, x, y, z, e, hne, hp⟩ := c106_pump ho hok hn hg hm k (by omega) hR (thrice a b c n) ((h _).2 ⟨n, rfl⟩)
    (by rw [hlen]; omega)
  obtain ⟨n', e'⟩ := (h _).1 (hp 2)
  let rk : T → Nat := fun t => if t = a then 0 else if t = b then 1 else 2
  have hba : b ≠ a := fun h => hab h.symm
  have hca : c ≠ a := fun h => hac h.symm
  have hcb : c ≠ b := fun h => hbc h.symm
  have ra : rk a = 0 := by simp [rk]
  have rb : rk b = 1 := by simp [rk, hba]
  have rc : rk c = 2 := by simp [rk, hca, hcb]
  have hsort := thrice_sorted a b c n' rk (by omega) (by omega)
  rw [← e'] at hsort
  have t2 : ∀ l : List T, times l 2 = l ++ l := by intro l; simp [times, List.replicate_succ]
  simp only [t2, List.pairwise_append, List.mem_append] at hsort
  obtain ⟨⟨⟨⟨_, ⟨_, _, hv⟩, _⟩, _⟩, ⟨_, _, hy⟩, _⟩, _⟩ := hsort
  -- a letter in neither of the parts
  have hd : ∃ d, (d = a ∨ d = b ∨ d = c) ∧ d ∉ v ∧ d ∉ y := by
    apply Classical.byContradiction
    intro hno
    have hin : ∀ d, (d = a ∨ d = b ∨ d = c) → d ∈ v ∨ d ∈ y := by
      intro d hd
      by_cases h1 : d ∈ v
      · exact Or.inl h1
      · by_cases h2 : d ∈ y
        · exact Or.inr h2
        · exact absurd ⟨d, hd, h1, h2⟩ hno
    have ev : ∀ s ∈ v, ∀ t ∈ v, rk s = rk t := fun s hs t ht => Nat.le_antisymm (hv s hs t ht) (hv t ht s hs)
    have ey : ∀ s ∈ y, ∀ t ∈ y, rk s = rk t := fun s hs t ht => Nat.le_antisymm (hy s hs t ht) (hy t ht s hs)
    rcases hin a (by simp) with i | i <;> rcases hin b (by simp) with j | j <;> rcases hin c (by simp) with l | l
    · have := ev _ i _ j; omega
    · have := ev _ i _ j; omega
    · have := ev _ i _ l; omega
    · have := ey _ j _ l; omega
    · have := ev _ j _ l; omega
    · have := ey _ i _ l; omega
    · have := ey _ i _ j; omega
    · have := ey _ i _ j; omega
  obtain ⟨d, hd, hdv, hdy⟩ := hd
  have hcount : ∀ n, (thrice a b c n).count d = n := by
    intro n
    rcases hd with rfl | rfl | rfl <;> simp [thrice, List.count_replicate, *]
  have c1 := hcount n
  have c2 := hcount n'
  rw [e] at c1
  rw [← e'] at c2
  have z1 := List.count_eq_zero_of_not_mem hdv
  have z2 := List.count_eq_zero_of_not_mem hdy
  simp only [t2, List.count_append] at c1 c2
  have l1 := hlen n
  have l2 := hlen n'
  rw [e] at l1
  rw [← e'] at l2
  have hlen : 0 < (v ++ y).length := List.length_pos_iff.2 hne
  simp only [t2, List.length_append] at l1 l2 hlen
  omega

/-- `S → L; L → a L | b L | c L | ε`: the callbacks of the rules for `L` collect the tokens, that of the rule for `S` decides. -/
def rCollect (E : Type) (P : List T → Bool) : List (Rule (List T × Bool) T E) :=
  let more : List (Arg (List T × Bool) T) → Except E (List T × Bool) := fun l => match l with
    | [.tok t, .nt v] => .ok (t :: v.1, false)
    | _ => .ok ([], false)
  [⟨0, [.nt 1], fun l => match l with
      | [.nt v] => .ok (v.1, P v.1)
      | _ => .ok ([], false)⟩,
   ⟨1, [.tm (.sym 0), .nt 1], more⟩, ⟨1, [.tm (.sym 1), .nt 1], more⟩, ⟨1, [.tm (.sym 2), .nt 1], more⟩, ⟨1, [], fun _ => .ok ([], false)⟩]

def gCollect : Gram := ⟨[⟨0, [.nt 1]⟩, ⟨1, [.tm (.sym 0), .nt 1]⟩, ⟨1, [.tm (.sym 1), .nt 1]⟩, ⟨1, [.tm (.sym 2), .nt 1]⟩, ⟨1, []⟩], 0⟩

theorem rCollect_gram (P : List T → Bool) : gram (rCollect E P) 0 = gCollect := rfl

theorem gCollect_ll1 : gCollect.LL1 :=
  c71_check _ { null := fun _ => true, first := fun _ => [.sym 0, .sym 1, .sym 2], follow := fun _ => [.eoi] } (by decide)

theorem gCollect_fruitful : gCollect.Fruitful := c71_ranked _ (fun n => 1 - n) (by decide)

theorem gCollect_sentence (w : List Nat) (h : ∀ t ∈ w, t < 3) : gCollect.Sentence w := by
  rw [sentence_gen]
  have key : Gen gCollect.rules [.nt 1] (tms (syms w)) := by
    induction w with
    | nil => exact Gen.rule (R := gCollect.rules) (r := ⟨1, []⟩) (by decide)
    | cons t w ih =>
      have ht := h t (by simp)
      have hr : (⟨1, [.tm (.sym t), .nt 1]⟩ : PRule) ∈ gCollect.rules := by
        match t, ht with
        | 0, _ => decide
        | 1, _ => decide
        | 2, _ => decide
      have := (Gen.rule hr).trans ((Gen.refl [.tm (.sym t)]).append (ih fun t ht => h t (by simp [ht])))
      simpa [syms, tms] using this
  exact (Gen.rule (R := gCollect.rules) (r := ⟨0, [.nt 1]⟩) (by decide)).trans key

theorem rCollect_computes (idx : T → Nat) (P : List T → Bool) :
    Computes idx (fun n u v => v.1 = u ∧ (n = 0 → v.2 = P u)) (rCollect E P) := by
  intro rule hr args w v hs hg
  simp only [rCollect, List.mem_cons, List.not_mem_nil, or_false] at hr
  have more : ∀ k, Spans idx (fun n u (v : List T × Bool) => v.1 = u ∧ (n = 0 → v.2 = P u)) [.tm (.sym k), .nt 1] args w →
      ∃ t x, args = [.tok t, .nt x] ∧ w = t :: x.1 := by
    intro k hs
    obtain ⟨t, args, w, rfl, rfl, h1, hs⟩ := spans_tm hs
    cases hs with
    | nt n v' u us args1 w1 h2 hs1 =>
      cases hs1
      exact ⟨t, v', rfl, by simp [h2.1]⟩
  rcases hr with rfl | rfl | rfl | rfl | rfl
  · cases hs with
    | nt n v' u us args1 w1 h2 hs1 =>
      cases hs1
      cases hg
      simp [h2.1]
  · obtain ⟨t, x, rfl, rfl⟩ := more _ hs
    cases hg
    simp
  · obtain ⟨t, x, rfl, rfl⟩ := more _ hs
    cases hg
    simp
  · obtain ⟨t, x, rfl, rfl⟩ := more _ hs
    cases hg
    simp
  · cases hs
    cases hg
    simp

/-- C106: callbacks can say anything.  For every property `P` of token lists the rules `S → L; L → a L | b L | c L | ε` with callbacks
that collect the tokens make a parser without warnings, for all hash seeds, whose result for every input of these three kinds of tokens
is whether `P` holds of the input. -/
theorem c106_callbacks (o : Seeds) (ho : o.Fair) (P : List T → Bool) :
    (∃ p : Parser (List T × Bool) T E, MakesParser o (rCollect E P) 0 p []) ∧
    ∀ (p : Parser (List T × Bool) T E) (ws : List Warning), MakesParser o (rCollect E P) 0 p ws → ws = [] ∧
      ∀ (idx : T → Nat) (input : List T), (∀ t ∈ input, idx t < 3) → ∃ c, ParsesTo idx p input (.ok (input, P input)) c := by
  have hok : (gram (rCollect E P) 0).Ok := by rw [rCollect_gram]; decide
  have hne : (gram (rCollect E P) 0).NoError := by rw [rCollect_gram]; unfold Gram.NoError; decide
  have hg : ∀ r ∈ rCollect E P, ∀ l, ∃ v, r.gen l = .ok v := by
    intro r hr l
    simp only [rCollect, List.mem_cons, List.not_mem_nil, or_false] at hr
    rcases hr with rfl | rfl | rfl | rfl | rfl <;> simp only <;> first | exact ⟨_, rfl⟩ | (split <;> exact ⟨_, rfl⟩)
  constructor
  · obtain ⟨tab, htab⟩ := c71_builds o ho gCollect (by decide) gCollect_fruitful gCollect_ll1
    exact ⟨⟨rCollect E P ++ [⟨freshSym ((rCollect E P).map Rule.plain), [.nt 0], fun _ => .ok ([], false)⟩], tab⟩, htab, _, rfl⟩
  · intro p ws hm
    obtain rfl := c71_no_warnings o ho gCollect (by decide) gCollect_fruitful gCollect_ll1 _ _ hm.1
    refine ⟨rfl, fun idx input hi => ?_⟩
    obtain ⟨v, c, h⟩ := c24_accepts o ho _ 0 hok hg p hm idx input (gCollect_sentence _ (by
      intro t ht
      obtain ⟨t', ht', rfl⟩ := List.mem_map.1 ht
      exact hi t' ht'))
    obtain ⟨h1, h2⟩ := c48_attributes o ho _ 0 hok hne p [] hm idx _ (rCollect_computes idx P) input v c h
    have e : v = (input, P input) := Prod.ext h1 (h2 rfl)
    rw [e] at h
    exact ⟨c, h⟩

/-- `A₀ → A₁ A₁; A₁ → A₂ A₂; …; Aₘ₋₁ → a a`. -/
def rDouble (N T E : Type) (v : N) (m : Nat) : List (Rule N T E) :=
  (List.range m).map fun i => ⟨i, if i + 1 = m then [.tm (.sym 0), .tm (.sym 0)] else [.nt (i + 1), .nt (i + 1)], fun _ => .ok v⟩

def gDouble (m : Nat) : Gram :=
  ⟨(List.range m).map fun i => ⟨i, if i + 1 = m then [.tm (.sym 0), .tm (.sym 0)] else [.nt (i + 1), .nt (i + 1)]⟩, 0⟩

theorem rDouble_gram (v : N) (m : Nat) : gram (rDouble N T E v m) 0 = gDouble m := by
  simp [gram, rDouble, gDouble, Rule.plain, Function.comp_def]

theorem gDouble_mem {m : Nat} {r : PRule} : r ∈ (gDouble m).rules ↔
    r.lhs < m ∧ r.rhs = if r.lhs + 1 = m then [.tm (.sym 0), .tm (.sym 0)] else [.nt (r.lhs + 1), .nt (r.lhs + 1)] := by
  simp only [gDouble, List.mem_map, List.mem_range]
  constructor
  · rintro ⟨i, hi, rfl⟩
    exact ⟨hi, rfl⟩
  · rintro ⟨h1, h2⟩
    exact ⟨r.lhs, h1, by rw [← h2]⟩

theorem gDouble_ok (m : Nat) : (gDouble m).Ok := by
  intro r hr
  rw [gDouble_mem] at hr
  unfold PRule.Ok
  rw [hr.2]
  split <;> simp

theorem gDouble_noError (m : Nat) : (gDouble m).NoError := by
  intro r hr
  rw [gDouble_mem] at hr
  rw [hr.2]
  split <;> simp

theorem gDouble_ll1 (m : Nat) : (gDouble m).LL1 := by
  intro j j' r r' a hj hj' he _ _
  simp only [gDouble, List.getElem?_map, Option.map_eq_some_iff, List.getElem?_range] at hj hj'
  obtain ⟨i, hi, rfl⟩ := hj
  obtain ⟨i', hi', rfl⟩ := hj'
  have h1 := List.getElem?_eq_some_iff.1 hi
  have h2 := List.getElem?_eq_some_iff.1 hi'
  obtain ⟨_, h1⟩ := h1
  obtain ⟨_, h2⟩ := h2
  rw [List.getElem_range] at h1 h2
  simp only at he
  omega

theorem gDouble_gen (m : Nat) : ∀ d i, d + i + 1 = m → Gen (gDouble m).rules [.nt i] (tms (syms (List.replicate (2 ^ (d + 1)) 0))) := by
  intro d
  induction d with
  | zero =>
    intro i hi
    have hr : (⟨i, [.tm (.sym 0), .tm (.sym 0)]⟩ : PRule) ∈ (gDouble m).rules := gDouble_mem.2 ⟨by simp only; omega, by simp only; rw [if_pos (by omega)]⟩
    exact Gen.rule hr
  | succ d ih =>
    intro i hi
    have hr : (⟨i, [.nt (i + 1), .nt (i + 1)]⟩ : PRule) ∈ (gDouble m).rules := gDouble_mem.2 ⟨by simp only; omega, by simp only; rw [if_neg (by omega)]⟩
    have h := ih (i + 1) (by omega)
    have h2 := (Gen.rule hr).trans (h.append h)
    have e : 2 ^ (d + 1 + 1) = 2 ^ (d + 1) + 2 ^ (d + 1) := by rw [Nat.pow_succ 2 (d + 1)]; omega
    rw [e, ← List.replicate_append_replicate]
    simpa [syms, tms] using h2

theorem gDouble_fruitful (m : Nat) (hm : 1 ≤ m) : (gDouble m).Fruitful := by
  have key : ∀ {u}, Derives (gDouble m).rules [.nt 0] u → ∀ n, Sym.nt n ∈ u → n < m := by
    intro u h
    generalize hs : [Sym.nt 0] = s at h
    induction h with
    | refl => subst hs; intro n hn; simp at hn; omega
    | step x y r _ hr ih =>
      intro n hn
      simp only [List.mem_append] at hn
      rcases hn with (hn | hn) | hn
      · exact ih n (by simp [hn])
      · rw [gDouble_mem] at hr
        rw [hr.2] at hn
        split at hn
        · simp at hn
        · simp at hn
          omega
      · exact ih n (by simp [hn])
  intro x n y h
  have hn := key h n (by simp)
  exact ⟨_, gen_iff.1 (gDouble_gen m (m - n - 1) n (by omega))⟩

/-- What a symbol stands for. -/
def weigh (m : Nat) : Sym → Nat
  | .tm _ => 1
  | .nt i => 2 ^ (m - i)

theorem gDouble_sized (m : Nat) {n : Nat} {us : List Sym} {w : List Term} (h : Sized (gDouble m).rules n us w) :
    w.length = (us.map (weigh m)).sum := by
  induction h with
  | nil => rfl
  | tm t n us w _ ih => simp [weigh, ih]; omega
  | nt r n m' us w w' hr _ _ ih ih' =>
    rw [gDouble_mem] at hr
    have e : (r.rhs.map (weigh m)).sum = 2 ^ (m - r.lhs) := by
      rw [hr.2]
      split
      · have e : m - r.lhs = 1 := by omega
        simp [weigh, e]
      · have e : m - r.lhs = (m - (r.lhs + 1)) + 1 := by omega
        simp only [List.map_cons, List.map_nil, List.sum_cons, List.sum_nil, weigh]
        rw [e, Nat.pow_succ]
        omega
    simp [weigh, ih, ih', e]

theorem gDouble_zero (m : Nat) {n : Nat} {us : List Sym} {w : List Term} (h : Sized (gDouble m).rules n us w)
    (hu : ∀ t, Sym.tm t ∈ us → t = .sym 0) : ∀ t ∈ w, t = .sym 0 := by
  induction h with
  | nil => simp
  | tm t n us w _ ih =>
    intro t' ht
    rcases List.mem_cons.1 ht with rfl | ht
    · exact hu _ (by simp)
    · exact ih (fun t h => hu t (by simp [h])) t' ht
  | nt r n m' us w w' hr _ _ ih ih' =>
    intro t ht
    rcases List.mem_append.1 ht with ht | ht
    · refine ih ?_ t ht
      intro t ht
      rw [gDouble_mem] at hr
      rw [hr.2] at ht
      split at ht <;> simp at ht
      exact ht
    · exact ih' (fun t h => hu t (by simp [h])) t ht

theorem nodup_eraseDups {α : Type} [DecidableEq α] (l : List α) (h : l.Nodup) : l.eraseDups = l := by
  induction l with
  | nil => rfl
  | cons a l ih =>
    rw [List.nodup_cons] at h
    rw [List.eraseDups_cons, List.filter_eq_self.2, ih h.2]
    intro b hb
    have : b ≠ a := fun e => h.1 (e ▸ hb)
    simpa using this

/-- C106: the bound is sharp.  For every `m` there are `m` rules for `m` non-terminals with two symbols each whose parser, which has no
warnings, accepts `2 ^ m` tokens of the one kind and nothing else. -/
theorem c106_sharp (ho : o.Fair) (a : N) (m : Nat) (hm : 1 ≤ m) :
    ((rDouble N T E a m).map Rule.lhs).eraseDups.length = m ∧ (∀ r ∈ rDouble N T E a m, r.rhs.length = 2) ∧
    (∃ p, MakesParser o (rDouble N T E a m) 0 p []) ∧
    ∀ p ws, MakesParser o (rDouble N T E a m) 0 p ws → ws = [] ∧
      ∀ (idx : T → Nat) (input : List T), Takes idx p input ↔ input.map idx = List.replicate (2 ^ m) 0 := by
  have hok : (gram (rDouble N T E a m) 0).Ok := by rw [rDouble_gram]; exact gDouble_ok m
  have hne : (gram (rDouble N T E a m) 0).NoError := by rw [rDouble_gram]; exact gDouble_noError m
  have hfr : (gram (rDouble N T E a m) 0).Fruitful := by rw [rDouble_gram]; exact gDouble_fruitful m hm
  have hll : (gram (rDouble N T E a m) 0).LL1 := by rw [rDouble_gram]; exact gDouble_ll1 m
  have hg : ∀ r ∈ rDouble N T E a m, ∀ l, ∃ v, r.gen l = .ok v := by
    intro r hr l
    obtain ⟨i, _, rfl⟩ := List.mem_map.1 hr
    exact ⟨a, rfl⟩
  have hsen : ∀ w, (gram (rDouble N T E a m) 0).Sentence w ↔ w = List.replicate (2 ^ m) 0 := by
    intro w
    rw [rDouble_gram, sentence_gen]
    constructor
    · intro h
      obtain ⟨n, h⟩ := gen_sized h _ rfl
      rw [List.eq_replicate_iff]
      refine ⟨by simpa [syms, weigh, gDouble] using gDouble_sized m h, fun t ht => ?_⟩
      have := gDouble_zero m h (by simp) (.sym t) (by simpa [syms] using ht)
      simpa using this
    · rintro rfl
      have := gDouble_gen m (m - 1) 0 (by omega)
      rwa [show m - 1 + 1 = m from by omega] at this
  refine ⟨?_, ?_, ?_, ?_⟩
  · have e : (rDouble N T E a m).map Rule.lhs = List.range m := by simp [rDouble, Function.comp_def]
    rw [e, nodup_eraseDups _ List.nodup_range]
    simp
  · intro r hr
    obtain ⟨i, _, rfl⟩ := List.mem_map.1 hr
    simp only
    split <;> rfl
  · obtain ⟨tab, htab⟩ := c71_builds o ho _ hok hfr hll
    exact ⟨⟨rDouble N T E a m ++ [⟨freshSym ((rDouble N T E a m).map Rule.plain), [.nt 0], fun _ => .ok a⟩], tab⟩, htab, _, rfl⟩
  · intro p ws hp
    obtain rfl := c71_no_warnings o ho _ hok hfr hll _ _ hp.1
    refine ⟨rfl, fun idx input => ?_⟩
    rw [← hsen]
    exact ((c26_decides o ho _ 0 hok hne (hfr.productive hok hne) hg p hp idx input).1).symm

/-! ## Examples -/

/-- The brackets: an accepted input of more than `3 ^ 1` tokens is `( ( a ) )`; one bracket on each side can be repeated. -/
example (o : Seeds) (ho : o.Fair) (p : Parser Nat Nat Unit) (hp : MakesParser o (rBrackets Nat Unit) 0 p []) :
    ∃ u v x y z, [0, 0, 2, 1, 1] = u ++ v ++ x ++ y ++ z ∧ v ++ y ≠ [] ∧ ∀ i, Takes id p (u ++ times v i ++ x ++ times y i ++ z) := by
  have hg : ∀ r ∈ rBrackets Nat Unit, ∀ l, ∃ v, r.gen l = .ok v := by
    intro r hr l
    simp only [rBrackets, List.mem_cons, List.not_mem_nil, or_false] at hr
    rcases hr with rfl | rfl
    · simp only
      split <;> exact ⟨_, rfl⟩
    · exact ⟨_, rfl⟩
  refine c106_pump ho (by rw [rBrackets_gram]; decide) (by rw [rBrackets_gram]; unfold Gram.NoError; decide) hg hp 3 (by decide) ?_ _
    ⟨2, (((c103_parser o ho).2 p [] hp).2 id [0, 0, 2, 1, 1]).1 2 |>.2 rfl⟩ (by decide)
  intro r hr
  simp only [rBrackets, List.mem_cons, List.not_mem_nil, or_false] at hr
  rcases hr with rfl | rfl <;> simp

/-- Three rules, and the shortest accepted input has eight tokens. -/
example (o : Seeds) (ho : o.Fair) : ∃ p : Parser Unit Nat Unit, MakesParser o (rDouble Unit Nat Unit () 3) 0 p [] ∧
    Takes id p [0, 0, 0, 0, 0, 0, 0, 0] ∧ ¬ Takes id p [0, 0, 0, 0, 0, 0, 0] := by
  obtain ⟨_, _, ⟨p, hp⟩, h⟩ := c106_sharp (N := Unit) (T := Nat) (E := Unit) ho () 3 (by decide)
  exact ⟨p, hp, ((h p [] hp).2 id _).2 (by decide), fun hx => absurd (((h p [] hp).2 id _).1 hx) (by decide)⟩

/-- With `P` = "three times the same number", `a a b b c c` passes and `a b b c` does not. -/
example (o : Seeds) (ho : o.Fair) : ∃ p : Parser (List Nat × Bool) Nat Unit,
    (∃ c, ParsesTo id p [0, 0, 1, 1, 2, 2] (.ok ([0, 0, 1, 1, 2, 2], true)) c) ∧
    ∃ c, ParsesTo id p [0, 1, 1, 2] (.ok ([0, 1, 1, 2], false)) c := by
  obtain ⟨⟨p, hp⟩, h⟩ := c106_callbacks (E := Unit) o ho (fun w : List Nat => decide (w = thrice 0 1 2 (w.length / 3)))
  obtain ⟨_, h⟩ := h p [] hp
  exact ⟨p, h id _ (by decide), h id _ (by decide)⟩

end Verif.Par
