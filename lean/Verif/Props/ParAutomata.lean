import Verif.Par.AutomataProof

/-!
# Finite automata as rules

C99: whatever a finite automaton reads can be written as rules without warnings, with left or with right recursion; what the
values and the stack are like in either case.
-/

namespace Verif.Machine

open Verif.Par

variable {N T E : Type}

namespace Machine

/-- C99: what the automaton computes from left to right, and from right to left, is there for what it reads, and is one value. -/
theorem c99_reads (M : Machine) (hd : M.Det) (idx : T → Nat) (init : N) (fstep : Nat → N → T → N) (base : Nat → N) (bstep : Nat → T → N → N)
    (input : List T) :
    (M.Reads (input.map idx) ↔ ∃ q x, M.Forth idx fstep M.start init input q x ∧ q ∈ M.finals) ∧
    (M.Reads (input.map idx) ↔ ∃ x, M.Back idx base bstep M.start input x) ∧
    (∀ q x q' x', M.Forth idx fstep M.start init input q x → M.Forth idx fstep M.start init input q' x' → q = q' ∧ x = x') ∧
    (∀ x x', M.Back idx base bstep M.start input x → M.Back idx base bstep M.start input x' → x = x') := by
  refine ⟨⟨?_, ?_⟩, ⟨?_, ?_⟩, fun q x q' x' h h' => h.unique hd h', fun x x' h h' => h.unique hd h'⟩
  · rintro ⟨q, h1, h2⟩
    obtain ⟨x, hx⟩ := h1.forth fstep input init rfl
    exact ⟨q, x, hx, h2⟩
  · rintro ⟨q, x, h1, h2⟩
    exact ⟨q, h1.runs, h2⟩
  · rintro ⟨q, h1, h2⟩
    exact h1.back h2 base bstep input rfl
  · rintro ⟨x, h⟩
    exact h.runs

/-- C99: left recursion.  There are no warnings; the callbacks work on the tokens from left to right; anything the automaton does
not read gives `RecoveryRuleNotFound`; the stack never has more than two entries, however long the input is. -/
theorem c99_left (o : Seeds) (ho : o.Fair) (M : Machine) (hd : M.Det) (hr : M.InReach) (init : N) (step : Nat → N → T → N)
    (last : Nat → N → N) (bad : E) :
    (∃ p, MakesParser o (M.left init step last bad) 0 p []) ∧
    ∀ p ws, MakesParser o (M.left init step last bad) 0 p ws → ws = [] ∧ ∀ (idx : T → Nat) (input : List T),
      (∀ q x, M.Forth idx step M.start init input q x → q ∈ M.finals → ∃ c, ParsesTo idx p input (.ok (last q x)) c) ∧
      (¬ M.Reads (input.map idx) → ∃ c, ParsesTo idx p input (.error .noRecovery) c) ∧
      ∀ m c, run idx p m (Cfg.init p input) = .more c → c.stack.length ≤ 2 := by
  have hok : (gram (M.left init step last bad) 0).Ok := by rw [left_gram]; exact left_ok
  have hne : (gram (M.left init step last bad) 0).NoError := by rw [left_gram]; exact left_noError
  have hp : (gram (M.left init step last bad) 0).Productive := by rw [left_gram]; exact left_productive hr
  have hst : ∃ r ∈ M.leftG, r.lhs = 0 := by
    obtain ⟨q, hq⟩ := List.exists_mem_of_ne_nil _ hr.1
    exact ⟨_, final_leftG hq, rfl⟩
  have hlr : (gram (M.left init step last bad) 0).LR1 := by
    rw [left_gram]
    exact ((left_slr hd).lalr1 hst).lr1
  refine ⟨?_, ?_⟩
  · obtain ⟨tab, h⟩ := c79_builds o ho _ hok hp.fruitful hlr
    exact ⟨⟨M.left init step last bad ++ [⟨freshSym ((M.left init step last bad).map Rule.plain), [.nt 0], fun _ => .error bad⟩], tab⟩, h, _, rfl⟩
  intro p ws hm
  obtain rfl := c79_no_warnings o ho _ hok hlr p.tab ws hm.1
  refine ⟨rfl, fun idx input => ⟨?_, ?_, ?_⟩⟩
  · intro q x hx hq
    rcases settle o ho _ 0 hok hne hp p hm left_gen (left_computes (idx := idx)) input with ⟨v, c, h1, ⟨q', x', h2, _, rfl⟩, _⟩ | ⟨h, _⟩
    · obtain ⟨rfl, rfl⟩ := hx.unique hd h2
      exact ⟨c, h1⟩
    · rw [left_gram] at h
      exact absurd (left_reads ⟨q, hx.runs, hq⟩) h
  · intro hn
    rcases settle o ho _ 0 hok hne hp p hm left_gen (left_computes (idx := idx)) input with ⟨v, c, h1, ⟨q', x', h2, h3, rfl⟩, _⟩ | ⟨_, h⟩
    · exact absurd ⟨q', h2.runs, h3⟩ hn
    · exact h
  · intro m c h
    obtain ⟨fresh, hx⟩ := ctx_of_makes ho hok hm
    rcases Reach.run (idx := idx) hx (Reach.init (input := input)) m with ⟨c', h1, h2⟩ | h1
    · rw [h] at h1
      cases h1
      obtain ⟨j, γ, fs, lg, as, hi, _⟩ := h2
      rw [hi.seg.length]
      have hw : Width (gram (M.left init step last bad) 0).rules 2 := by
        rw [left_gram]
        intro r hr
        rcases mem_leftG hr with rfl | ⟨e, _, rfl⟩ | ⟨q, _, rfl⟩ <;> simp
      obtain ⟨i, hv⟩ := (hx.canon.walk_iff γ).1 ⟨_, hi.seg.walk⟩
      have hl : (M.left init step last bad).length = (gram (M.left init step last bad) 0).rules.length := by simp [gram]
      rw [hl] at hv
      have hz : ∀ {A B d : Nat}, Leads M.leftG A B d → d = 0 := by
        intro A B d h
        induction h with
        | refl => rfl
        | front B d r _ _ _ ih => exact ih
        | inner B d r i _ hr hB _ =>
          rcases mem_leftG hr with rfl | ⟨e, _, rfl⟩ | ⟨q, _, rfl⟩
          · cases hB
          · rcases i with _ | i <;> cases hB
          · cases hB
      obtain ⟨rule, k1, k2, ⟨k3, k4⟩ | ⟨d, k3, k4, k5⟩⟩ := hv.leads hx.unused hw (by decide)
      · rw [k3] at k2
        simp at k2
        omega
      · rw [left_gram] at k4
        obtain rfl := hz k4
        have := hw rule k3
        omega
    · rw [h] at h1
      cases h1

/-- C99: right recursion.  There are no warnings; the callbacks work on the tokens from right to left; anything the automaton does
not read gives `RecoveryRuleNotFound`; for what it reads the stack gets as high as the input is long, and one more. -/
theorem c99_right (o : Seeds) (ho : o.Fair) (M : Machine) (hd : M.Det) (hl : M.Live) (base : Nat → N) (step : Nat → T → N → N) (bad : E) :
    (∃ p, MakesParser o (M.right base step bad) M.start p []) ∧
    ∀ p ws, MakesParser o (M.right base step bad) M.start p ws → ws = [] ∧ ∀ (idx : T → Nat) (input : List T),
      (∀ x, M.Back idx base step M.start input x → ∃ c, ParsesTo idx p input (.ok x) c) ∧
      (¬ M.Reads (input.map idx) → ∃ c, ParsesTo idx p input (.error .noRecovery) c) ∧
      (M.Reads (input.map idx) → (∀ m c, run idx p m (Cfg.init p input) = .more c → c.stack.length ≤ input.length + 1) ∧
        ∃ m c, run idx p m (Cfg.init p input) = .more c ∧ c.stack.length = input.length + 1) := by
  have hok : (gram (M.right base step bad) M.start).Ok := by rw [right_gram]; exact right_ok
  have hne : (gram (M.right base step bad) M.start).NoError := by rw [right_gram]; exact right_noError
  have hp : (gram (M.right base step bad) M.start).Productive := by rw [right_gram]; exact right_productive hl
  have hll : (gram (M.right base step bad) M.start).LL1 := by rw [right_gram]; exact right_ll1 hd
  refine ⟨?_, ?_⟩
  · obtain ⟨tab, h⟩ := c71_builds o ho _ hok hp.fruitful hll
    exact ⟨⟨M.right base step bad ++ [⟨freshSym ((M.right base step bad).map Rule.plain), [.nt M.start], fun _ => .error bad⟩], tab⟩, h, _, rfl⟩
  intro p ws hm
  obtain rfl := c71_no_warnings o ho _ hok hp.fruitful hll p.tab ws hm.1
  have hval : ∀ (idx : T → Nat) (input : List T) x, M.Back idx base step M.start input x → ∃ c, ParsesTo idx p input (.ok x) c := by
    intro idx input x hx
    rcases settle o ho _ M.start hok hne hp p hm right_gen (right_computes (idx := idx)) input with ⟨v, c, h1, h2, _⟩ | ⟨h, _⟩
    · obtain rfl := hx.unique hd h2
      exact ⟨c, h1⟩
    · rw [right_gram] at h
      exact absurd (right_reads hx.runs) h
  refine ⟨rfl, fun idx input => ⟨hval idx input, ?_, ?_⟩⟩
  · intro hn
    rcases settle o ho _ M.start hok hne hp p hm right_gen (right_computes (idx := idx)) input with ⟨v, c, h1, h2, _⟩ | ⟨_, h⟩
    · exact absurd h2.runs hn
    · exact h
  · rintro ⟨q, h1, h2⟩
    obtain ⟨x, hx⟩ := h1.back h2 base step input rfl
    obtain ⟨c, hc⟩ := hval idx input x hx
    obtain ⟨f, hf, _, h3, h4⟩ := c68_stack o ho _ M.start hok hne p [] hm idx input x c hc
    have hb := hf.1
    rw [show (M.right base step bad).map Rule.plain = M.rightG from congrArg Gram.rules right_gram] at hb
    have hh := (right_high hb).2 (.inl ⟨_, rfl⟩)
    rw [hf.2.2] at hh
    have hpos : 1 ≤ f.high := by cases f <;> simp only [Tree.high] <;> omega
    simp only [highs, List.length_zipIdx] at hh
    have he : f.high = input.length + 1 := by omega
    rw [he] at h3 h4
    exact ⟨h3, h4⟩

/-- C99: the conditions are no restriction: what is not used can be left out. -/
theorem c99_trim (M : Machine) (hd : M.Det) (h : ∃ w, M.Reads w) :
    ∃ M' : Machine, M'.Det ∧ M'.Live ∧ M'.InReach ∧ ∀ w, M'.Reads w ↔ M.Reads w :=
  ⟨M.trim, trim_det hd, trim_live h, trim_inReach h, fun _ => trim_reads⟩

/-- C99: for every tokenizer and every pattern that is the winner for some text, there is an automaton that reads exactly the texts
for which this pattern wins; so with characters as tokens a parser does what the tokenizer does. -/
theorem c99_tokenizer {α E : Type} (t : Tok.Tokenizer α E) (k : Nat) (h : ∃ w, t.accepts w = some k) :
    ∃ M : Machine, M.Det ∧ M.Live ∧ M.InReach ∧ ∀ w, M.Reads w ↔ t.accepts w = some k := by
  obtain ⟨M, h1, h2, h3, h4⟩ := c99_trim (ofDfa t.dfa k) ofDfa_det (by
    obtain ⟨w, hw⟩ := h
    exact ⟨w, ofDfa_reads.2 hw⟩)
  exact ⟨M, h1, h2, h3, fun w => (h4 w).trans ofDfa_reads⟩

end Machine

/-! ## Examples -/

/-- Binary numbers without leading zeros: `0 | 1 (0|1)*`.  State 0 at the start, 1 behind `0`, 2 behind `1`. -/
def binary : Machine where
  start := 0
  edges := [⟨0, 0, 1⟩, ⟨0, 1, 2⟩, ⟨2, 0, 2⟩, ⟨2, 1, 2⟩]
  finals := [1, 2]

theorem binary_det : binary.Det := by
  unfold Machine.Det
  exact ⟨by decide, by decide⟩

theorem binary_live : binary.Live := by
  rintro q (rfl | ⟨e, he, rfl⟩)
  · exact ⟨[0], 1, .cons ⟨0, 0, 1⟩ _ _ (by decide) (.nil _), by decide⟩
  · simp only [binary, List.mem_cons, List.not_mem_nil, or_false] at he
    rcases he with rfl | rfl | rfl | rfl
    · exact ⟨[], 1, .nil _, by decide⟩
    all_goals exact ⟨[], 2, .nil _, by decide⟩

theorem binary_inReach : binary.InReach := by
  have h1 : binary.Runs 0 [0] 1 := .cons ⟨0, 0, 1⟩ _ _ (by decide) (.nil _)
  have h2 : binary.Runs 0 [1] 2 := .cons ⟨0, 1, 2⟩ _ _ (by decide) (.nil _)
  refine ⟨by decide, ?_⟩
  rintro q (hq | ⟨e, he, rfl⟩)
  · simp only [binary, List.mem_cons, List.not_mem_nil, or_false] at hq
    rcases hq with rfl | rfl
    · exact ⟨_, h1⟩
    · exact ⟨_, h2⟩
  · simp only [binary, List.mem_cons, List.not_mem_nil, or_false] at he
    rcases he with rfl | rfl | rfl | rfl
    · exact ⟨[], .nil _⟩
    · exact ⟨[], .nil _⟩
    · exact ⟨_, h2⟩
    · exact ⟨_, h2⟩

/-- `1 0 1` is 5, with the callbacks doubling; `0 1` is not read. -/
example : ∃ p : Parser Nat Nat Unit, MakesParser idSeeds (binary.left 0 (fun _ v t => 2 * v + t) (fun _ v => v) ()) 0 p [] ∧
    (∃ c, ParsesTo id p [1, 0, 1] (.ok 5) c) ∧ ∃ c, ParsesTo id p [0, 1] (.error .noRecovery) c := by
  obtain ⟨⟨p, hp⟩, h⟩ := Machine.c99_left idSeeds idSeeds_fair binary binary_det binary_inReach 0 (fun _ v (t : Nat) => 2 * v + t) (fun _ v => v) ()
  obtain ⟨_, h⟩ := h p [] hp
  refine ⟨p, hp, (h id [1, 0, 1]).1 2 5 ?_ (by decide), (h id [0, 1]).2.1 ?_⟩
  · exact .cons ⟨0, 1, 2⟩ _ _ _ _ _ (by decide) rfl (.cons ⟨2, 0, 2⟩ _ _ _ _ _ (by decide) rfl
      (.cons ⟨2, 1, 2⟩ _ _ _ _ _ (by decide) rfl (.nil _ _)))
  · rintro ⟨q, hq, _⟩
    have one : ∀ {q w r}, binary.Runs q w r → q = 1 → w = [] := by
      intro q w r h hq
      cases h with
      | nil => rfl
      | cons e w q he h =>
        simp only [binary, List.mem_cons, List.not_mem_nil, or_false] at he
        rcases he with rfl | rfl | rfl | rfl <;> cases hq
    have zero : ∀ {q w r}, binary.Runs q w r → w ≠ [0, 1] ∨ q ≠ 0 := by
      intro q w r h
      cases h with
      | nil => simp
      | cons e w q he h =>
        simp only [binary, List.mem_cons, List.not_mem_nil, or_false] at he
        rcases he with rfl | rfl | rfl | rfl
        · simp [one h rfl]
        all_goals simp
    rcases zero hq with h | h
    · exact h rfl
    · exact h rfl

/-- With right recursion the stack has four entries for `1 0 1`. -/
example : ∃ p : Parser Nat Nat Unit, MakesParser idSeeds (binary.right (fun _ => 0) (fun _ t v => t + v) ()) 0 p [] ∧
    ∃ m c, run id p m (Cfg.init p [1, 0, 1]) = .more c ∧ c.stack.length = 4 := by
  obtain ⟨⟨p, hp⟩, h⟩ := Machine.c99_right idSeeds idSeeds_fair binary binary_det binary_live (fun _ => 0) (fun _ (t : Nat) v => t + v) ()
  obtain ⟨_, h⟩ := h p [] hp
  exact ⟨p, hp, ((h id [1, 0, 1]).2.2 ⟨2, .cons ⟨0, 1, 2⟩ _ _ (by decide) (.cons ⟨2, 0, 2⟩ _ _ (by decide) (.cons ⟨2, 1, 2⟩ _ _ (by decide) (.nil _))), by decide⟩).2⟩

/-- A table for `ab*`. -/
example : ∃ M : Machine, M.Det ∧ M.Live ∧ M.InReach ∧ M.Reads [97, 98, 98] ∧ ¬ M.Reads [98] := by
  obtain ⟨M, h1, h2, h3, h4⟩ := Machine.c99_tokenizer (α := Nat) (E := Nat) ⟨⟨[[((97, 98), 1)], [((98, 99), 1)]], 0, [none, some 0]⟩, []⟩ 0 ⟨[97], rfl⟩
  exact ⟨M, h1, h2, h3, (h4 _).2 rfl, fun h => by have := (h4 _).1 h; revert this; decide⟩

end Verif.Machine
