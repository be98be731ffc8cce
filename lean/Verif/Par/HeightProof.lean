import Verif.Par.Height
import Verif.Par.ChosenProof
import Verif.Par.FullProof

/-!
# Proofs about the height of the stack
-/

namespace Verif.Par

variable {N T E : Type} {p : Parser N T E} {rules : List (Rule N T E)} {idx : T → Nat} {input : List T} {start fresh : Nat}

theorem Tree.high_pos (f : Tree T) : 1 ≤ f.high := by
  cases f <;> simp [Tree.high]
  omega

theorem length_le_highs (fs : List (Tree T)) : fs.length ≤ highs fs := by
  induction fs with
  | nil => simp
  | cons f fs ih => simp only [highs, List.length_cons]; omega

theorem highs_append (fs gs : List (Tree T)) : highs (fs ++ gs) = max (highs fs) (fs.length + highs gs) := by
  induction fs with
  | nil => simp [highs]
  | cons f fs ih =>
    have := length_le_highs fs
    simp only [List.cons_append, highs, ih, List.length_cons]
    omega

theorem highs_single (f : Tree T) : highs [f] = f.high := by
  have := f.high_pos
  simp only [highs]
  omega

/-- The stack got as high as the forest says, and no higher, within `n` rounds. -/
def Peak (idx : T → Nat) (p : Parser N T E) (input : List T) (n h : Nat) : Prop :=
  (∀ m c, m ≤ n → run idx p m (Cfg.init p input) = .more c → c.stack.length ≤ h) ∧
  ∃ m c, m ≤ n ∧ run idx p m (Cfg.init p input) = .more c ∧ c.stack.length = h

theorem run_snoc (n : Nat) (c c' : Cfg N T) (h : run idx p n c = .more c') : run idx p (n + 1) c = step idx p c' := by
  induction n generalizing c with
  | zero =>
    cases h
    simp only [run]
    split <;> simp_all
  | succ n ih =>
    rw [run] at h ⊢
    cases hs : step idx p c with
    | more c1 =>
      rw [hs] at h
      exact ih c1 h
    | done r c1 => rw [hs] at h; cases h
    | panic => rw [hs] at h; cases h

theorem run_stop (n m : Nat) (c : Cfg N T) (hnm : n ≤ m) (h : ∀ c', run idx p n c ≠ .more c') : run idx p m c = run idx p n c := by
  induction n generalizing c m with
  | zero => exact absurd rfl (h c)
  | succ n ih =>
    obtain ⟨m, rfl⟩ : ∃ k, m = k + 1 := ⟨m - 1, by omega⟩
    rw [run] at h ⊢
    rw [run]
    cases hs : step idx p c with
    | more c1 =>
      rw [hs] at h
      exact ih _ _ (by omega) h
    | done r c1 => rfl
    | panic => rfl

/-- One more round. -/
theorem Peak.next {n h h' : Nat} (hp : Peak idx p input n h) {c : Cfg N T} (hc : run idx p (n + 1) (Cfg.init p input) = .more c)
    (hh : h' = max h c.stack.length) : Peak idx p input (n + 1) h' := by
  obtain ⟨h1, m, c1, h2, h3, h4⟩ := hp
  constructor
  · intro m' c' hm hr
    rcases Nat.lt_or_ge n m' with h5 | h5
    · have : m' = n + 1 := by omega
      subst this
      rw [hc] at hr
      cases hr
      omega
    · have := h1 m' c' h5 hr
      omega
  · rcases Nat.le_total c.stack.length h with h5 | h5
    · exact ⟨m, c1, by omega, h3, by omega⟩
    · exact ⟨n + 1, c, Nat.le_refl _, hc, by omega⟩

theorem Inv.stack_length {c : Cfg N T} {j γ fs lg as} (h : Inv p rules idx input c j γ fs lg as) (he : errs fs = []) :
    c.stack.length = fs.length := by
  rw [h.seg.length, (h.built he).length]

/-- At every round the trees on the stack tell how high the stack has been. -/
theorem peak_run (hx : Ctx p rules start fresh) (hn : (gram rules start).NoError) (n : Nat) (c : Cfg N T)
    (hr : run idx p n (Cfg.init p input) = .more c) :
    ∃ j γ fs lg as, Inv p rules idx input c j γ fs lg as ∧ errs fs = [] ∧ Peak idx p input n (highs fs) := by
  induction n generalizing c with
  | zero =>
    cases hr
    refine ⟨_, _, _, _, _, .init, rfl, ?_, 0, _, Nat.le_refl _, rfl, rfl⟩
    intro m c hm h
    have : m = 0 := by omega
    subst this
    cases h
    exact Nat.le_refl _
  | succ n ih =>
    have h0 : ∃ c0, run idx p n (Cfg.init p input) = .more c0 := by
      cases h : run idx p n (Cfg.init p input) with
      | more c0 => exact ⟨c0, rfl⟩
      | done r c0 =>
        have := run_stop n (n + 1) (Cfg.init p input) (by omega) (by rw [h]; intro c' h'; cases h')
        rw [hr, h] at this
        cases this
      | panic =>
        have := run_stop n (n + 1) (Cfg.init p input) (by omega) (by rw [h]; intro c' h'; cases h')
        rw [hr, h] at this
        cases this
    obtain ⟨c0, h0⟩ := h0
    obtain ⟨j, γ, fs, lg, as, hi, he, hp⟩ := ih c0 h0
    have hs := run_snoc n _ _ h0
    rw [hr] at hs
    obtain ⟨a, h1, h2, h3, h4⟩ := step_cases hx hi
    rcases h4 with ⟨t, s, _, _, _, k1, k2⟩ | ⟨r, k1, k2⟩ | ⟨v, k1, k2, k3, k4, ⟨f, k5⟩, k6, k7⟩ | ⟨k1, k2 | ⟨c', j', γ', fs', lg', as', k2, k3, k4, k5, k6, k7, k8, k9, _⟩⟩
    · rw [k1] at hs
      cases hs
      have he' : errs (fs ++ [Tree.leaf j t]) = [] := by rw [errs_append, he]; rfl
      refine ⟨_, _, _, _, _, k2, he', hp.next hr ?_⟩
      have := length_le_highs fs
      rw [k2.stack_length he', highs_append, highs_single]
      simp [Tree.high]
    · have hst : (fill idx c0).state = c0.state := by
        unfold fill
        split
        · rfl
        · split <;> rfl
      obtain ⟨rule, γ0, fs0, fs1, lg0, lg1, as0, as1, e1, e2, e3, e4, e5, e6⟩ := h2.reduce hx (a := a) (r := r) (by rw [hst]; exact k1)
      subst e3
      rw [errs_append, List.append_eq_nil_iff] at he
      rcases e6 with ⟨_, _, e7⟩ | ⟨e6, _, _, e7, e8⟩
      · exact absurd he.2 e7
      · cases hg : rule.gen as1 with
        | error e => rw [k2, e7 e hg] at hs; cases hs
        | ok v =>
          obtain ⟨q, q0, i, st, e9, e10⟩ := e8 v hg
          rw [k2, e9] at hs
          cases hs
          have he' : errs (fs0 ++ [Tree.node r fs1]) = [] := by
            rw [errs_append, he.1, errs_single, Tree.errs]; exact he.2
          refine ⟨_, _, _, _, _, e10, he', hp.next hr ?_⟩
          have := length_le_highs fs0
          rw [e10.stack_length he', highs_append, highs_append, highs_single]
          simp only [Tree.high, List.length_append, List.length_singleton]
          omega
    · rw [k7] at hs; cases hs
    · rw [k2] at hs; cases hs
    · exact absurd k9 (no_err_expected hn)

/-- The peak of a parse that gives a value. -/
theorem peak_ok (hx : Ctx p rules start fresh) (hn : (gram rules start).NoError) {n : Nat} {v : N} {c : Cfg N T}
    (hr : run idx p n (Cfg.init p input) = .done (.ok v) c) :
    ∃ f, IsTree (rules.map Rule.plain) start idx input f ∧ Evals rules [f] c.log.reverse (.ok [.nt v]) ∧
      (∀ m c', run idx p m (Cfg.init p input) = .more c' → c'.stack.length ≤ f.high) ∧
      (∃ m c', run idx p m (Cfg.init p input) = .more c' ∧ c'.stack.length = f.high) ∧ c.read = input := by
  -- the last round
  have h0 : ∃ m c0, m < n ∧ run idx p m (Cfg.init p input) = .more c0 ∧ run idx p (m + 1) (Cfg.init p input) = .done (.ok v) c := by
    clear hx
    induction n with
    | zero => cases hr
    | succ n ih =>
      cases h : run idx p n (Cfg.init p input) with
      | more c0 => exact ⟨n, c0, by omega, h, hr⟩
      | done r c0 =>
        have := run_stop n (n + 1) (Cfg.init p input) (by omega) (by rw [h]; intro c' h'; cases h')
        rw [hr, h] at this
        cases this
        obtain ⟨m, c0, h1, h2⟩ := ih h
        exact ⟨m, c0, by omega, h2⟩
      | panic =>
        have := run_stop n (n + 1) (Cfg.init p input) (by omega) (by rw [h]; intro c' h'; cases h')
        rw [hr, h] at this
        cases this
  obtain ⟨m, c0, _, h0, hd⟩ := h0
  obtain ⟨j, γ, fs, lg, as, hi, he, hp⟩ := peak_run hx hn m c0 h0
  have hs := run_snoc m _ _ h0
  rw [hd] at hs
  obtain ⟨a, h1, h2, h3, h4⟩ := step_cases hx hi
  rcases h4 with ⟨t, s, _, _, _, k1, k2⟩ | ⟨r, k1, k2⟩ | ⟨v', k1, k2, k3, k4, ⟨f, k5⟩, k6, k7⟩ | ⟨k1, k2 | ⟨c', j', γ', fs', lg', as', k2, _⟩⟩
  · rw [k1] at hs; cases hs
  · exfalso
    rw [k2] at hs
    unfold onReduce at hs
    split at hs
    · cases hs
    · split at hs
      · cases hs
      · simp only at hs
        split at hs
        · cases hs
        · split at hs
          · cases hs
          · split at hs <;> cases hs
  · rw [k7] at hs
    cases hs
    subst k5 k4 k6 k3
    obtain ⟨c1, c2, c3, c4⟩ := h2.clean he
    rw [List.take_length] at c1
    refine ⟨f, ⟨h2.built he, he, c1⟩, ?_, ?_, ?_, ?_⟩
    · have := h2.seg.elems.evals
      rw [c2] at this
      exact this
    · intro m' c' hm'
      have : m' ≤ m := by
        rcases Nat.lt_or_ge m m' with h | h
        · have h5 := run_stop (m + 1) m' (Cfg.init p input) h (by rw [hd]; intro c' h'; cases h')
          rw [hm', hd] at h5
          cases h5
        · exact h
      have := hp.1 m' c' this hm'
      rwa [highs_single] at this
    · obtain ⟨m', c', _, h5, h6⟩ := hp.2
      exact ⟨m', c', h5, by rw [h6, highs_single]⟩
    · have h5 := h2.read
      have h6 := h2.jle
      have := congrArg List.length h5
      rw [List.length_append] at this
      have h7 : (fill idx c0).src = [] := List.eq_nil_of_length_eq_zero (by omega)
      rw [h7, List.append_nil] at h5
      exact h5
  · rw [k2] at hs; cases hs
  · rw [k2] at hs; cases hs

/-! ## Height and nesting -/

mutual
theorem nesting_lt : (f : Tree T) → 1 + f.nesting ≤ f.high
  | .leaf _ _ => by simp [Tree.nesting, Tree.high]
  | .err _ _ => by simp [Tree.nesting, Tree.high]
  | .node _ cs => by
    have := nestings_lt cs
    simp only [Tree.nesting, Tree.high]
    omega
theorem nestings_lt : (fs : List (Tree T)) → 1 + nestings fs ≤ max 1 (highs fs)
  | [] => by simp [nestings, highs]
  | f :: fs => by
    have h1 := nesting_lt f
    have h2 := nestingsRest_lt fs
    simp only [nestings, highs]
    omega
theorem nestingsRest_lt : (fs : List (Tree T)) → nestingsRest fs ≤ highs fs
  | [] => by simp [nestingsRest, highs]
  | f :: fs => by
    have h1 := nesting_lt f
    have h2 := nestingsRest_lt fs
    simp only [nestingsRest, highs]
    omega
end

/-- No node has more than `k` children. -/
inductive Slim (k : Nat) : List (Tree T) → Prop
  | nil : Slim k []
  | leaf (i t fs) : Slim k fs → Slim k (.leaf i t :: fs)
  | err (lo l fs) : Slim k fs → Slim k (.err lo l :: fs)
  | node (r cs fs) : cs.length ≤ k → Slim k cs → Slim k fs → Slim k (.node r cs :: fs)

theorem Built.slim {R : List PRule} {k : Nat} (hk : Width R k) {us fs} (h : Built R idx input us fs) : Slim k fs := by
  induction h with
  | nil => exact .nil
  | leaf i t us fs _ _ ih => exact .leaf _ _ _ ih
  | err lo l us fs _ _ _ ih => exact .err _ _ _ ih
  | node r rule cs us fs h1 h2 h3 ih1 ih2 =>
    refine .node _ _ _ ?_ ih1 ih2
    rw [← h2.length]
    exact hk rule (List.mem_of_getElem? h1)

theorem highs_rest {k : Nat} {fs : List (Tree T)} (h : ∀ f ∈ fs, f.high ≤ 1 + (k - 1) * f.nesting) (d : Nat)
    (hk : fs.length + d ≤ k) : d + highs fs ≤ max d (1 + (k - 1) * nestingsRest fs) := by
  induction fs generalizing d with
  | nil => simp [highs]; omega
  | cons f fs ih =>
    have h1 := h f List.mem_cons_self
    have h2 := ih (fun g hg => h g (List.mem_cons_of_mem _ hg)) (d + 1) (by simp at hk; omega)
    have h3 := f.high_pos
    simp only [List.length_cons] at hk
    simp only [highs, nestingsRest]
    have h4 : (k - 1) * (1 + f.nesting) ≤ (k - 1) * max (1 + f.nesting) (nestingsRest fs) := Nat.mul_le_mul_left _ (by omega)
    have h5 : (k - 1) * nestingsRest fs ≤ (k - 1) * max (1 + f.nesting) (nestingsRest fs) := Nat.mul_le_mul_left _ (by omega)
    rw [Nat.mul_add, Nat.mul_one] at h4
    omega

theorem Slim.high {k : Nat} {fs : List (Tree T)} (h : Slim k fs) : ∀ f ∈ fs, f.high ≤ 1 + (k - 1) * f.nesting := by
  induction h with
  | nil => intro f hf; cases hf
  | leaf i t fs _ ih =>
    intro f hf
    rcases List.mem_cons.1 hf with rfl | hf
    · simp [Tree.high]
    · exact ih f hf
  | err lo l fs _ ih =>
    intro f hf
    rcases List.mem_cons.1 hf with rfl | hf
    · simp [Tree.high]
    · exact ih f hf
  | node r cs fs h1 _ _ ih1 ih2 =>
    intro f hf
    rcases List.mem_cons.1 hf with rfl | hf
    · simp only [Tree.high, Tree.nesting]
      cases cs with
      | nil => simp [highs]
      | cons g gs =>
        have h2 := ih1 g List.mem_cons_self
        have h3 := highs_rest (k := k) (fun f hf => ih1 f (List.mem_cons_of_mem _ hf)) 1 (by simpa using h1)
        simp only [highs, nestings]
        have h4 : (k - 1) * g.nesting ≤ (k - 1) * max g.nesting (nestingsRest gs) := Nat.mul_le_mul_left _ (by omega)
        have h5 : (k - 1) * nestingsRest gs ≤ (k - 1) * max g.nesting (nestingsRest gs) := Nat.mul_le_mul_left _ (by omega)
        omega
    · exact ih2 f hf

/-! ## Grammars that do not nest -/

theorem Leads.trans {R : List PRule} {A B C d e : Nat} (h : Leads R A B d) (h' : Leads R B C e) : Leads R A C (d + e) := by
  induction h' with
  | refl => exact h
  | front C e r _ h1 h2 ih => exact .front _ _ r ih h1 h2
  | inner C e r i _ h1 h2 ih => exact .inner _ _ r i ih h1 h2

/-- Where the right-hand sides were left in the middle. -/
theorem Leads.turns {R : List PRule} {A B d : Nat} (hn : ∀ C c e, Leads R A C c → ¬ Leads R C C (e + 1)) (h : Leads R A B d) :
    ∃ l : List Nat, l.length = d ∧ l.Nodup ∧ (∀ C ∈ l, C ∈ R.map PRule.lhs) ∧
      (∀ C ∈ l, ∃ c e, Leads R A C c ∧ Leads R C B (e + 1)) := by
  induction h with
  | refl => exact ⟨[], rfl, List.nodup_nil, (fun _ h => by cases h), fun _ h => by cases h⟩
  | front B d r h0 h1 h2 ih =>
    obtain ⟨l, k1, k2, k3, k4⟩ := ih
    refine ⟨l, k1, k2, k3, ?_⟩
    intro C hC
    obtain ⟨c, e, k5, k6⟩ := k4 C hC
    exact ⟨c, e, k5, .front _ _ r k6 h1 h2⟩
  | inner B d r i h0 h1 h2 ih =>
    obtain ⟨l, k1, k2, k3, k4⟩ := ih
    refine ⟨r.lhs :: l, by simp [k1], List.nodup_cons.2 ⟨?_, k2⟩, ?_, ?_⟩
    · intro hm
      obtain ⟨c, e, k5, k6⟩ := k4 _ hm
      exact hn _ _ _ k5 k6
    · intro C hC
      rcases List.mem_cons.1 hC with rfl | hC
      · exact List.mem_map_of_mem h1
      · exact k3 C hC
    · intro C hC
      rcases List.mem_cons.1 hC with rfl | hC
      · exact ⟨d, 0, h0, .inner _ _ r i .refl h1 h2⟩
      · obtain ⟨c, e, k5, k6⟩ := k4 C hC
        exact ⟨c, e + 1, k5, .inner _ _ r i k6 h1 h2⟩

theorem Leads.le {g : Gram} (hn : ¬ Nests g) {B d : Nat} (h : Leads g.rules g.start B d) : d ≤ g.rules.length := by
  obtain ⟨l, h1, h2, h3, _⟩ := h.turns fun C c e h1 h2 => hn ⟨C, c, e, h1, h2⟩
  have := length_le_of_nodup_subset h2 h3
  rw [List.length_map] at this
  omega

theorem Valid.leads {g : Gram} {k : Nat} (hf : ¬ g.Used fresh) (hw : Width g.rules k) (hk : 1 ≤ k) {γ : List Sym} {i : Item}
    (h : Valid (g.aug fresh) g.rules.length γ i) :
    ∃ rule, (g.aug fresh)[i.rule]? = some rule ∧ i.pos ≤ rule.rhs.length ∧
      ((rule.rhs = [.nt g.start] ∧ γ.length = i.pos) ∨
       ∃ d, rule ∈ g.rules ∧ Leads g.rules g.start rule.lhs d ∧ γ.length ≤ i.pos + (k - 1) * d) := by
  induction h with
  | start => exact ⟨⟨fresh, [.nt g.start]⟩, by simp [Gram.aug], Nat.zero_le _, Or.inl ⟨rfl, rfl⟩⟩
  | advance γ i r X _ h1 h2 ih =>
    obtain ⟨rule, k1, k2, k3⟩ := ih
    rw [h1] at k1
    cases k1
    have := (List.getElem?_eq_some_iff.1 h2).1
    refine ⟨r, h1, this, ?_⟩
    rcases k3 with ⟨k3, k4⟩ | ⟨d, k3, k4, k5⟩
    · exact Or.inl ⟨k3, by simp [k4]⟩
    · exact Or.inr ⟨d, k3, k4, by simp; omega⟩
  | expand γ i r B j r' b ρ _ h1 h2 h3 h4 h5 ih =>
    obtain ⟨rule, k1, k2, k3⟩ := ih
    rw [h1] at k1
    cases k1
    refine ⟨r', h3, Nat.zero_le _, ?_⟩
    rcases List.mem_append.1 (List.mem_of_getElem? h3) with h6 | h6
    · right
      rcases k3 with ⟨k3, k4⟩ | ⟨d, k3, k4, k5⟩
      · have hp : i.pos = 0 := by
          have := (List.getElem?_eq_some_iff.1 h2).1
          rw [k3] at this
          simpa using this
        rw [k3, hp] at h2
        cases h2
        exact ⟨0, h6, h4 ▸ .refl, by rw [k4, hp]; exact Nat.zero_le _⟩
      · subst h4
        have hlt := (List.getElem?_eq_some_iff.1 h2).1
        have hle := hw r k3
        cases hpos : i.pos with
        | zero =>
          rw [hpos] at h2 k5
          exact ⟨d, h6, .front _ _ r k4 k3 h2, k5⟩
        | succ n =>
          rw [hpos] at h2 k5 hlt
          refine ⟨d + 1, h6, .inner _ _ r n k4 k3 h2, ?_⟩
          rw [Nat.mul_add]
          omega
    · left
      simp only [List.mem_singleton] at h6
      subst h6
      refine ⟨rfl, ?_⟩
      rcases k3 with ⟨k3, k4⟩ | ⟨d, k3, k4, k5⟩
      · have hp : i.pos = 0 := by
          have := (List.getElem?_eq_some_iff.1 h2).1
          rw [k3] at this
          simpa using this
        rw [k4, hp]
      · subst h4
        exact absurd ⟨r, k3, Or.inr (List.mem_of_getElem? h2)⟩ hf

theorem Inv.flat (hx : Ctx p rules start fresh) {k : Nat} (hw : Width (gram rules start).rules k) (hk : 1 ≤ k) (hn : ¬ Nests (gram rules start))
    {c : Cfg N T} {j γ fs lg as} (h : Inv p rules idx input c j γ fs lg as) : c.stack.length ≤ k + (k - 1) * rules.length := by
  rw [h.seg.length]
  obtain ⟨i, hi⟩ := (hx.canon.walk_iff γ).1 ⟨_, h.seg.walk⟩
  have hl : rules.length = (gram rules start).rules.length := by simp [gram]
  rw [hl] at hi ⊢
  obtain ⟨rule, h1, h2, ⟨h3, h4⟩ | ⟨d, h3, h4, h5⟩⟩ := hi.leads hx.unused hw hk
  · rw [h3] at h2
    simp at h2
    omega
  · have h6 := h4.le hn
    have h7 := hw rule h3
    have := Nat.mul_le_mul_left (k - 1) h6
    omega

/-! ## Grammars that nest -/

/-- `A` has trees nested at least `h` deep. -/
def Tall (R : List PRule) (idx : T → Nat) (A h : Nat) : Prop :=
  ∃ l : List T, ∀ pre post, ∃ f, Built R idx (pre ++ l ++ post) [.nt A] [f] ∧ errs [f] = [] ∧ leaves [f] = l.zipIdx pre.length ∧ h ≤ f.nesting

theorem nestingsRest_append (fs : List (Tree T)) (f : Tree T) (gs : List (Tree T)) : 1 + f.nesting ≤ nestingsRest (fs ++ f :: gs) := by
  induction fs with
  | nil => simp only [List.nil_append, nestingsRest]; omega
  | cons g fs ih => simp only [List.cons_append, nestingsRest]; omega

theorem Tall.up {R : List PRule} (hu : Useful R idx) {r : PRule} (hr : r ∈ R) {i B h : Nat} (hB : r.rhs[i]? = some (.nt B))
    (h0 : Tall R idx B h) : Tall R idx r.lhs (h + if i = 0 then 0 else 1) := by
  obtain ⟨l, hl⟩ := h0
  obtain ⟨w, hw⟩ := hu r hr
  have hlt := (List.getElem?_eq_some_iff.1 hB).1
  have hsplit : r.rhs = r.rhs.take i ++ .nt B :: r.rhs.drop (i + 1) := by
    rw [← (List.getElem?_eq_some_iff.1 hB).2, List.getElem_cons_drop, List.take_append_drop]
  have hg := gen_iff.2 hw
  rw [hsplit] at hg
  obtain ⟨u, v, e1, g1, g2⟩ := hg.split
  obtain ⟨u', v', e2, g3, g4⟩ := g2.split_cons
  subst e2
  obtain ⟨w1, w2, rfl, e3, e4⟩ := List.map_eq_append_iff.1 e1
  obtain ⟨w3, w4, rfl, e5, e6⟩ := List.map_eq_append_iff.1 e4
  obtain ⟨n, hn⟩ := List.getElem?_of_mem hr
  refine ⟨w1 ++ l ++ w4, fun pre post => ?_⟩
  obtain ⟨fs, a1, a2, a3⟩ := Built.of_gen (idx := idx) (input := pre ++ (w1 ++ l ++ w4) ++ post) g1 pre w1 (l ++ w4 ++ post) (by simp) e3.symm
  obtain ⟨gs, b1, b2, b3⟩ := Built.of_gen (idx := idx) (input := pre ++ (w1 ++ l ++ w4) ++ post) g4 (pre ++ w1 ++ l) w4 post (by simp) e6.symm
  obtain ⟨f, c1, c2, c3, c4⟩ := hl (pre ++ w1) (w4 ++ post)
  have e : pre ++ w1 ++ l ++ (w4 ++ post) = pre ++ (w1 ++ l ++ w4) ++ post := by simp
  rw [e] at c1
  have hb := (a1.append (c1.append b1))
  simp only [List.singleton_append] at hb
  rw [← hsplit] at hb
  refine ⟨.node n (fs ++ f :: gs), .node _ _ _ _ _ hn hb .nil, ?_, ?_, ?_⟩
  · have : errs (fs ++ ([f] ++ gs)) = [] := by rw [errs_append, errs_append, a2, b2, c2]; rfl
    simpa [errs, Tree.errs] using this
  · have : leaves (fs ++ ([f] ++ gs)) = (w1 ++ l ++ w4).zipIdx pre.length := by
      rw [leaves_append, leaves_append, a3, b3, c3]
      simp [List.zipIdx_append, Nat.add_assoc]
    simpa [leaves, Tree.leaves] using this
  · have hlen := a1.length
    rw [List.length_take] at hlen
    simp only [Tree.nesting]
    cases fs with
    | nil =>
      have : i = 0 := by simp only [List.length_nil] at hlen; omega
      simp only [this, if_true, List.nil_append, nestings]
      omega
    | cons g fs =>
      have := nestingsRest_append fs f gs
      simp only [List.cons_append, nestings]
      split <;> omega

theorem Tall.leads {R : List PRule} (hu : Useful R idx) {A B d : Nat} (h : Leads R A B d) : ∀ n, Tall R idx B n → Tall R idx A (n + d) := by
  induction h with
  | refl => exact fun n h => h
  | front B d r _ h1 h2 ih =>
    intro n h
    exact ih n (h.up hu h1 h2)
  | inner B d r i _ h1 h2 ih =>
    intro n h
    have := ih _ (h.up hu h1 h2)
    simp only [Nat.add_eq_zero_iff, Nat.one_ne_zero, and_false, if_false] at this
    rw [Nat.add_assoc, Nat.add_comm 1 d] at this
    exact this

theorem Leads.rule {R : List PRule} {A B d : Nat} (h : Leads R A B (d + 1)) : ∃ r ∈ R, .nt B ∈ r.rhs := by
  cases h with
  | front _ _ r _ h1 h2 => exact ⟨r, h1, List.mem_of_getElem? h2⟩
  | inner _ _ r i _ h1 h2 => exact ⟨r, h1, List.mem_of_getElem? h2⟩

theorem Nests.tall {g : Gram} (hu : Useful g.rules idx) (h : Nests g) (n : Nat) : Tall g.rules idx g.start n := by
  obtain ⟨A, c, d, h1, h2⟩ := h
  have h3 : Tall g.rules idx A 0 := by
    obtain ⟨r, hr, hm⟩ := h2.rule
    obtain ⟨w, hw⟩ := hu r hr
    obtain ⟨x, y, hxy⟩ := List.append_of_mem hm
    have hg := gen_iff.2 hw
    rw [hxy] at hg
    obtain ⟨u, v, e1, g1, g2⟩ := hg.split
    obtain ⟨u', v', e2, g3, g4⟩ := g2.split_cons
    subst e2
    obtain ⟨w1, w2, rfl, e3, e4⟩ := List.map_eq_append_iff.1 e1
    obtain ⟨w3, w4, rfl, e5, e6⟩ := List.map_eq_append_iff.1 e4
    refine ⟨w3, fun pre post => ?_⟩
    obtain ⟨fs, a1, a2, a3⟩ := Built.of_gen (idx := idx) (input := pre ++ w3 ++ post) g3 pre w3 post rfl e5.symm
    have hl := a1.length
    cases fs with
    | nil => cases hl
    | cons f fs =>
      cases fs with
      | nil => exact ⟨f, a1, a2, a3, Nat.zero_le _⟩
      | cons => simp at hl
  have h4 : ∀ n, Tall g.rules idx A n := by
    intro n
    induction n with
    | zero => exact h3
    | succ n ih =>
      obtain ⟨l, hl⟩ := Tall.leads hu h2 n ih
      refine ⟨l, fun pre post => ?_⟩
      obtain ⟨f, k1, k2, k3, k4⟩ := hl pre post
      exact ⟨f, k1, k2, k3, by omega⟩
  obtain ⟨l, hl⟩ := Tall.leads hu h1 n (h4 n)
  refine ⟨l, fun pre post => ?_⟩
  obtain ⟨f, k1, k2, k3, k4⟩ := hl pre post
  exact ⟨f, k1, k2, k3, by omega⟩

/-! ## Without empty rules -/

theorem Built.leaves_ge {R : List PRule} (hR : ∀ r ∈ R, r.rhs ≠ []) {us fs} (h : Built R idx input us fs) (he : errs fs = []) :
    fs.length ≤ (leaves fs).length := by
  induction h with
  | nil => exact Nat.le_refl _
  | leaf i t us fs _ _ ih =>
    have := ih (by simpa [errs, Tree.errs] using he)
    simp [leaves, Tree.leaves]
    omega
  | err lo l us fs _ _ _ ih => simp [errs, Tree.errs] at he
  | node r rule cs us fs h1 h2 h3 ih1 ih2 =>
    simp only [errs, Tree.errs, List.append_eq_nil_iff] at he
    have h4 := ih1 he.1
    have h5 := ih2 he.2
    have h6 := h2.length
    have h7 := List.length_pos_iff.2 (hR rule (List.mem_of_getElem? h1))
    simp only [leaves, Tree.leaves, List.length_append, List.length_cons]
    omega

end Verif.Par
