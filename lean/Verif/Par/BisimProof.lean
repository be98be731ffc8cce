import Verif.Par.NewProof
import Verif.Par.Parse

/-!
# Parsers with canonical tables for the same grammar behave the same
-/

namespace Verif.Par

variable {N T E : Type}

/-- Two stacks with the same symbols, and states that lie on the same path. -/
inductive StackRel (A B : Tables) : List Sym → List (Nat × SSym N) → List (Nat × SSym N) → Nat → Nat → Prop
  | nil : StackRel A B [] [] [] A.start B.start
  | cons (γ X y st st' q q' r r') : StackRel A B γ st st' q q' → A.goes q X = some r → B.goes q' X = some r' →
      StackRel A B (γ ++ [X]) ((q, y) :: st) ((q', y) :: st') r r'

structure CfgRel (A B : Tables) (c c' : Cfg N T) : Prop where
  stack : ∃ γ, StackRel A B γ c.stack c'.stack c.state c'.state
  read : c'.read = c.read
  src : c'.src = c.src
  buffer : c'.buffer = c.buffer
  log : c'.log = c.log
  pulls : c'.pulls = c.pulls
  recov : ∀ r, r ∈ c'.recov ↔ r ∈ c.recov

/-- Outcomes that cannot be told apart from outside. -/
inductive StepRel (A B : Tables) : Step N T E → Step N T E → Prop
  | more (c c') : CfgRel A B c c' → StepRel A B (.more c) (.more c')
  | done (r c c') : c'.log = c.log → c'.pulls = c.pulls → StepRel A B (.done r c) (.done r c')
  | panic : StepRel A B .panic .panic

section
variable {A B : Tables} {R : List PRule} {s : Nat}

theorem StackRel.walk {γ : List Sym} {st st' : List (Nat × SSym N)} {q q'} (h : StackRel A B γ st st' q q') :
    A.walk γ = some q ∧ B.walk γ = some q' := by
  induction h with
  | nil => exact ⟨rfl, rfl⟩
  | cons γ X y st st' q q' r r' _ h1 h2 ih => rw [walk_snoc, walk_snoc, ih.1, ih.2]; exact ⟨h1, h2⟩

theorem StackRel.length {γ : List Sym} {st st' : List (Nat × SSym N)} {q q'} (h : StackRel A B γ st st' q q') :
    st'.length = st.length := by
  induction h with
  | nil => rfl
  | cons γ X y st st' q q' r r' _ h1 h2 ih => simp [ih]

theorem StackRel.syms {γ : List Sym} {st st' : List (Nat × SSym N)} {q q'} (h : StackRel A B γ st st' q q') :
    st'.map Prod.snd = st.map Prod.snd := by
  induction h with
  | nil => rfl
  | cons γ X y st st' q q' r r' _ h1 h2 ih => simp [ih]

/-- Popping. -/
theorem StackRel.pop {γ : List Sym} {st st' : List (Nat × SSym N)} {q q'} (h : StackRel A B γ st st' q q') (n : Nat) (hn : n ≤ st.length) :
    ∃ γ' q0 q0', StackRel A B γ' (st.drop n) (st'.drop n) q0 q0' ∧ (((st.take n).reverse.head?.map Prod.fst).getD q = q0) ∧
      (((st'.take n).reverse.head?.map Prod.fst).getD q' = q0') := by
  induction h generalizing n with
  | nil => cases n with
    | zero => exact ⟨_, _, _, .nil, rfl, rfl⟩
    | succ n => simp at hn
  | cons γ X y st st' q q' r r' h h1 h2 ih =>
    cases n with
    | zero => exact ⟨_, _, _, .cons _ _ _ _ _ _ _ _ _ h h1 h2, rfl, rfl⟩
    | succ n =>
      obtain ⟨γ', q0, q0', k1, k2, k3⟩ := ih n (by simpa using hn)
      refine ⟨γ', q0, q0', k1, ?_, ?_⟩
      · simp only [List.take_succ_cons, List.reverse_cons, List.head?_append]
        cases hh : (st.take n).reverse.head? with
        | none => rw [hh] at k2; simpa using k2
        | some x => rw [hh] at k2; simpa using k2
      · simp only [List.take_succ_cons, List.reverse_cons, List.head?_append]
        cases hh : (st'.take n).reverse.head? with
        | none => rw [hh] at k3; simpa using k3
        | some x => rw [hh] at k3; simpa using k3

theorem goes_rel (ha : Canonical R s A) (hb : Canonical R s B) {γ q q'} (h1 : A.walk γ = some q) (h2 : B.walk γ = some q') (X : Sym) :
    (A.goes q X = none ∧ B.goes q' X = none) ∨ ∃ r r', A.goes q X = some r ∧ B.goes q' X = some r' := by
  have h := (ha.goes γ q X h1).trans (hb.goes γ q' X h2).symm
  cases hA : A.goes q X with
  | none =>
    cases hB : B.goes q' X with
    | none => exact Or.inl ⟨rfl, rfl⟩
    | some r' =>
      obtain ⟨r, hr⟩ := h.2 ⟨r', hB⟩
      rw [hA] at hr; cases hr
  | some r =>
    obtain ⟨r', hr'⟩ := h.1 ⟨r, hA⟩
    exact Or.inr ⟨r, r', rfl, hr'⟩

theorem act_shift {A : Tables} {q r : Nat} {a : Term} : A.goes q (.tm a) = some r ↔ A.act q a = some (.shift r) := by
  simp only [Tables.goes]
  cases A.act q a with
  | none => simp
  | some x => cases x <;> simp

/-- The actions are the same up to state numbers. -/
theorem act_rel (ha : Canonical R s A) (hb : Canonical R s B) {γ q q'} (h1 : A.walk γ = some q) (h2 : B.walk γ = some q') (a : Term) :
    (A.act q a = none ∧ B.act q' a = none) ∨ (∃ r r', A.act q a = some (.shift r) ∧ B.act q' a = some (.shift r')) ∨
    (A.act q a = some .accept ∧ B.act q' a = some .accept) ∨
    (∃ r rule, A.act q a = some (.reduce r) ∧ B.act q' a = some (.reduce r) ∧ r ≠ s ∧ R[r]? = some rule) := by
  have hacc := (ha.accept γ q a h1).trans (hb.accept γ q' a h2).symm
  have hred := fun r => (ha.reduce γ q a r h1).trans (hb.reduce γ q' a r h2).symm
  rcases goes_rel ha hb h1 h2 (.tm a) with ⟨h3, h4⟩ | ⟨r, r', h3, h4⟩
  · cases hA : A.act q a with
    | none =>
      cases hB : B.act q' a with
      | none => exact Or.inl ⟨rfl, rfl⟩
      | some x =>
        cases x with
        | shift r => rw [act_shift.2 hB] at h4; cases h4
        | reduce r => rw [(hred r).2 hB] at hA; cases hA
        | accept => rw [hacc.2 hB] at hA; cases hA
    | some x =>
      cases x with
      | shift r => rw [act_shift.2 hA] at h3; cases h3
      | reduce r =>
        obtain ⟨k1, ⟨rule, k2, _⟩, _⟩ := (ha.reduce γ q a r h1).1 hA
        exact Or.inr (Or.inr (Or.inr ⟨r, rule, rfl, (hred r).1 hA, k1, k2⟩))
      | accept => exact Or.inr (Or.inr (Or.inl ⟨rfl, hacc.1 hA⟩))
  · exact Or.inr (Or.inl ⟨r, r', act_shift.1 h3, act_shift.1 h4⟩)

theorem errors_rel (ha : Canonical R s A) (hb : Canonical R s B) {γ q q'} (h1 : A.walk γ = some q) (h2 : B.walk γ = some q') :
    (get q A.errors = none ∧ get q' B.errors = none) ∨
    ∃ l l', get q A.errors = some l ∧ get q' B.errors = some l' ∧ ∀ r, r ∈ l' ↔ r ∈ l := by
  have h := fun r => (ha.errors γ q r h1).trans (hb.errors γ q' r h2).symm
  cases hA : get q A.errors with
  | none =>
    cases hB : get q' B.errors with
    | none => exact Or.inl ⟨rfl, rfl⟩
    | some l' =>
      exfalso
      refine hb.errors_ne _ _ hB (List.eq_nil_iff_forall_not_mem.2 fun r hr => ?_)
      have := (h r).2 (by rw [hB]; exact hr)
      rw [hA] at this
      cases this
  | some l =>
    cases hB : get q' B.errors with
    | none =>
      exfalso
      refine ha.errors_ne _ _ hA (List.eq_nil_iff_forall_not_mem.2 fun r hr => ?_)
      have := (h r).1 (by rw [hA]; exact hr)
      rw [hB] at this
      cases this
    | some l' =>
      refine Or.inr ⟨l, l', rfl, rfl, fun r => ?_⟩
      have := h r
      rw [hA, hB] at this
      exact this.symm

/-- Sets of rule numbers, as options. -/
def OptRel : Option (List Nat) → Option (List Nat) → Prop
  | none, none => True
  | some l, some l' => ∀ r, r ∈ l' ↔ r ∈ l
  | _, _ => False

theorem isEmpty_rel {l l' : List Nat} (h : ∀ r, r ∈ l' ↔ r ∈ l) : l'.isEmpty = l.isEmpty := by
  cases l with
  | nil =>
    cases l' with
    | nil => rfl
    | cons x l' => exact absurd ((h x).1 List.mem_cons_self) (by simp)
  | cons x l =>
    cases l' with
    | nil => exact absurd ((h x).2 List.mem_cons_self) (by simp)
    | cons y l' => rfl

theorem recovRules_rel (ha : Canonical R s A) (hb : Canonical R s B) {γ q q'} (h1 : A.walk γ = some q) (h2 : B.walk γ = some q')
    {rv rv' : List Nat} (hr : ∀ r, r ∈ rv' ↔ r ∈ rv) (e back : Bool) :
    OptRel (recovRules A.errors e rv q back) (recovRules B.errors e rv' q' back) := by
  unfold recovRules
  split
  · trivial
  · rcases errors_rel ha hb h1 h2 with ⟨k1, k2⟩ | ⟨l, l', k1, k2, k3⟩
    · rw [k1, k2]; trivial
    · rw [k1, k2]
      simp only [isEmpty_rel hr]
      split
      · exact k3
      · have hany : (rv'.any fun r => l'.contains r) = (rv.any fun r => l.contains r) := by
          rw [Bool.eq_iff_iff]
          simp only [List.any_eq_true, List.contains_iff_mem]
          exact ⟨fun ⟨r, x, y⟩ => ⟨r, (hr r).1 x, (k3 r).1 y⟩, fun ⟨r, x, y⟩ => ⟨r, (hr r).2 x, (k3 r).2 y⟩⟩
        rw [hany]
        split
        · intro r
          simp only [List.mem_filter, List.contains_iff_mem, hr, k3]
        · trivial

/-- Results of the search that cannot be told apart. -/
def RecRel (A B : Tables) : Option (Nat × List (Nat × SSym N) × List Nat × Nat × Nat × Bool) →
    Option (Nat × List (Nat × SSym N) × List Nat × Nat × Nat × Bool) → Prop
  | none, none => True
  | some (q, st, rv, x), some (q', st', rv', x') => x' = x ∧ (∀ r, r ∈ rv' ↔ r ∈ rv) ∧ ∃ γ, StackRel A B γ st st' q q'
  | _, _ => False

theorem recover_rel (ha : Canonical R s A) (hb : Canonical R s B) {γ q q'} {st st' : List (Nat × SSym N)} (h : StackRel A B γ st st' q q')
    {rv rv' : List Nat} (hr : ∀ r, r ∈ rv' ↔ r ∈ rv) (e : Bool) (head errHead : Nat) (back : Bool) :
    RecRel A B (recover A.errors e rv st q head errHead back) (recover B.errors e rv' st' q' head errHead back) := by
  induction h generalizing head errHead back with
  | nil =>
    have := recovRules_rel ha hb (γ := []) (q := A.start) (q' := B.start) rfl rfl hr e back
    simp only [recover]
    cases h1 : recovRules A.errors e rv A.start back with
    | none =>
      cases h2 : recovRules B.errors e rv' B.start back with
      | none => trivial
      | some l' => rw [h1, h2] at this; exact this.elim
    | some l =>
      cases h2 : recovRules B.errors e rv' B.start back with
      | none => rw [h1, h2] at this; exact this.elim
      | some l' => rw [h1, h2] at this; exact ⟨rfl, this, _, .nil⟩
  | cons γ X y st st' q q' r r' h k1 k2 ih =>
    have hc : StackRel A B (γ ++ [X]) ((q, y) :: st) ((q', y) :: st') r r' := .cons _ _ _ _ _ _ _ _ _ h k1 k2
    have := recovRules_rel ha hb hc.walk.1 hc.walk.2 hr e back
    simp only [recover]
    cases h1 : recovRules A.errors e rv r back with
    | none =>
      cases h2 : recovRules B.errors e rv' r' back with
      | none => cases y <;> exact ih _ _ _
      | some l' => rw [h1, h2] at this; exact this.elim
    | some l =>
      cases h2 : recovRules B.errors e rv' r' back with
      | none => rw [h1, h2] at this; exact this.elim
      | some l' => rw [h1, h2] at this; exact ⟨rfl, this, _, hc⟩

variable {p p' : Parser N T E} {idx : T → Nat}

theorem fill_rel {c c' : Cfg N T} (h : CfgRel A B c c') : CfgRel A B (fill idx c) (fill idx c') := by
  obtain ⟨state, read, src, buffer, stack, recov, log, pulls⟩ := c
  obtain ⟨state', read', src', buffer', stack', recov', log', pulls'⟩ := c'
  obtain ⟨h1, h2, h3, h4, h5, h6, h7⟩ := h
  simp only at h2 h3 h4 h5 h6
  subst h2 h3 h4 h5 h6
  cases buffer' with
  | cons b buffer => exact ⟨h1, rfl, rfl, rfl, rfl, rfl, h7⟩
  | nil => cases src' <;> exact ⟨h1, rfl, rfl, rfl, rfl, rfl, h7⟩

theorem onError_rel (ha : Canonical R s p.tab) (hb : Canonical R s p'.tab) {c c' : Cfg N T} (h : CfgRel p.tab p'.tab c c') (a : Term) (i : Nat) :
    StepRel p.tab p'.tab (onError idx p c a i) (onError idx p' c' a i) := by
  obtain ⟨γ, hst⟩ := h.stack
  have := recover_rel ha hb hst h.recov (a == .eoi) i i false
  unfold onError
  cases h1 : recover p.tab.errors (a == .eoi) c.recov c.stack c.state i i false with
  | none =>
    cases h2 : recover p'.tab.errors (a == .eoi) c'.recov c'.stack c'.state i i false with
    | none => exact .done _ _ _ h.log h.pulls
    | some x => rw [h1, h2] at this; exact this.elim
  | some x =>
    cases h2 : recover p'.tab.errors (a == .eoi) c'.recov c'.stack c'.state i i false with
    | none => rw [h1, h2] at this; exact this.elim
    | some x' =>
      rw [h1, h2] at this
      obtain ⟨q, st, rv, head, errHead, back⟩ := x
      obtain ⟨q', st', rv', x'⟩ := x'
      obtain ⟨rfl, h3, γ', h4⟩ := this
      simp only [h.read, h.buffer]
      cases repush idx c.read head i c.buffer with
      | none => exact .panic
      | some buffer =>
        obtain ⟨row, hrow⟩ := ha.row γ' q h4.walk.1
        obtain ⟨row', hrow'⟩ := hb.row γ' q' h4.walk.2
        have e1 : p.tab.act q .err = get .err row := by simp [Tables.act, hrow]
        have e2 : p'.tab.act q' .err = get .err row' := by simp [Tables.act, hrow']
        simp only [hrow, hrow', ← e1, ← e2]
        rcases act_rel ha hb h4.walk.1 h4.walk.2 .err with ⟨k1, k2⟩ | ⟨r, r', k1, k2⟩ | ⟨k1, k2⟩ | ⟨r, rule, k1, k2, _⟩
        · rw [k1, k2]; exact .panic
        · rw [k1, k2]
          exact .more _ _ ⟨⟨_, .cons _ _ _ _ _ _ _ _ _ h4 (act_shift.2 k1) (act_shift.2 k2)⟩, rfl, h.src, rfl, h.log, h.pulls, h3⟩
        · rw [k1, k2]; exact .panic
        · rw [k1, k2]; exact .panic

theorem onReduce_rel (ha : Canonical R s p.tab) (hb : Canonical R s p'.tab) {c c' : Cfg N T} (h : CfgRel p.tab p'.tab c c') (r : Nat)
    (hr : p'.rules[r]? = p.rules[r]?) : StepRel p.tab p'.tab (onReduce p c r) (onReduce p' c' r) := by
  obtain ⟨γ, hst⟩ := h.stack
  unfold onReduce
  rw [hr]
  cases p.rules[r]? with
  | none => exact .panic
  | some rule =>
    simp only [hst.length]
    split
    · exact .panic
    · rename_i hlen
      obtain ⟨γ', q0, q0', k1, k2, k3⟩ := hst.pop rule.rhs.length (by omega)
      have hsy : (c'.stack.take rule.rhs.length).reverse.map Prod.snd = (c.stack.take rule.rhs.length).reverse.map Prod.snd := by
        rw [List.map_reverse, List.map_reverse, List.map_take, List.map_take, hst.syms]
      simp only [hsy, h.read, k2, k3, h.log]
      cases mkArgs c.read 0 ((c.stack.take rule.rhs.length).reverse.map Prod.snd) with
      | none => exact .panic
      | some args =>
        simp only
        cases rule.gen args with
        | error e => exact .done _ _ _ rfl h.pulls
        | ok v =>
          simp only
          have hg := goes_rel ha hb k1.walk.1 k1.walk.2 (.nt rule.lhs)
          simp only [Tables.goes] at hg
          rcases hg with ⟨g1, g2⟩ | ⟨s1, s2, g1, g2⟩
          · rw [g1, g2]; exact .panic
          · rw [g1, g2]
            refine .more _ _ ⟨⟨_, .cons _ (.nt rule.lhs) _ _ _ _ _ _ _ k1 g1 g2⟩, rfl, h.src, h.buffer, rfl, h.pulls, ?_⟩
            intro x
            have : (r ∈ c'.recov) ↔ (r ∈ c.recov) := h.recov r
            simp only [List.contains_iff_mem, this]
            split
            · exact Iff.rfl
            · exact h.recov x

theorem step_rel (ha : Canonical R s p.tab) (hb : Canonical R s p'.tab)
    (hr : ∀ r rule, R[r]? = some rule → r ≠ s → p'.rules[r]? = p.rules[r]?) {c c' : Cfg N T} (h : CfgRel p.tab p'.tab c c') :
    StepRel p.tab p'.tab (step idx p c) (step idx p' c') := by
  have h := fill_rel (idx := idx) h
  unfold step
  generalize fill idx c = d at h
  generalize fill idx c' = d' at h
  obtain ⟨γ, hst⟩ := h.stack
  simp only [h.buffer]
  cases hb' : d.buffer with
  | nil => exact .panic
  | cons ai buffer =>
    obtain ⟨a, i⟩ := ai
    simp only
    obtain ⟨row, hrow⟩ := ha.row γ d.state hst.walk.1
    obtain ⟨row', hrow'⟩ := hb.row γ d'.state hst.walk.2
    have e1 : p.tab.act d.state a = get a row := by simp [Tables.act, hrow]
    have e2 : p'.tab.act d'.state a = get a row' := by simp [Tables.act, hrow']
    simp only [hrow, hrow', ← e1, ← e2]
    rcases act_rel ha hb hst.walk.1 hst.walk.2 a with ⟨k1, k2⟩ | ⟨r, r', k1, k2⟩ | ⟨k1, k2⟩ | ⟨r, rule, k1, k2, k3, k4⟩
    · rw [k1, k2]
      exact onError_rel ha hb h a i
    · rw [k1, k2]
      cases a with
      | sym t => exact .more _ _ ⟨⟨_, .cons _ _ _ _ _ _ _ _ _ hst (act_shift.2 k1) (act_shift.2 k2)⟩, h.read, h.src, rfl, h.log, h.pulls, h.recov⟩
      | err => exact .panic
      | eoi => exact .more _ _ ⟨⟨_, .cons _ _ _ _ _ _ _ _ _ hst (act_shift.2 k1) (act_shift.2 k2)⟩, h.read, h.src, rfl, h.log, h.pulls, h.recov⟩
    · rw [k1, k2]
      simp only
      have hs := hst.syms
      cases h1 : d.stack with
      | nil =>
        rw [h1] at hs
        cases h2 : d'.stack with
        | nil => exact .panic
        | cons x st => rw [h2] at hs; cases hs
      | cons x st =>
        rw [h1] at hs
        cases h2 : d'.stack with
        | nil => rw [h2] at hs; cases hs
        | cons x' st' =>
          rw [h2] at hs
          obtain ⟨q, y⟩ := x
          obtain ⟨q', y'⟩ := x'
          simp only [List.map_cons, List.cons.injEq] at hs
          obtain ⟨rfl, _⟩ := hs
          cases y' with
          | nt v i => exact .done _ _ _ h.log h.pulls
          | tok => exact .panic
          | err => exact .panic
          | eoi => exact .panic
    · rw [k1, k2]
      exact onReduce_rel ha hb h r (hr r rule k4 k3)

theorem run_rel (ha : Canonical R s p.tab) (hb : Canonical R s p'.tab)
    (hr : ∀ r rule, R[r]? = some rule → r ≠ s → p'.rules[r]? = p.rules[r]?) {c c' : Cfg N T} (h : CfgRel p.tab p'.tab c c') (n : Nat) :
    StepRel p.tab p'.tab (run idx p n c) (run idx p' n c') := by
  induction n generalizing c c' with
  | zero => exact .more _ _ h
  | succ n ih =>
    simp only [run]
    have := step_rel (idx := idx) ha hb hr h
    cases h1 : step idx p c with
    | more d =>
      rw [h1] at this
      generalize step idx p' c' = y at this
      cases this with
      | more _ _ h2 => exact ih h2
    | done r d =>
      rw [h1] at this
      generalize step idx p' c' = y at this
      cases this with
      | done _ _ _ h2 h3 => exact .done _ _ _ h2 h3
    | panic =>
      rw [h1] at this
      generalize step idx p' c' = y at this
      cases this
      exact .panic

theorem init_rel (input : List T) : CfgRel p.tab p'.tab (Cfg.init p input) (Cfg.init p' input) :=
  ⟨⟨[], .nil⟩, rfl, rfl, rfl, rfl, rfl, fun _ => Iff.rfl⟩

/-- Same results, panics and endless runs. -/
theorem same_outcome (ha : Canonical R s p.tab) (hb : Canonical R s p'.tab)
    (hr : ∀ r rule, R[r]? = some rule → r ≠ s → p'.rules[r]? = p.rules[r]?) (idx : T → Nat) (input : List T) :
    (∀ x c, ParsesTo idx p input x c → ∃ c', ParsesTo idx p' input x c' ∧ c'.log = c.log ∧ c'.pulls = c.pulls) ∧
    (ParsePanics idx p input → ParsePanics idx p' input) ∧ (ParseDiverges idx p input → ParseDiverges idx p' input) := by
  have h := run_rel (idx := idx) ha hb hr (init_rel input)
  refine ⟨?_, ?_, ?_⟩
  · rintro x c ⟨n, hn⟩
    have := h n
    rw [hn] at this
    generalize hy : run idx p' n (Cfg.init p' input) = y at this
    cases this with
    | done _ _ c' h1 h2 => exact ⟨c', ⟨n, hy⟩, h1, h2⟩
  · rintro ⟨n, hn⟩
    have := h n
    rw [hn] at this
    generalize hy : run idx p' n (Cfg.init p' input) = y at this
    cases this
    exact ⟨n, hy⟩
  · intro hd n
    obtain ⟨c, hn⟩ := hd n
    have := h n
    rw [hn] at this
    generalize hy : run idx p' n (Cfg.init p' input) = y at this
    cases this with
    | more _ c' _ => exact ⟨c', rfl⟩

end

end Verif.Par
