import Verif.Par.EffectsProof
import Verif.Par.SoundProof

/-!
# Callbacks with effects: the values

`free p` is a parser without effects whose values record how they were made.
-/

namespace Verif.Par

variable {S N T E : Type}

/-- How a value was made: rule number and arguments. -/
inductive Shape (T : Type) where
  | node (r : Nat) (args : List (Arg (Shape T) T))

def freeRules (rules : List (ERule S N T E)) : List (Rule (Shape T) T Unit) :=
  rules.mapIdx fun r rule => ⟨rule.lhs, rule.rhs, fun args => .ok (.node r args)⟩

def free (p : EParser S N T E) : Parser (Shape T) T Unit := ⟨freeRules p.rules, p.tab⟩

/-- The parser `p` with values and records of how they were made. -/
def pairE (p : EParser S N T E) : EParser S (N × Shape T) T E :=
  ⟨p.rules.mapIdx fun r rule => ⟨rule.lhs, rule.rhs, fun s args =>
    (rule.act s (args.map (Arg.map Prod.fst id))).map fun v => (v, .node r (args.map (Arg.map Prod.snd id)))⟩, p.tab⟩

theorem pair_fst (p : EParser S N T E) : MimE Prod.fst (pairE p) p where
  tab := rfl
  missing r h := by
    simp only [pairE, List.getElem?_mapIdx, Option.map_eq_none_iff] at h
    exact h
  found r rule h := by
    simp only [pairE, List.getElem?_mapIdx, Option.map_eq_some_iff] at h
    obtain ⟨rule', h1, rfl⟩ := h
    refine ⟨rule', h1, rfl, rfl, ?_⟩
    intro s args
    simp only
    cases rule'.act s (args.map (Arg.map Prod.fst id)) <;> rfl

theorem pair_snd (p : EParser S N T E) : MimP Prod.snd (pairE p) (free p) where
  tab := rfl
  missing r h := by
    simp only [pairE, List.getElem?_mapIdx, Option.map_eq_none_iff] at h
    simp only [free, freeRules, List.getElem?_mapIdx, Option.map_eq_none_iff]
    exact h
  found r rule h := by
    simp only [pairE, List.getElem?_mapIdx, Option.map_eq_some_iff] at h
    obtain ⟨rule', h1, rfl⟩ := h
    refine ⟨⟨rule'.lhs, rule'.rhs, fun args => .ok (.node r args)⟩, by simp only [free, freeRules, List.getElem?_mapIdx, h1, Option.map_some],
      rfl, rfl, fun args => ⟨_, rfl⟩, ?_⟩
    intro s args v s' h
    simp only at h
    cases hd : rule'.act s (args.map (Arg.map Prod.fst id)) with
    | ok v' s2 =>
      rw [hd] at h
      simp only [Did.map] at h
      cases h
      rfl
    | error e s2 => rw [hd] at h; cases h
    | panic s2 => rw [hd] at h; cases h

theorem freeRules_plain (rules : List (ERule S N T E)) : (freeRules rules).map Rule.plain = rules.map ERule.plain := by
  apply List.ext_getElem?
  intro i
  simp only [freeRules, List.getElem?_map, List.getElem?_mapIdx]
  cases rules[i]? <;> rfl

theorem free_gram (rules : List (ERule S N T E)) (start : Nat) : gram (freeRules rules) start = gramE rules start := by
  simp only [gram, gramE, freeRules_plain]

theorem makes_free {o : Seeds} {rules : List (ERule S N T E)} {start : Nat} {p : EParser S N T E} {ws : List Warning}
    (h : MakesE o rules start p ws) : MakesParser o (freeRules rules) start (free p) ws := by
  obtain ⟨h1, d, h2⟩ := h
  refine ⟨by rw [free_gram]; exact h1, fun args => .ok (.node rules.length args), ?_⟩
  simp only [free, freeRules_plain, h2]
  simp only [freeRules]
  rw [List.mapIdx_append]
  simp

/-! ## The rounds of a parse -/

section
variable {p : EParser S N T E} {idx : T → Nat}

/-- What a round does. -/
inductive View (idx : T → Nat) (p : EParser S N T E) (d : Cfg N T) (s : S) : EStep S N T E → Prop
  | tok (q a i buffer) : View idx p d s (.more { d with state := q, stack := (d.state, .tok a i) :: d.stack, buffer := buffer } s)
  | eoi (q i buffer) : View idx p d s (.more { d with state := q, stack := (d.state, .eoi i) :: d.stack, buffer := buffer } s)
  | reduce (r) : View idx p d s (onReduceE p d s r)
  | accept (q v i st) : d.stack = (q, .nt v i) :: st → View idx p d s (.done (.ok v) d s)
  | panic : View idx p d s .panic
  | error (a i) : View idx p d s ((onError idx (⟨[], p.tab⟩ : Parser N T E) d a i).still s)

theorem stepE_view (c : Cfg N T) (s : S) : View idx p (fill idx c) s (stepE idx p c s) := by
  unfold stepE
  generalize fill idx c = d
  simp only
  cases d.buffer with
  | nil => exact .panic
  | cons ai buffer =>
    obtain ⟨a, i⟩ := ai
    simp only
    cases get d.state p.tab.action with
    | none => exact .panic
    | some acts =>
      simp only
      cases get a acts with
      | none => exact .error a i
      | some act =>
        cases act with
        | shift q =>
          cases a with
          | sym t => exact .tok q t i buffer
          | err => exact .panic
          | eoi => exact .eoi q i buffer
        | reduce r => exact .reduce r
        | accept =>
          simp only
          cases hd : d.stack with
          | nil => exact .panic
          | cons sy st =>
            obtain ⟨q, y⟩ := sy
            cases y with
            | nt v i => exact .accept q v i st hd
            | tok a i => exact .panic
            | err lo hi => exact .panic
            | eoi i => exact .panic

/-- The call in a reduction. -/
inductive ViewR (p : EParser S N T E) (d : Cfg N T) (s : S) (r : Nat) : EStep S N T E → Prop
  | panic : ViewR p d s r .panic
  | call (rule args x) : p.rules[r]? = some rule → rule.rhs.length ≤ d.stack.length →
      mkArgs d.read 0 ((d.stack.take rule.rhs.length).reverse.map Prod.snd) = some args →
      (match rule.act s args with
        | .panic s' => x = .unwind { d with log := (r, args) :: d.log } s'
        | .error e s' => x = .done (.error (.reducer e)) { d with log := (r, args) :: d.log } s'
        | .ok v s' => x = .panic ∨ ∃ q q0 i rec, x = .more { d with
            log := (r, args) :: d.log
            state := q
            stack := (q0, .nt v i) :: d.stack.drop rule.rhs.length
            recov := rec } s') → ViewR p d s r x

theorem onReduceE_view (d : Cfg N T) (s : S) (r : Nat) : ViewR p d s r (onReduceE p d s r) := by
  unfold onReduceE
  cases hr : p.rules[r]? with
  | none => exact .panic
  | some rule =>
    simp only
    split
    · exact .panic
    · rename_i hl
      cases ha : mkArgs d.read 0 ((d.stack.take rule.rhs.length).reverse.map Prod.snd) with
      | none => exact .panic
      | some args =>
        refine .call rule args _ hr (by omega) ha ?_
        simp only
        cases hd : rule.act s args with
        | panic s' => rfl
        | error e s' => rfl
        | ok v s' =>
          simp only
          cases (get _ p.tab.goto).bind (get rule.lhs) with
          | none => exact Or.inl rfl
          | some q => exact Or.inr ⟨_, _, _, _, rfl⟩

end

/-! ## Possible values -/

/-- Records of how values were made, and values that can be made so. -/
inductive Poss (rules : List (ERule S N T E)) : List (Arg (Shape T) T) → List (Arg N T) → Prop
  | nil : Poss rules [] []
  | tok (t l l') : Poss rules l l' → Poss rules (.tok t :: l) (.tok t :: l')
  | err (e l l') : Poss rules l l' → Poss rules (.err e :: l) (.err e :: l')
  | nt (r rule as bs s v s' l l') : rules[r]? = some rule → Poss rules as bs → rule.act s bs = .ok v s' → Poss rules l l' →
      Poss rules (.nt (.node r as) :: l) (.nt v :: l')

/-- A value with a record that fits. -/
def Fit (rules : List (ERule S N T E)) (x : N × Shape T) : Prop := Poss rules [.nt x.2] [.nt x.1]

theorem Fit.cons {rules : List (ERule S N T E)} {x : N × Shape T} {l l'} (h : Fit rules x) (h' : Poss rules l l') :
    Poss rules (.nt x.2 :: l) (.nt x.1 :: l') := by
  obtain ⟨v, w⟩ := x
  generalize hl : ([.nt w] : List (Arg (Shape T) T)) = k at *
  unfold Fit at h
  simp only at h ⊢
  rw [hl] at h
  generalize hk : ([.nt v] : List (Arg N T)) = k' at h
  cases h with
  | nil => cases hl
  | tok => cases hl
  | err => cases hl
  | nt r rule as bs s v s' m m' h1 h2 h3 h4 =>
    cases hl
    cases hk
    exact .nt r rule as bs s _ s' _ _ h1 h2 h3 h'

/-- All values on the stack and all arguments of calls have records that fit. -/
def GoodE (rules : List (ERule S N T E)) (c : Cfg (N × Shape T) T) : Prop :=
  (∀ q x i, (q, SSym.nt x i) ∈ c.stack → Fit rules x) ∧
  ∀ r args, (r, args) ∈ c.log → Poss rules (args.map (Arg.map Prod.snd id)) (args.map (Arg.map Prod.fst id))

theorem mkArgs_nt {A : Type} {read : List T} {l : List (SSym A)} : ∀ {k : Nat} {args}, mkArgs read k l = some args →
    ∀ v, Arg.nt v ∈ args → ∃ i, SSym.nt v i ∈ l := by
  induction l with
  | nil => intro k args h v hv; cases h; cases hv
  | cons y l ih =>
    intro k args h v hv
    cases y with
    | nt n i =>
      simp only [mkArgs, Option.map_eq_some_iff] at h
      obtain ⟨as, h1, rfl⟩ := h
      cases hv with
      | head => exact ⟨i, by simp⟩
      | tail _ hv =>
        obtain ⟨i, h2⟩ := ih h1 v hv
        exact ⟨i, by simp [h2]⟩
    | tok a i =>
      simp only [mkArgs] at h
      split at h
      · cases h
      · split at h
        · cases h
        · simp only [Option.map_eq_some_iff] at h
          obtain ⟨as, h1, rfl⟩ := h
          cases hv with
          | tail _ hv =>
            obtain ⟨i, h2⟩ := ih h1 v hv
            exact ⟨i, by simp [h2]⟩
    | err lo hi =>
      simp only [mkArgs] at h
      split at h
      · simp only [Option.map_eq_some_iff] at h
        obtain ⟨as, h1, rfl⟩ := h
        cases hv with
        | tail _ hv =>
          obtain ⟨i, h2⟩ := ih h1 v hv
          exact ⟨i, by simp [h2]⟩
      · cases h
    | eoi i => cases h

theorem poss_of_fit {rules : List (ERule S N T E)} {args : List (Arg (N × Shape T) T)} (h : ∀ x, Arg.nt x ∈ args → Fit rules x) :
    Poss rules (args.map (Arg.map Prod.snd id)) (args.map (Arg.map Prod.fst id)) := by
  induction args with
  | nil => exact .nil
  | cons a args ih =>
    have := ih fun x hx => h x (by simp [hx])
    cases a with
    | nt x => exact (h x (by simp)).cons this
    | tok t => exact .tok _ _ _ this
    | err l => exact .err _ _ _ this

theorem recover_sub {A : Type} {errors : List (Nat × List Nat)} {isEoi : Bool} {recov : List Nat} {st : List (Nat × SSym A)} :
    ∀ {state head errHead : Nat} {back : Bool} {x}, recover errors isEoi recov st state head errHead back = some x →
    ∀ y ∈ x.2.1, y ∈ st := by
  induction st with
  | nil =>
    intro state head errHead back x h y hy
    simp only [recover, Option.map_eq_some_iff] at h
    obtain ⟨rs, _, rfl⟩ := h
    exact hy
  | cons sy st ih =>
    intro state head errHead back x h y hy
    obtain ⟨q, z⟩ := sy
    simp only [recover] at h
    split at h
    · cases h; exact hy
    · cases z <;> exact List.mem_cons_of_mem _ (ih h y hy)

/-- What error recovery leaves. -/
theorem onError_view {A : Type} {idx : T → Nat} {p : Parser A T E} {c : Cfg A T} {a : Term} {i : Nat} :
    (onError idx p c a i = .panic) ∨ (onError idx p c a i = .done (.error .noRecovery) { c with stack := [] }) ∨
    ∃ q state lo hi stack buffer recov, onError idx p c a i = .more { c with
      state := q, stack := (state, .err lo hi) :: stack, buffer := buffer, recov := recov } ∧ ∀ y ∈ stack, y ∈ c.stack := by
  unfold onError
  cases h : recover p.tab.errors (a == .eoi) c.recov c.stack c.state i i false with
  | none => exact Or.inr (Or.inl rfl)
  | some x =>
    obtain ⟨state, stack, recov, head, errHead, back⟩ := x
    simp only
    cases repush idx c.read head i c.buffer with
    | none => exact Or.inl rfl
    | some buffer =>
      simp only
      cases get state p.tab.action with
      | none => exact Or.inl rfl
      | some acts =>
        simp only
        cases get Term.err acts with
        | none => exact Or.inl rfl
        | some act =>
          cases act with
          | shift q => exact Or.inr (Or.inr ⟨_, _, _, _, _, _, _, rfl, recover_sub h⟩)
          | reduce r => exact Or.inl rfl
          | accept => exact Or.inl rfl

theorem fill_stack {A : Type} {idx : T → Nat} (c : Cfg A T) : (fill idx c).stack = c.stack ∧ (fill idx c).log = c.log := by
  obtain ⟨state, read, src, buffer, stack, recov, log, pulls⟩ := c
  cases buffer with
  | cons b buffer => exact ⟨rfl, rfl⟩
  | nil => cases src <;> exact ⟨rfl, rfl⟩

/-- What holds of the configuration after a round. -/
def EStep.All {A : Type} (P : Cfg A T → Prop) : EStep S A T E → Prop
  | .more c _ => P c
  | .done _ c _ => P c
  | .unwind c _ => P c
  | .panic => True

theorem GoodE.step {p : EParser S N T E} {idx : T → Nat} {c : Cfg (N × Shape T) T} (h : GoodE p.rules c) (s : S) :
    (stepE idx (pairE p) c s).All (GoodE p.rules) := by
  have hd : GoodE p.rules (fill idx c) := by
    obtain ⟨h1, h2⟩ := fill_stack (idx := idx) c
    unfold GoodE
    rw [h1, h2]
    exact h
  have hv := stepE_view (idx := idx) (p := pairE p) c s
  generalize fill idx c = d at hd hv
  clear h
  revert hv
  generalize stepE idx (pairE p) c s = z
  intro hv
  obtain ⟨h1, h2⟩ := hd
  cases hv with
  | tok q a i buffer =>
    refine ⟨?_, h2⟩
    intro q x i hx
    simp only [List.mem_cons, Prod.mk.injEq, reduceCtorEq, and_false, false_or] at hx
    exact h1 q x i hx
  | eoi q i buffer =>
    refine ⟨?_, h2⟩
    intro q x i hx
    simp only [List.mem_cons, Prod.mk.injEq, reduceCtorEq, and_false, false_or] at hx
    exact h1 q x i hx
  | accept => exact ⟨h1, h2⟩
  | panic => trivial
  | error a i =>
    rcases onError_view (idx := idx) (p := (⟨[], (pairE p).tab⟩ : Parser (N × Shape T) T E)) (c := d) (a := a) (i := i)
      with h | h | ⟨q, state, lo, hi, stack, buffer, recov, h, hs⟩
    · rw [h]; trivial
    · rw [h]; exact ⟨fun q x i hx => by simp at hx, h2⟩
    · rw [h]
      refine ⟨?_, h2⟩
      intro q x i hx
      simp only [List.mem_cons, Prod.mk.injEq, reduceCtorEq, and_false, false_or] at hx
      exact h1 q x i (hs _ hx)
  | reduce r =>
    have hv := onReduceE_view (p := pairE p) d s r
    revert hv
    generalize onReduceE (pairE p) d s r = z
    intro hv
    cases hv with
    | panic => trivial
    | call rule args x k1 k2 k3 k4 =>
      simp only [pairE, List.getElem?_mapIdx, Option.map_eq_some_iff] at k1
      obtain ⟨rule', k1, rfl⟩ := k1
      simp only at k2 k3 k4
      have hfit : ∀ x, Arg.nt x ∈ args → Fit p.rules x := by
        intro x hx
        obtain ⟨i, hi⟩ := mkArgs_nt k3 x hx
        simp only [List.mem_map, List.mem_reverse] at hi
        obtain ⟨⟨q, y⟩, hy, rfl⟩ := hi
        exact h1 q x i (List.mem_of_mem_take hy)
      have hposs := poss_of_fit hfit
      have hlog : ∀ r' args', (r', args') ∈ (r, args) :: d.log →
          Poss p.rules (args'.map (Arg.map Prod.snd id)) (args'.map (Arg.map Prod.fst id)) := by
        intro r' args' hm
        cases hm with
        | head => exact hposs
        | tail _ hm => exact h2 r' args' hm
      cases hact : rule'.act s (args.map (Arg.map Prod.fst id)) with
      | panic s' => rw [hact] at k4; simp only [Did.map] at k4; subst k4; exact ⟨h1, hlog⟩
      | error e s' => rw [hact] at k4; simp only [Did.map] at k4; subst k4; exact ⟨h1, hlog⟩
      | ok v s' =>
        rw [hact] at k4
        simp only [Did.map] at k4
        rcases k4 with rfl | ⟨q, q0, i, rec, rfl⟩
        · trivial
        · refine ⟨?_, hlog⟩
          intro q' x i' hx
          simp only [List.mem_cons, Prod.mk.injEq, SSym.nt.injEq] at hx
          rcases hx with ⟨rfl, rfl, rfl⟩ | hx
          · exact .nt r rule' _ _ s v s' _ _ k1 hposs hact .nil
          · exact h1 q' x i' (List.mem_of_mem_drop hx)

theorem GoodE.run {p : EParser S N T E} {idx : T → Nat} (n : Nat) {c : Cfg (N × Shape T) T} (h : GoodE p.rules c) (s : S) :
    (runE idx (pairE p) n c s).All (GoodE p.rules) := by
  induction n generalizing c s with
  | zero => exact h
  | succ n ih =>
    have := h.step (idx := idx) s
    simp only [runE]
    cases hs : stepE idx (pairE p) c s with
    | more c' s' => rw [hs] at this; exact ih this s'
    | done r c' s' => rw [hs] at this; exact this
    | unwind c' s' => rw [hs] at this; exact this
    | panic => trivial

/-- From a record to a tree. -/
theorem yields_of {rules : List (ERule S N T E)} {d : ERule S N T E} {fs : List (Tree T)} {lg : List (Call (Shape T) T)} {x : Except Unit (List (Arg (Shape T) T))}
    (h : Evals (freeRules rules) fs lg x) : ∀ as, x = .ok as → ∀ bs, Poss (rules ++ [d]) as bs → Yields rules fs bs := by
  induction h with
  | nil => intro as ha bs hp; cases ha; cases hp; exact .nil
  | leaf i t fs lg as _ ih =>
    intro as ha bs hp
    cases ha
    cases hp with
    | tok _ _ _ h => exact .leaf _ _ _ _ (ih _ rfl _ h)
  | err lo l fs lg as _ ih =>
    intro as ha bs hp
    cases ha
    cases hp with
    | err _ _ _ h => exact .err _ _ _ _ (ih _ rfl _ h)
  | node r rule cs lg1 args v fs lg2 as h1 _ h3 _ ih1 ih2 =>
    intro as' ha bs hp
    cases ha
    simp only [freeRules, List.getElem?_mapIdx, Option.map_eq_some_iff] at h1
    obtain ⟨rule', h1, rfl⟩ := h1
    simp only [Except.ok.injEq] at h3
    subst h3
    cases hp with
    | nt _ rule2 _ bs' s v' s' _ l' k1 k2 k3 k4 =>
      rw [List.getElem?_append_left (by obtain ⟨h, _⟩ := List.getElem?_eq_some_iff.1 h1; exact h), h1] at k1
      cases k1
      exact .node r rule' cs bs' s v' s' fs l' h1 (ih1 _ rfl _ k2) k3 (ih2 _ rfl _ k4)
  | leafE | errE | nodeE | fail | inner => intro as ha; cases ha

end Verif.Par
