import Verif.Par.EffectsValues

/-!
# Callbacks with effects: sentences

A parse without error recovery calls the callbacks in the order of the derivation tree and hands them the values they are for.
-/

namespace Verif.Par

variable {S N T E : Type}

/-! ## Error recovery leaves traces -/

/-- The records mention an error. -/
inductive Dirty : List (Arg (Shape T) T) → Prop
  | err (l as) : Arg.err l ∈ as → Dirty as
  | nt (r as bs) : Arg.nt (Shape.node r as) ∈ bs → Dirty as → Dirty bs

/-- The stack mentions an error. -/
def DirtySt (st : List (Nat × SSym (Shape T))) : Prop :=
  ∃ x ∈ st, (∃ lo hi, x.2 = .err lo hi) ∨ ∃ r as i, x.2 = .nt (.node r as) i ∧ Dirty as

theorem Evals.clean {rules : List (ERule S N T E)} {fs : List (Tree T)} {lg x} (h : Evals (freeRules rules) fs lg x) :
    ∀ as, x = .ok as → Dirty as → errs fs ≠ [] := by
  induction h with
  | nil =>
    intro as ha hd
    cases ha
    cases hd with
    | err l as h => cases h
    | nt r as bs h => cases h
  | leaf i t fs lg as _ ih =>
    intro as' ha hd
    cases ha
    have : Dirty as := by
      cases hd with
      | err l _ h => cases h with | tail _ h => exact .err l as h
      | nt r as' _ h h' => cases h with | tail _ h => exact .nt r as' as h h'
    simpa [errs, Tree.errs] using ih as rfl this
  | err lo l fs lg as _ ih => intro as' ha hd; simp [errs, Tree.errs]
  | node r rule cs lg1 args v fs lg2 as h1 _ h3 _ ih1 ih2 =>
    intro as' ha hd
    cases ha
    simp only [freeRules, List.getElem?_mapIdx, Option.map_eq_some_iff] at h1
    obtain ⟨rule', h1, rfl⟩ := h1
    simp only [Except.ok.injEq] at h3
    subst h3
    have : Dirty args ∨ Dirty as := by
      cases hd with
      | err l _ h => cases h with | tail _ h => exact Or.inr (.err l as h)
      | nt r as' _ h h' =>
        cases h with
        | head => exact Or.inl h'
        | tail _ h => exact Or.inr (.nt r as' as h h')
    rcases this with h | h
    · have := ih1 args rfl h
      simp [errs, Tree.errs, this]
    · have := ih2 as rfl h
      simp [errs, Tree.errs, this]
  | leafE | errE | nodeE | fail | inner => intro as ha; cases ha

theorem mkArgs_dirty {read : List T} {l : List (SSym (Shape T))} : ∀ {k : Nat} {args}, mkArgs read k l = some args →
    ∀ y ∈ l, ((∃ lo hi, y = .err lo hi) ∨ ∃ r as i, y = .nt (.node r as) i ∧ Dirty as) → Dirty args := by
  have up : ∀ (a : Arg (Shape T) T) as, Dirty as → Dirty (a :: as) := by
    intro a as h
    cases h with
    | err l _ h => exact .err l _ (by simp [h])
    | nt r as' _ h h' => exact .nt r as' _ (by simp [h]) h'
  induction l with
  | nil => intro k args h y hy; cases hy
  | cons z l ih =>
    intro k args h y hy hd
    cases z with
    | nt n i =>
      simp only [mkArgs, Option.map_eq_some_iff] at h
      obtain ⟨as, h1, rfl⟩ := h
      cases hy with
      | head =>
        rcases hd with ⟨lo, hi, h⟩ | ⟨r, as', i', h, h'⟩
        · cases h
        · cases h
          exact .nt r as' _ (by simp) h'
      | tail _ hy => exact up _ _ (ih h1 y hy hd)
    | tok a i =>
      simp only [mkArgs] at h
      split at h
      · cases h
      · split at h
        · cases h
        · simp only [Option.map_eq_some_iff] at h
          obtain ⟨as, h1, rfl⟩ := h
          cases hy with
          | head =>
            rcases hd with ⟨lo, hi, h⟩ | ⟨r, as', i', h, h'⟩ <;> cases h
          | tail _ hy => exact up _ _ (ih h1 y hy hd)
    | err lo hi =>
      simp only [mkArgs] at h
      split at h
      · simp only [Option.map_eq_some_iff] at h
        obtain ⟨as, h1, rfl⟩ := h
        exact .err _ _ List.mem_cons_self
      · cases h
    | eoi i => cases h

section
variable {p : EParser S N T E} {idx : T → Nat}

/-- An error mentioned on the stack stays mentioned, and the log only grows. -/
theorem free_step {c c' : Cfg (Shape T) T} (h : step idx (free p) c = .more c') :
    (DirtySt c.stack → DirtySt c'.stack) ∧ ∃ l, c'.log = l ++ c.log := by
  obtain ⟨f1, f2⟩ := fill_stack (idx := idx) c
  unfold step at h
  rw [← f1, ← f2]
  generalize fill idx c = d at h
  simp only at h
  have push : ∀ y : Nat × SSym (Shape T), DirtySt d.stack → DirtySt (y :: d.stack) := by
    rintro y ⟨x, hx, hd⟩
    exact ⟨x, by simp [hx], hd⟩
  cases hb : d.buffer with
  | nil => rw [hb] at h; cases h
  | cons ai buffer =>
    obtain ⟨a, i⟩ := ai
    simp only [hb] at h
    cases hg : get d.state (free p).tab.action with
    | none => rw [hg] at h; cases h
    | some acts =>
      simp only [hg] at h
      cases ha : get a acts with
      | none =>
        simp only [ha] at h
        rcases onError_view (idx := idx) (p := free p) (c := d) (a := a) (i := i)
          with h' | h' | ⟨q, state, lo, hi, stack, buffer, recov, h', hs⟩
        · rw [h'] at h; cases h
        · rw [h'] at h; cases h
        · rw [h'] at h
          cases h
          exact ⟨fun _ => ⟨_, List.mem_cons_self, Or.inl ⟨lo, hi, rfl⟩⟩, [], rfl⟩
      | some act =>
        simp only [ha] at h
        cases act with
        | shift q =>
          cases a with
          | sym t => cases h; exact ⟨push _, [], rfl⟩
          | err => cases h
          | eoi => cases h; exact ⟨push _, [], rfl⟩
        | accept =>
          simp only at h
          split at h <;> cases h
        | reduce r =>
          simp only [onReduce] at h
          cases hr : (free p).rules[r]? with
          | none => rw [hr] at h; cases h
          | some rule =>
            simp only [hr] at h
            by_cases hl : d.stack.length < rule.rhs.length
            · rw [if_pos hl] at h; cases h
            · rw [if_neg hl] at h
              cases hm : mkArgs d.read 0 ((d.stack.take rule.rhs.length).reverse.map Prod.snd) with
              | none => rw [hm] at h; cases h
              | some args =>
                simp only [hm] at h
                simp only [free, freeRules, List.getElem?_mapIdx, Option.map_eq_some_iff] at hr
                obtain ⟨rule', hr, rfl⟩ := hr
                simp only at h
                split at h
                · cases h
                · cases h
                  refine ⟨?_, [(r, args)], rfl⟩
                  rintro ⟨x, hx, hd⟩
                  rw [← List.take_append_drop rule'.rhs.length d.stack] at hx
                  rcases List.mem_append.1 hx with hx | hx
                  · refine ⟨_, List.mem_cons_self, Or.inr ⟨r, args, _, rfl, ?_⟩⟩
                    exact mkArgs_dirty hm x.2 (by simp only [List.mem_map, List.mem_reverse]; exact ⟨x, hx, rfl⟩) hd
                  · exact ⟨x, List.mem_cons_of_mem _ hx, hd⟩

theorem free_done {c c' : Cfg (Shape T) T} {w : Shape T} (h : step idx (free p) c = .done (.ok w) c') : c' = fill idx c := by
  unfold step at h
  generalize fill idx c = d at h
  simp only at h
  repeat' split at h
  all_goals first
    | (cases h; done)
    | (cases h; rfl)
    | skip
  · simp only [onReduce] at h
    repeat' split at h
    all_goals cases h
  · rcases onError_view (idx := idx) (p := free p) (c := d)
      with h' | h' | ⟨q, state, lo, hi, stack, buffer, recov, h', hs⟩ <;> (rw [h'] at h; cases h)

theorem free_run {n : Nat} {c c' : Cfg (Shape T) T} {w : Shape T} (h : run idx (free p) n c = .done (.ok w) c') :
    (DirtySt c.stack → DirtySt c'.stack) ∧ ∃ l, c'.log = l ++ c.log := by
  induction n generalizing c with
  | zero => cases h
  | succ n ih =>
    simp only [run] at h
    cases hs : step idx (free p) c with
    | more c2 =>
      rw [hs] at h
      obtain ⟨h1, l1, h2⟩ := free_step hs
      obtain ⟨h3, l2, h4⟩ := ih h
      exact ⟨fun hd => h3 (h1 hd), l2 ++ l1, by rw [h4, h2, List.append_assoc]⟩
    | panic => rw [hs] at h; cases h
    | done r c2 =>
      rw [hs] at h
      cases h
      have := free_done hs
      subst this
      obtain ⟨f1, f2⟩ := fill_stack (idx := idx) c
      rw [f1, f2]
      exact ⟨id, [], rfl⟩

end

/-! ## Replaying the calls -/

/-- The values among the arguments. -/
def argVals {A : Type} : List (Arg A T) → List A
  | [] => []
  | .nt a :: l => a :: argVals l
  | .tok _ :: l => argVals l
  | .err _ :: l => argVals l

/-- The values among symbols. -/
def symVals {A : Type} : List (SSym A) → List A
  | [] => []
  | .nt a _ :: l => a :: symVals l
  | .tok _ _ :: l => symVals l
  | .err _ _ :: l => symVals l
  | .eoi _ :: l => symVals l

/-- The values on the stack, top first. -/
def stVals {A : Type} (st : List (Nat × SSym A)) : List A := symVals (st.map Prod.snd)

/-- The arguments with other values. -/
def fillA {A B : Type} : List (Arg A T) → List B → List (Arg B T)
  | [], _ => []
  | .nt _ :: l, v :: vs => .nt v :: fillA l vs
  | .nt _ :: _, [] => []
  | .tok t :: l, vs => .tok t :: fillA l vs
  | .err e :: l, vs => .err e :: fillA l vs

/-- The calls one after the other, with values from a stack. -/
def replay {W : Type} (rules : List (ERule S N T E)) : List (Call W T) → List N → S → List (Call N T) × Did S (List N) E
  | [], vs, s => ([], .ok vs s)
  | (r, a) :: l, vs, s =>
    let args := fillA a (vs.take (argVals a).length).reverse
    match rules[r]? with
    | none => ([], .panic s)
    | some rule =>
      match rule.act s args with
      | .error e s => ([(r, args)], .error e s)
      | .panic s => ([(r, args)], .panic s)
      | .ok v s => ((r, args) :: (replay rules l (v :: vs.drop (argVals a).length) s).1, (replay rules l (v :: vs.drop (argVals a).length) s).2)

theorem argVals_map {A B : Type} (φ : A → B) (l : List (Arg A T)) : argVals (l.map (Arg.map φ id)) = (argVals l).map φ := by
  induction l with
  | nil => rfl
  | cons a l ih => cases a <;> simp [argVals, Arg.map, ih]

theorem fillA_pair {A B : Type} (l : List (Arg (A × B) T)) :
    fillA (l.map (Arg.map Prod.snd id)) ((argVals l).map Prod.fst) = l.map (Arg.map Prod.fst id) := by
  induction l with
  | nil => rfl
  | cons a l ih => cases a <;> simp [argVals, Arg.map, fillA, ih]

theorem symVals_append {A : Type} (l l' : List (SSym A)) : symVals (l ++ l') = symVals l ++ symVals l' := by
  induction l with
  | nil => rfl
  | cons a l ih => cases a <;> simp [symVals, ih]

theorem symVals_reverse {A : Type} (l : List (SSym A)) : symVals l.reverse = (symVals l).reverse := by
  induction l with
  | nil => rfl
  | cons a l ih => cases a <;> simp [symVals, symVals_append, ih]

theorem mkArgs_vals {A : Type} {read : List T} {l : List (SSym A)} : ∀ {k : Nat} {args}, mkArgs read k l = some args →
    argVals args = symVals l := by
  induction l with
  | nil => intro k args h; cases h; rfl
  | cons y l ih =>
    intro k args h
    cases y with
    | nt n i =>
      simp only [mkArgs, Option.map_eq_some_iff] at h
      obtain ⟨as, h1, rfl⟩ := h
      simp [argVals, symVals, ih h1]
    | tok a i =>
      simp only [mkArgs] at h
      split at h
      · cases h
      · split at h
        · cases h
        · simp only [Option.map_eq_some_iff] at h
          obtain ⟨as, h1, rfl⟩ := h
          simp [argVals, symVals, ih h1]
    | err lo hi =>
      simp only [mkArgs] at h
      split at h
      · simp only [Option.map_eq_some_iff] at h
        obtain ⟨as, h1, rfl⟩ := h
        simp [argVals, symVals, ih h1]
      · cases h
    | eoi i => cases h

/-- How the parse with effects ends, according to the replay. -/
def EndsAs (c : Cfg (N × Shape T) T) (w : Shape T) (lg : List (Call N T)) (x : Did S (List N) E) (z : EStep S (N × Shape T) T E) : Prop :=
  match x with
  | .ok vs s' => ∃ v c', z = .done (.ok (v, w)) c' s' ∧ (c'.map Prod.fst id).log.reverse = (c.map Prod.fst id).log.reverse ++ lg ∧
      vs = (stVals c'.stack).map Prod.fst
  | .error e s' => ∃ c', z = .done (.error (.reducer e)) c' s' ∧ (c'.map Prod.fst id).log.reverse = (c.map Prod.fst id).log.reverse ++ lg
  | .panic s' => ∃ c', z = .unwind c' s' ∧ (c'.map Prod.fst id).log.reverse = (c.map Prod.fst id).log.reverse ++ lg

section
variable {p : EParser S N T E} {idx : T → Nat}

theorem follow_replay {w : Shape T} {ct : Cfg (Shape T) T} (hcl : ¬ DirtySt ct.stack) (n : Nat) (c : Cfg (N × Shape T) T) (s : S)
    (h : run idx (free p) n (c.map Prod.snd id) = .done (.ok w) ct) :
    ∃ calls, ct.log.reverse = (c.map Prod.snd id).log.reverse ++ calls ∧
      EndsAs c w (replay p.rules calls ((stVals c.stack).map Prod.fst) s).1 (replay p.rules calls ((stVals c.stack).map Prod.fst) s).2
        (runE idx (pairE p) n c s) := by
  induction n generalizing c s with
  | zero => cases h
  | succ n ih =>
    have hm := stepE_mimP (idx := idx) (pair_snd p) c s
    have hv := stepE_view (idx := idx) (p := pairE p) c s
    obtain ⟨f1, f2⟩ := fill_stack (idx := idx) c
    simp only [run] at h
    simp only [runE]
    have hlog : ∀ {A : Type} (φ : N × Shape T → A), (c.map φ id).log = ((fill idx c).map φ id).log := by
      intro A φ; simp only [Cfg.map, f2]
    have hst : c.stack = (fill idx c).stack := f1.symm
    unfold EndsAs
    rw [hlog, hlog, hst]
    generalize fill idx c = d at hv
    clear hlog hst f1 f2
    revert hv hm
    generalize stepE idx (pairE p) c s = z
    intro hm hv
    -- a round without a call
    have quiet : ∀ c' : Cfg (N × Shape T) T, step idx (free p) (c.map Prod.snd id) = .more (c'.map Prod.snd id) → c'.log = d.log →
        stVals c'.stack = stVals d.stack →
        ∃ calls, ct.log.reverse = (d.map Prod.snd id).log.reverse ++ calls ∧
          EndsAs d w (replay p.rules calls ((stVals d.stack).map Prod.fst) s).1 (replay p.rules calls ((stVals d.stack).map Prod.fst) s).2
            (runE idx (pairE p) n c' s) := by
      intro c' hm hl hs
      rw [hm] at h
      obtain ⟨calls, h1, h2⟩ := ih c' s h
      refine ⟨calls, ?_, ?_⟩
      · rw [h1]; simp only [Cfg.map, hl]
      · rw [hs] at h2
        have e : (c'.map Prod.fst id).log = (d.map Prod.fst id).log := by simp only [Cfg.map, hl]
        unfold EndsAs at h2 ⊢
        rw [← e]
        exact h2
    cases hv with
    | tok q a i buffer => exact quiet _ hm rfl rfl
    | eoi q i buffer => exact quiet _ hm rfl rfl
    | panic => simp only [EStep.MimP] at hm; rw [hm] at h; cases h
    | accept q v i st hst =>
      simp only [EStep.MimP] at hm
      rw [hm] at h
      cases h
      refine ⟨[], by simp, ?_⟩
      exact ⟨v.1, d, rfl, by simp [replay], rfl⟩
    | error a i =>
      exfalso
      rcases onError_view (idx := idx) (p := (⟨[], (pairE p).tab⟩ : Parser (N × Shape T) T E)) (c := d) (a := a) (i := i)
        with h' | h' | ⟨q, state, lo, hi, stack, buffer, recov, h', hs⟩
      · rw [h'] at hm; simp only [Step.still, EStep.MimP] at hm; rw [hm] at h; cases h
      · rw [h'] at hm; simp only [Step.still, EStep.MimP] at hm; rw [hm] at h; cases h
      · rw [h'] at hm
        simp only [Step.still, EStep.MimP] at hm
        rw [hm] at h
        exact hcl ((free_run h).1 ⟨(state, .err lo hi), by simp [Cfg.map, mapSt, SSym.map], Or.inl ⟨lo, hi, rfl⟩⟩)
    | reduce r =>
      have hv := onReduceE_view (p := pairE p) d s r
      revert hv hm
      clear quiet
      generalize onReduceE (pairE p) d s r = z
      intro hm hv
      cases hv with
      | panic => simp only [EStep.MimP] at hm; rw [hm] at h; cases h
      | call rule args x k1 k2 k3 k4 =>
        simp only [pairE, List.getElem?_mapIdx, Option.map_eq_some_iff] at k1
        obtain ⟨rule', k1, rfl⟩ := k1
        simp only at k2 k3 k4
        have hvals := mkArgs_vals k3
        rw [List.map_reverse, symVals_reverse] at hvals
        have hsplit : stVals d.stack = (argVals args).reverse ++ stVals (d.stack.drop rule'.rhs.length) := by
          rw [hvals, List.reverse_reverse]
          unfold stVals
          rw [← symVals_append, ← List.map_append, List.take_append_drop]
        have hlen : (argVals (args.map (Arg.map Prod.snd (id : T → T)))).length = ((argVals args).reverse.map Prod.fst).length := by
          simp [argVals_map]
        -- what the replay of this call does
        have htake : fillA (args.map (Arg.map Prod.snd (id : T → T)))
            (((stVals d.stack).map Prod.fst).take (argVals (args.map (Arg.map Prod.snd (id : T → T)))).length).reverse =
            args.map (Arg.map Prod.fst id) := by
          rw [hsplit, List.map_append, hlen, List.take_left, ← List.map_reverse, List.reverse_reverse, fillA_pair]
        have hdrop : ((stVals d.stack).map Prod.fst).drop (argVals (args.map (Arg.map Prod.snd (id : T → T)))).length =
            (stVals (d.stack.drop rule'.rhs.length)).map Prod.fst := by
          rw [hsplit, List.map_append, hlen, List.drop_left]
        cases hact : rule'.act s (args.map (Arg.map Prod.fst id)) with
        | panic s' =>
          rw [hact] at k4
          simp only [Did.map] at k4
          subst k4
          simp only [EStep.MimP] at hm
          rcases hm with hm | ⟨d', hm, hm2, _⟩
          · rw [hm] at h; cases h
          · rw [hm] at h
            obtain ⟨_, l, h2⟩ := free_run h
            refine ⟨(r, args.map (Arg.map Prod.snd id)) :: l.reverse, ?_, ?_⟩
            · rw [h2, hm2]; simp [Cfg.map]
            · simp only [replay, htake, k1, hact]
              exact ⟨_, rfl, by simp [Cfg.map]⟩
        | error e s' =>
          rw [hact] at k4
          simp only [Did.map] at k4
          subst k4
          simp only [EStep.MimP] at hm
          rcases hm with hm | ⟨d', hm, hm2, _⟩
          · rw [hm] at h; cases h
          · rw [hm] at h
            obtain ⟨_, l, h2⟩ := free_run h
            refine ⟨(r, args.map (Arg.map Prod.snd id)) :: l.reverse, ?_, ?_⟩
            · rw [h2, hm2]; simp [Cfg.map]
            · simp only [replay, htake, k1, hact]
              exact ⟨_, rfl, by simp [Cfg.map]⟩
        | ok v s' =>
          rw [hact] at k4
          simp only [Did.map] at k4
          rcases k4 with rfl | ⟨q, q0, i, rec, rfl⟩
          · simp only [EStep.MimP] at hm; rw [hm] at h; cases h
          · simp only [EStep.MimP] at hm
            rw [hm] at h
            obtain ⟨calls, h1, h2⟩ := ih _ s' h
            refine ⟨(r, args.map (Arg.map Prod.snd id)) :: calls, ?_, ?_⟩
            · rw [h1]; simp [Cfg.map]
            · simp only [replay, htake, k1, hact, hdrop]
              have e1 : (stVals ((q0, SSym.nt (v, Shape.node r (args.map (Arg.map Prod.snd id))) i) :: d.stack.drop rule'.rhs.length)).map Prod.fst =
                  v :: (stVals (d.stack.drop rule'.rhs.length)).map Prod.fst := rfl
              simp only [e1] at h2
              generalize replay p.rules calls (v :: (stVals (d.stack.drop rule'.rhs.length)).map Prod.fst) s' = y at h2 ⊢
              obtain ⟨lg, x⟩ := y
              cases x with
              | ok vs s2 =>
                obtain ⟨v', c', h3, h4, h5⟩ := h2
                exact ⟨v', c', h3, by rw [h4]; simp [Cfg.map], h5⟩
              | error e s2 =>
                obtain ⟨c', h3, h4⟩ := h2
                exact ⟨c', h3, by rw [h4]; simp [Cfg.map]⟩
              | panic s2 =>
                obtain ⟨c', h3, h4⟩ := h2
                exact ⟨c', h3, by rw [h4]; simp [Cfg.map]⟩

end

/-- The replay does what the tree says. -/
theorem play_replay {rules : List (ERule S N T E)} {d : ERule S N T E} {fs : List (Tree T)} {calls : List (Call (Shape T) T)} {x}
    (h : Evals (freeRules rules) fs calls x) : ∀ as, x = .ok as → ∀ (l : List (Call (Shape T) T)) (vs : List N) (s : S),
    match plays rules fs s with
    | (lg, .ok bs s') => fillA as (argVals bs) = bs ∧ (argVals as).length = (argVals bs).length ∧
        replay (rules ++ [d]) (calls ++ l) vs s =
          (lg ++ (replay (rules ++ [d]) l ((argVals bs).reverse ++ vs) s').1, (replay (rules ++ [d]) l ((argVals bs).reverse ++ vs) s').2)
    | (lg, .error e s') => replay (rules ++ [d]) (calls ++ l) vs s = (lg, .error e s')
    | (lg, .panic s') => replay (rules ++ [d]) (calls ++ l) vs s = (lg, .panic s') := by
  induction h with
  | nil =>
    intro as ha l vs s
    cases ha
    simp [plays, argVals, fillA]
  | leaf i t fs lg as _ ih =>
    intro as' ha l vs s
    cases ha
    have := ih as rfl l vs s
    simp only [plays, Tree.play]
    cases hp : plays rules fs s with
    | mk lg' x =>
      rw [hp] at this
      cases x <;> simpa [argVals, fillA] using this
  | err lo e fs lg as _ ih =>
    intro as' ha l vs s
    cases ha
    have := ih as rfl l vs s
    simp only [plays, Tree.play]
    cases hp : plays rules fs s with
    | mk lg' x =>
      rw [hp] at this
      cases x <;> simpa [argVals, fillA] using this
  | node r rule cs lg1 args v fs lg2 as h1 _ h3 _ ih1 ih2 =>
    intro as' ha l vs s
    cases ha
    simp only [freeRules, List.getElem?_mapIdx, Option.map_eq_some_iff] at h1
    obtain ⟨rule', h1, rfl⟩ := h1
    simp only [Except.ok.injEq] at h3
    subst h3
    have hr : (rules ++ [d])[r]? = some rule' := by
      rw [List.getElem?_append_left (by obtain ⟨h, _⟩ := List.getElem?_eq_some_iff.1 h1; exact h), h1]
    have k1 := ih1 args rfl ((r, args) :: (lg2 ++ l)) vs s
    simp only [plays, Tree.play, List.append_assoc, List.cons_append]
    cases hp : plays rules cs s with
    | mk lg' x =>
      rw [hp] at k1
      cases x with
      | error e s' => exact k1
      | panic s' => exact k1
      | ok bs s' =>
        obtain ⟨k1, k2, k3⟩ := k1
        rw [k3]
        have e1 : fillA args ((((argVals bs).reverse ++ vs).take (argVals args).length).reverse) = bs := by
          rw [k2, ← List.length_reverse, List.take_left, List.reverse_reverse, k1]
        have e2 : (((argVals bs).reverse ++ vs).drop (argVals args).length) = vs := by
          rw [k2, ← List.length_reverse, List.drop_left]
        simp only [h1, replay, hr, e1, e2]
        cases hact : rule'.act s' bs with
        | error e s2 => rfl
        | panic s2 => rfl
        | ok v s2 =>
          have k4 := ih2 as rfl l (v :: vs) s2
          simp only
          cases hp2 : plays rules fs s2 with
          | mk lg2' x2 =>
            rw [hp2] at k4
            cases x2 with
            | error e s3 => simp only at k4 ⊢; rw [k4]; simp
            | panic s3 => simp only at k4 ⊢; rw [k4]; simp
            | ok bs2 s3 =>
              simp only at k4 ⊢
              obtain ⟨k4, k5, k6⟩ := k4
              refine ⟨by simp [fillA, argVals, k4], by simp [argVals, k5], ?_⟩
              rw [k6]
              simp [argVals]
  | leafE | errE | nodeE | fail | inner => intro as ha; cases ha

end Verif.Par
