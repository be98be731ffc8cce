import Verif.Par.SharedRound

/-!
# Source and callbacks that share a world: all rounds
-/

namespace Verif.Par

variable {S N T E : Type}

section
variable {p : EParser S N T E} {idx : T → Nat} {nxt : Source S T} {rules : List (ERule S N T E)} {start fresh : Nat}

variable (idx nxt rules) in
/-- Going through a forest over `w` from the beginning on. -/
def startX (w : List Nat) (s : S) (fs : List (Tree Nat)) : Went S T (List (Arg N T)) E :=
  match draw idx nxt s w with
  | none => .strays
  | some m => playsX idx nxt rules fs m

theorem startX_cont {fs fs' : List (Tree Nat)} (h : Cont idx nxt rules fs fs') : ∃ K, ∀ w s,
    startX idx nxt rules w s fs' = (startX idx nxt rules w s fs).bind K := by
  obtain ⟨K, h⟩ := h
  refine ⟨K, fun w s => ?_⟩
  unfold startX
  cases draw idx nxt s w with
  | none => rfl
  | some m => exact h m

theorem startX_single (w : List Nat) (s : S) (f : Tree Nat) :
    startX idx nxt rules w s [f] = (f.performs idx nxt rules w s).bind fun a m => .ok [a] m := by
  unfold startX Tree.performs
  cases draw idx nxt s w with
  | none => rfl
  | some m => exact playsX_single f m

/-- The parse, begun in world `s0` and now in world `s`, has gone through the forest `fs` over `w`, and found the values `args`. -/
structure InvX (idx : T → Nat) (nxt : Source S T) (p : EParser S N T E) (rules : List (ERule S N T E)) (w : List Nat) (s0 : S) (c : Cfg N T)
    (s : S) (j : Nat) (γ : List Sym) (fs : List (Tree Nat)) (lg : List (Call Unit Nat)) (as : List (Arg Unit Nat)) (args : List (Arg N T)) :
    Prop where
  inv : Inv (plainE p) (plainRulesE rules) id w (seenAs idx w c) j γ fs lg as
  clean : errs fs = []
  stack : c.stack.reverse.map (fun x => argOf c.read x.2) = args.map some
  play : startX idx nxt rules w s0 fs = match aheadX idx nxt w c s with
    | none => .strays
    | some m => .ok args m

theorem InvX.init (w : List Nat) (s : S) : InvX idx nxt p rules w s (p.init []) s 0 [] [] [] [] [] where
  inv := (Inv.init : Inv (plainE p) (plainRulesE rules) id w (Cfg.init (plainE p) w) 0 [] [] [] [])
  clean := rfl
  stack := rfl
  play := by
    simp only [startX, aheadX, EParser.init, Cfg.init, List.length_nil, List.drop_zero]
    cases draw idx nxt s w <;> rfl

theorem argOf_mono {read read' : List T} (h : read <+: read') {l : List (SSym N)} {args : List (Arg N T)} (hl : ∀ y ∈ l, ∀ lo hi, y ≠ .err lo hi)
    (ha : l.map (argOf read) = args.map some) : l.map (argOf read') = args.map some := by
  rw [← ha]
  apply List.map_congr_left
  intro y hy
  have hs : ∃ a, argOf read y = some a := by
    have : argOf read y ∈ l.map (argOf read) := List.mem_map_of_mem hy
    rw [ha, List.mem_map] at this
    obtain ⟨a, _, h⟩ := this
    exact ⟨a, h.symm⟩
  cases y with
  | nt v i => rfl
  | err lo hi => exact absurd rfl (hl _ hy lo hi)
  | eoi i => rfl
  | tok k i =>
    obtain ⟨l', rfl⟩ := h
    obtain ⟨a, hs⟩ := hs
    simp only [argOf, Option.map_eq_some_iff] at hs ⊢
    obtain ⟨t, ht, _⟩ := hs
    rw [List.getElem?_append_left (by rw [List.getElem?_eq_some_iff] at ht; exact ht.1)]

/-- No error on the stack. -/
theorem InvX.no_err {w : List Nat} {s0 s : S} {c : Cfg N T} {j γ fs lg as args} (h : InvX idx nxt p rules w s0 c s j γ fs lg as args) :
    ∀ y ∈ c.stack.reverse.map Prod.snd, ∀ lo hi, y ≠ .err lo hi := by
  intro y hy lo hi he
  subst he
  have hel := h.inv.seg.elems
  refine hel.errs_ne (lo := lo) (hi := hi) ?_ h.clean
  simp only [List.mem_map, List.mem_reverse] at hy ⊢
  obtain ⟨⟨q, y⟩, hy, hy'⟩ := hy
  simp only at hy'
  subst hy'
  refine ⟨(q, .err lo hi), ?_, rfl⟩
  simp only [seenAs, Cfg.map, Cfg.withSrc, mapSt, List.mem_map]
  exact ⟨(q, .err lo hi), hy, rfl⟩

/-- What a round with effects does. -/
theorem roundX (hx : Ctx (plainE p) (plainRulesE rules) start fresh) (hpr : ∃ d, p.rules = rules ++ [d])
    (hn : (gramE rules start).NoError) {w : List Nat} {s0 s : S} {c : Cfg N T} {j γ fs lg as args}
    (h : InvX idx nxt p rules w s0 c s j γ fs lg as args) :
    aheadX idx nxt w c s = none ∨
    ∃ m, aheadX idx nxt w c s = some m ∧ (pull idx nxt c s).2 = m.world ∧
      ((∃ c' s' j' γ' fs' lg' as' args', stepE idx p (pull idx nxt c s).1 m.world = .more c' s' ∧
          step id (plainE p) (seenAs idx w c) = .more (seenAs idx w c') ∧ InvX idx nxt p rules w s0 c' s' j' γ' fs' lg' as' args' ∧
          Cont idx nxt rules fs fs' ∧ c'.read = (pull idx nxt c s).1.read ∧ c'.pulls = (pull idx nxt c s).1.pulls) ∨
       (∃ v f, stepE idx p (pull idx nxt c s).1 m.world = .done (.ok v) (pull idx nxt c s).1 m.world ∧
          step id (plainE p) (seenAs idx w c) = .done (.ok ()) (seenAs idx w (pull idx nxt c s).1) ∧ fs = [f] ∧ args = [.nt v] ∧
          IsTree (rules.map ERule.plain) start id w f ∧ j = w.length) ∨
       (∃ c', stepE idx p (pull idx nxt c s).1 m.world = .done (.error .noRecovery) c' m.world ∧
          step id (plainE p) (seenAs idx w c) = .done (.error .noRecovery) (seenAs idx w c') ∧
          c'.read = (pull idx nxt c s).1.read ∧ c'.pulls = (pull idx nxt c s).1.pulls) ∨
       (∃ c' d' j' γ' fs' lg' as' a r, Inv (plainE p) (plainRulesE rules) id w d' j' γ' fs' lg' as' ∧ errs fs' = [] ∧
          step id (plainE p) (seenAs idx w c) = .more d' ∧ Cont idx nxt rules fs fs' ∧ c'.read = (pull idx nxt c s).1.read ∧
          c'.pulls = (pull idx nxt c s).1.pulls ∧ Ahead id w j a ∧ p.tab.act c.state a = some (.reduce r) ∧
          ((∃ e s', stepE idx p (pull idx nxt c s).1 m.world = .done (.error (.reducer e)) c' s' ∧
              startX idx nxt rules w s0 fs' = .error e s') ∨
           ∃ s', stepE idx p (pull idx nxt c s).1 m.world = .unwind c' s' ∧ startX idx nxt rules w s0 fs' = .panic s'))) := by
  cases hah : aheadX idx nxt w c s with
  | none => exact Or.inl rfl
  | some m =>
    right
    refine ⟨m, rfl, ?_⟩
    obtain ⟨hfill, hworld, hlook, hrest⟩ := ahead_fill hah
    refine ⟨hworld, ?_⟩
    have hplay := h.play
    rw [hah] at hplay
    simp only at hplay
    obtain ⟨hst, hstate, hlog, hread⟩ := pull_same (idx := idx) (nxt := nxt) c s
    have hfront := pull_front (idx := idx) (nxt := nxt) c s
    have hstack1 : (pull idx nxt c s).1.stack.reverse.map (fun x => argOf (pull idx nxt c s).1.read x.2) = args.map some := by
      have := h.stack
      rw [hst]
      have e : ∀ rd : List T, c.stack.reverse.map (fun x => argOf rd x.2) = (c.stack.reverse.map Prod.snd).map (argOf rd) := by
        intro rd; rw [List.map_map]; rfl
      rw [e] at this ⊢
      exact argOf_mono hread h.no_err this
    have hstep : step id (plainE p) (seenAs idx w c) = step id (plainE p) (seenAs idx w (pull idx nxt c s).1) := by
      rw [← hfill]; unfold step; rw [fill_fill]
    obtain ⟨a, m1, m2, m3, m4⟩ := step_cases hx h.inv
    obtain ⟨_, hbuf⟩ := h.inv.fill
    rw [hfill] at m2 m3 m4 hbuf
    generalize hc1 : (pull idx nxt c s).1 = c1 at *
    have hpl := stepE_pl (idx := idx) (p := p) c1 hfront m.world w
    have hcst : (seenAs idx w c).state = c.state := rfl
    have hc1b : (seenAs idx w c1).buffer = c1.buffer := rfl
    rw [hc1b] at hbuf
    have htab : (plainE p).tab = p.tab := rfl
    rw [htab, hcst] at m4
    rcases m4 with ⟨k, q, n1, n2, n3, n4, n5⟩ | ⟨r, n1, n2⟩ | ⟨v, n1, n2, n3, n4, ⟨f, n5⟩, n6, n7⟩ | ⟨n1, n2⟩
    · -- shift
      left
      simp only [id] at n1
      subst n1
      rcases hbuf with ⟨k', hb, hk'⟩ | ⟨hb, _, hj, _⟩
      · have hk : k' = k := by
          have := m2.read
          have hlt : j < (seenAs idx w c1).read.length := by rw [List.getElem?_eq_some_iff] at hk'; exact hk'.1
          rw [← this, List.getElem?_append_left hlt, hk'] at n2
          simpa using n2
        subst hk
        simp only [id] at hb
        have hX := stepE_shift (idx := idx) (p := p) (s := m.world) hb (by rw [hstate]; exact n3)
        have hrd : (seenAs idx w c1).read = c1.read.map idx := rfl
        rw [hrd, List.getElem?_map, Option.map_eq_some_iff] at hk'
        obtain ⟨t, ht, hkt⟩ := hk'
        have hbnil : bufOf id (seenAs idx w c1).read (j + 1) = [] := by
          apply bufOf_end
          exact (m2.clean h.clean).2.2.2
        rw [hbnil] at hX
        have hsame : (seenAs idx w c1).shifted id k' j q = seenAs idx w { c1 with state := q, stack := (c1.state, .tok k' j) :: c1.stack, buffer := [] } := by
          unfold Cfg.shifted
          rw [hbnil]
          rfl
        rw [hsame] at n4 n5
        refine ⟨_, _, _, _, _, _, _, args ++ [.tok t], hX, n4, ⟨n5, ?_, ?_, ?_⟩, Cont.append _ _, rfl, rfl⟩
        · simp [errs_append, h.clean, errs, Tree.errs]
        · simp only [List.reverse_cons, List.map_append, List.map_cons, List.map_nil, hstack1]
          simp [argOf, ht]
        · obtain ⟨K, hK⟩ := startX_cont (Cont.append (idx := idx) (nxt := nxt) (rules := rules) fs [.leaf j k'])
          simp only [aheadX]
          unfold startX at hplay ⊢
          cases hd : draw idx nxt s0 w with
          | none => rw [hd] at hplay; cases hplay
          | some m0 =>
            rw [hd] at hplay
            simp only at hplay ⊢
            rw [playsX_append, hplay]
            simp only [Went.bind]
            rw [playsX_single]
            simp only [Tree.playX]
            have : lookOf c1 = some t := by
              unfold lookOf
              rw [hb]
              exact ht
            rw [← hlook, this]
            simp only [hkt, if_true]
            rw [hrest]
            cases draw idx nxt m.world (w.drop c1.read.length) <;> rfl
      · rw [Ahead] at m1
        rcases m1 with ⟨t, _, ht⟩ | ⟨h0, _⟩
        · rw [hj] at ht; simp at ht
        · cases h0
    · -- reduce
      have hb : ∃ i buffer, c1.buffer = (a, i) :: buffer := by
        rcases hbuf with ⟨k', hb, hk'⟩ | ⟨hb, _, hj, _⟩
        · have := m1.unique (Or.inl ⟨k', rfl, by
            have := m2.read
            have hlt : j < (seenAs idx w c1).read.length := by rw [List.getElem?_eq_some_iff] at hk'; exact hk'.1
            rw [← this, List.getElem?_append_left hlt, hk']⟩)
          rw [this]
          exact ⟨_, _, hb⟩
        · have := m1.unique (Or.inr ⟨rfl, hj⟩)
          rw [this]
          exact ⟨_, _, hb⟩
      obtain ⟨i, buffer, hb⟩ := hb
      have hX := stepE_reduce (idx := idx) (p := p) (s := m.world) hb (by rw [hstate]; exact n1)
      have hst1 : (seenAs idx w c1).state = c1.state := rfl
      obtain ⟨rule2, γ0, f0, f1, l0, l1, a0, a1, z1, z2, z3, z4, z5, z6⟩ := m2.reduce hx (a := a) (r := r) (by rw [hst1, hstate]; exact n1)
      have hez : errs f1 = [] := by
        have := h.clean
        rw [z3, errs_append, List.append_eq_nil_iff] at this
        exact this.2
      rcases z6 with ⟨_, _, z6⟩ | ⟨z6, z7, z8, z9, z10⟩
      · exact absurd hez z6
      obtain ⟨q, q0, i', st, y1, y2⟩ := z10 () (plainE_gen _ (List.mem_of_getElem? z1) _)
      have hstep' : step id (plainE p) (seenAs idx w c) = .more ((seenAs idx w c1).reduced r a1 () q q0 i' st) := by rw [n2]; exact y1
      have hclean' : errs (f0 ++ [.node r f1]) = [] := by
        have := h.clean
        rw [z3, errs_append, List.append_eq_nil_iff] at this
        simp [errs_append, this.1, errs, Tree.errs, hez]
      have hcont : Cont idx nxt rules fs (f0 ++ [.node r f1]) := by rw [z3]; exact Cont.reduce f0 f1 r
      obtain ⟨dr, hpr⟩ := hpr
      have hrl : ∃ rule, rules[r]? = some rule ∧ rule.rhs = rule2.rhs ∧ rule.lhs = rule2.lhs := by
        simp only [plainRulesE, List.getElem?_map, Option.map_eq_some_iff] at z1
        obtain ⟨rule, z1, rfl⟩ := z1
        exact ⟨rule, z1, rfl, rfl⟩
      obtain ⟨rule, hrule, hrhs, hlhs⟩ := hrl
      have hprule : p.rules[r]? = some rule := by
        rw [hpr, List.getElem?_append_left (by rw [List.getElem?_eq_some_iff] at hrule; exact hrule.1), hrule]
      have hf1 : f1.length = rule.rhs.length := by rw [← z6.length, hrhs]
      -- the play goes on with the callback
      have hplay' : startX idx nxt rules w s0 (f0 ++ [.node r f1]) =
          (callX rules r (args.drop (args.length - f1.length)) m).bind fun a m => .ok (args.take (args.length - f1.length) ++ [a]) m := by
        unfold startX at hplay ⊢
        cases hd : draw idx nxt s0 w with
        | none => rw [hd] at hplay; cases hplay
        | some m0 =>
          rw [hd] at hplay
          simp only at hplay ⊢
          rw [playsX_reduce, ← z3, hplay]
          rfl
      have hargs_len : args.length = c1.stack.length := by
        have := congrArg List.length hstack1
        simpa using this.symm
      rw [hX] at hpl
      have hv := onReduceE_view (p := p) c1 m.world r
      rw [hX]
      generalize onReduceE p c1 m.world r = z at hv hpl ⊢
      rw [← hstep, hstep'] at hpl
      cases hv with
      | panic => simp only [EStep.Pl] at hpl; cases hpl
      | call rule3 args1 x k1 k2 k3 k4 =>
        rw [hprule] at k1
        cases k1
        have hsplit : c1.stack.reverse = (c1.stack.drop rule.rhs.length).reverse ++ (c1.stack.take rule.rhs.length).reverse := by
          rw [← List.reverse_append, List.take_append_drop]
        have hlen0 : (c1.stack.drop rule.rhs.length).reverse.length = args.length - f1.length := by
          simp [hargs_len, hf1]
        have hA0 : (c1.stack.drop rule.rhs.length).reverse.map (fun x => argOf c1.read x.2) = (args.take (args.length - f1.length)).map some := by
          rw [List.map_take, ← hstack1, hsplit, List.map_append, ← hlen0, List.take_append_of_le_length (by simp), List.take_of_length_le (by simp)]
        have hA1 : args1 = args.drop (args.length - f1.length) := by
          apply map_some_inj
          rw [← mkArgs_argOf k3, List.map_drop, ← hstack1, hsplit, List.map_append, ← hlen0, List.drop_left' (by simp), List.map_map]
          rfl
        rw [← hA1] at hplay'
        simp only [callX, hrule] at hplay'
        cases hact : rule.act m.world args1 with
        | ok v s' =>
          rw [hact] at k4 hplay'
          rcases k4 with rfl | ⟨q2, q3, i2, rec, rfl⟩
          · simp only [EStep.Pl] at hpl; cases hpl
          · left
            simp only [EStep.Pl, Step.more.injEq] at hpl
            refine ⟨_, _, j, γ0 ++ [.nt rule2.lhs], f0 ++ [.node r f1], l0 ++ (l1 ++ [(r, a1)]), a0 ++ [.nt ()],
              args.take (args.length - f1.length) ++ [.nt v], rfl, ?_, ⟨?_, hclean', ?_, ?_⟩, hcont, rfl, rfl⟩
            · rw [hstep', hpl]; rfl
            · rw [hpl] at y2; exact y2
            · simp only [List.reverse_cons, List.map_append, hA0]
              rfl
            · rw [hplay']
              simp only [aheadX, hb, Went.bind]
              have : lookOf c1 = m.look := hlook
              congr 1
              rw [← hrest, ← this]
              unfold lookOf
              simp only [hb]
        | error e s' =>
          rw [hact] at k4 hplay'
          simp only at k4
          subst k4
          right; right; right
          exact ⟨{ c1 with log := (r, args1) :: c1.log }, _, _, _, _, _, _, a, r, y2, hclean', hstep', hcont, rfl, rfl, m1, n1, Or.inl ⟨e, s', rfl, hplay'⟩⟩
        | panic s' =>
          rw [hact] at k4 hplay'
          simp only at k4
          subst k4
          right; right; right
          exact ⟨{ c1 with log := (r, args1) :: c1.log }, _, _, _, _, _, _, a, r, y2, hclean', hstep', hcont, rfl, rfl, m1, n1, Or.inr ⟨s', rfl, hplay'⟩⟩
    · -- accept
      right; left
      subst n2
      have hb := m3 rfl
      rw [hc1b] at hb
      have hseg := m2.seg.elems
      obtain ⟨v', q, k, hstk, hargs⟩ : ∃ v' q k, c1.stack = [(q, .nt v' k)] ∧ args = [.nt v'] := by
        have hl : c1.stack.length = 1 := by
          have := m2.seg.length
          rw [n4] at this
          simpa [seenAs, Cfg.map, Cfg.withSrc, mapSt] using this
        rw [List.length_eq_one_iff] at hl
        obtain ⟨⟨q, y⟩, hl⟩ := hl
        rw [hl] at hstack1
        have hy : (seenAs idx w c1).stack.reverse.map Prod.snd = [y.map (fun _ => ())] := by
          simp [seenAs, Cfg.map, Cfg.withSrc, mapSt, hl]
        rw [hy, n4, n5, n6] at hseg
        generalize hyy : [y.map (fun _ => ())] = ys at hseg
        generalize hss : [Sym.nt start] = us at hseg
        generalize [Arg.nt v] = as at hseg
        cases hseg with
        | cons X y' f l a us ys fs lg as k1 k2 =>
          cases hss
          cases k1
          cases y with
          | nt v' k =>
            refine ⟨v', q, k, hl, ?_⟩
            simp only [List.reverse_singleton, List.map_cons, List.map_nil, argOf] at hstack1
            exact (map_some_inj (l' := [Arg.nt v']) hstack1.symm)
          | tok => simp [SSym.map] at hyy
          | err => simp [SSym.map] at hyy
          | eoi => simp [SSym.map] at hyy
      refine ⟨v', f, stepE_accept hb (by rw [hstate]; exact n1) hstk, n7, n5, hargs, ⟨?_, ?_, ?_⟩, n3⟩
      · have hel := h.inv.seg.elems
        rw [← plainE_plain, ← n5, ← n4]
        refine hel.built ?_
        intro lo hi hm
        exact absurd h.clean (hel.errs_ne hm)
      · rw [← n5]; exact h.clean
      · rw [← n5, (h.inv.clean h.clean).1, n3, List.take_length]
    · -- no action
      right; right; left
      rcases n2 with n2 | ⟨c', j', γ', fs', lg', as', n2, n3, n4, n5, n6, n7, n8, n9, n10⟩
      · rw [← hstep, n2] at hpl
        cases hz : stepE idx p c1 m.world with
        | more c' s' => rw [hz] at hpl; simp only [EStep.Pl] at hpl; cases hpl
        | panic => rw [hz] at hpl; simp only [EStep.Pl] at hpl; cases hpl
        | unwind c' s' => rw [hz] at hpl; simp only [EStep.Pl] at hpl; rcases hpl with hpl | ⟨d, hpl⟩ <;> cases hpl
        | done x c' s' =>
          cases x with
          | ok v => rw [hz] at hpl; simp only [EStep.Pl] at hpl; cases hpl
          | error e =>
            cases e with
            | reducer e => rw [hz] at hpl; simp only [EStep.Pl] at hpl; rcases hpl with hpl | ⟨d, hpl⟩ <;> cases hpl
            | noRecovery =>
              obtain ⟨q1, q2, q3⟩ := stepE_noRecovery hfront hz
              subst q1
              refine ⟨c', rfl, ?_, q2, q3⟩
              rw [hz] at hpl
              simp only [EStep.Pl] at hpl
              rw [n2, hpl]
              simp only [seenAs, q2]
      · exact absurd n9 (no_err_expected (by rw [plainE_gram]; exact hn))

end

end Verif.Par
