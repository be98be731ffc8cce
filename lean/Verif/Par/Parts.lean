import Verif.Props.ParComplete

/-!
# Parts of an input: evaluation without positions

Helper definitions and lemmas for property C94.
-/

namespace Verif.Par

variable {N T E : Type} {rules : List (Rule N T E)} {idx : T → Nat}

/-- The calls made, and the values or the first failure. -/
abbrev Outs (N T E : Type) := List (Call N T) × Except E (List (Arg N T))

/-- The token `t` in front. -/
def Outs.tok (t : T) (o : Outs N T E) : Outs N T E := (o.1, o.2.map (.tok t :: ·))

/-- The outcome of a node for rule `r` and the trees behind it. -/
def Outs.node (r : Nat) (rule : Rule N T E) (o o' : Outs N T E) : Outs N T E :=
  match o.2 with
  | .error e => (o.1, .error e)
  | .ok args =>
    match rule.gen args with
    | .error e => (o.1 ++ [(r, args)], .error e)
    | .ok v => (o.1 ++ (r, args) :: o'.1, o'.2.map (.nt v :: ·))

/-- `WorksOut rules idx us w o`: the tokens `w` are derived from the symbols `us`, and evaluating the trees has the outcome `o`. -/
inductive WorksOut (rules : List (Rule N T E)) (idx : T → Nat) : List Sym → List T → Outs N T E → Prop
  | nil : WorksOut rules idx [] [] ([], .ok [])
  | tok (t us w o) : WorksOut rules idx us w o → WorksOut rules idx (.tm (.sym (idx t)) :: us) (t :: w) (o.tok t)
  | node (r rule us u w o o') : rules[r]? = some rule → WorksOut rules idx rule.rhs u o → WorksOut rules idx us w o' →
      WorksOut rules idx (.nt rule.lhs :: us) (u ++ w) (Outs.node r rule o o')

/-- A forest for a computation. -/
theorem WorksOut.built {us : List Sym} {w : List T} {o : Outs N T E} (h : WorksOut rules idx us w o) : ∀ input pre post, input = pre ++ w ++ post →
    ∃ fs, Built (rules.map Rule.plain) idx input us fs ∧ errs fs = [] ∧ leaves fs = w.zipIdx pre.length ∧ Evals rules fs o.1 o.2 := by
  induction h with
  | nil => intro _ _ _ _; exact ⟨[], .nil, rfl, rfl, .nil⟩
  | tok t us w o _ ih =>
    intro input pre post hi
    obtain ⟨fs, h1, h2, h3, h4⟩ := ih input (pre ++ [t]) post (by simp [hi])
    refine ⟨.leaf pre.length t :: fs, .leaf _ _ _ _ (by simp [hi]) h1, by simpa [errs, Tree.errs] using h2, ?_, ?_⟩
    · simp [leaves, Tree.leaves, h3, List.zipIdx_cons]
    · obtain ⟨lg, x⟩ := o
      cases x with
      | ok as => exact .leaf _ _ _ _ _ h4
      | error e => exact .leafE _ _ _ _ _ h4
  | node r rule us u w o o' hr _ _ ih1 ih2 =>
    intro input pre post hi
    obtain ⟨cs, h1, h2, h3, h4⟩ := ih1 input pre (w ++ post) (by simp [hi])
    obtain ⟨fs, k1, k2, k3, k4⟩ := ih2 input (pre ++ u) post (by simp [hi])
    refine ⟨.node r cs :: fs, .node r rule.plain _ _ _ (by rw [List.getElem?_map, hr]; rfl) h1 k1, by simp [errs, Tree.errs, h2, k2], ?_, ?_⟩
    · simp [leaves, Tree.leaves, h3, k3, List.zipIdx_append]
    · obtain ⟨lg, x⟩ := o
      obtain ⟨lg', y⟩ := o'
      unfold Outs.node
      cases x with
      | error e => exact .inner _ _ _ _ _ h4
      | ok args =>
        simp only
        cases hg : rule.gen args with
        | error e => exact .fail _ _ _ _ _ _ _ hr h4 hg
        | ok v =>
          cases y with
          | error e => exact .nodeE _ _ _ _ _ _ _ _ _ hr h4 hg k4
          | ok as => exact .node _ _ _ _ _ _ _ _ _ hr h4 hg k4

/-- Every forest without error leaves is a computation. -/
theorem Built.worksOut {input : List T} {us : List Sym} {fs : List (Tree T)} (h : Built (rules.map Rule.plain) idx input us fs) (he : errs fs = []) :
    ∀ {lg x}, Evals rules fs lg x → WorksOut rules idx us ((leaves fs).map Prod.fst) (lg, x) := by
  induction h with
  | nil => intro lg x hev; cases hev; exact .nil
  | leaf i t us fs _ _ ih =>
    intro lg x hev
    have he : errs fs = [] := by simpa [errs, Tree.errs] using he
    cases hev with
    | leaf _ _ _ _ as hev => exact .tok _ _ _ _ (ih he hev)
    | leafE _ _ _ _ e hev => exact .tok _ _ _ _ (ih he hev)
  | err lo l us fs _ _ _ _ => simp [errs, Tree.errs] at he
  | node r prule cs us fs hr hb1 hb2 ih1 ih2 =>
    intro lg x hev
    have he : errs cs = [] ∧ errs fs = [] := by simpa [errs, Tree.errs] using he
    rw [List.getElem?_map, Option.map_eq_some_iff] at hr
    obtain ⟨rule, hr, rfl⟩ := hr
    have hl : (leaves (.node r cs :: fs)).map Prod.fst = (leaves cs).map Prod.fst ++ (leaves fs).map Prod.fst := by
      rw [leaves, Tree.leaves, List.map_append]
    rw [hl]
    show WorksOut rules idx (.nt rule.lhs :: us) _ _
    cases hev with
    | node _ rule' _ lg1 args v _ lg2 as e1 e2 e3 e4 =>
      rw [hr] at e1
      cases e1
      have := WorksOut.node r rule us _ _ _ _ hr (ih1 he.1 e2) (ih2 he.2 e4)
      simpa [Outs.node, e3, Except.map] using this
    | nodeE _ rule' _ lg1 args v _ lg2 e e1 e2 e3 e4 =>
      rw [hr] at e1
      cases e1
      have := WorksOut.node r rule us _ _ _ _ hr (ih1 he.1 e2) (ih2 he.2 e4)
      simpa [Outs.node, e3, Except.map] using this
    | fail _ rule' _ lg1 args e _ e1 e2 e3 =>
      rw [hr] at e1
      cases e1
      obtain ⟨lg2, y, e4⟩ := hb2.evals
      have := WorksOut.node r rule us _ _ _ _ hr (ih1 he.1 e2) (ih2 he.2 e4)
      simpa [Outs.node, e3] using this
    | inner _ _ lg1 e _ e2 =>
      obtain ⟨lg2, y, e4⟩ := hb2.evals
      have := WorksOut.node r rule us _ _ _ _ hr (ih1 he.1 e2) (ih2 he.2 e4)
      simpa [Outs.node] using this

/-- What is derived can be computed. -/
theorem Gen.worksOut {us w' : List Sym} (h : Gen (rules.map Rule.plain) us w') : ∀ w : List T, w' = w.map (fun t => .tm (.sym (idx t))) → ∃ o, WorksOut rules idx us w o := by
  induction h with
  | nil =>
    intro w hw
    cases w with
    | nil => exact ⟨_, .nil⟩
    | cons t w => cases hw
  | keep X l w' _ ih =>
    intro w hw
    cases w with
    | nil => cases hw
    | cons t w =>
      simp only [List.map_cons, List.cons.injEq] at hw
      obtain ⟨rfl, hw⟩ := hw
      obtain ⟨o, h⟩ := ih w hw
      exact ⟨_, .tok t _ _ _ h⟩
  | expand r l u v hr _ _ ih1 ih2 =>
    intro w hw
    obtain ⟨w1, w2, rfl, h1, h2⟩ := List.map_eq_append_iff.1 hw.symm
    obtain ⟨o, k1⟩ := ih1 w1 h1.symm
    obtain ⟨o', k2⟩ := ih2 w2 h2.symm
    obtain ⟨rule, hm, rfl⟩ := List.mem_map.1 hr
    obtain ⟨n, hn⟩ := List.getElem?_of_mem hm
    exact ⟨_, .node n rule _ _ _ _ _ hn k1 k2⟩

/-- What is computed is derived. -/
theorem WorksOut.gen {us : List Sym} {w : List T} {o : Outs N T E} (h : WorksOut rules idx us w o) :
    Gen (rules.map Rule.plain) us (w.map fun t => .tm (.sym (idx t))) := by
  induction h with
  | nil => exact .nil
  | tok t us w o _ ih => exact .keep _ _ _ ih
  | node r rule us u w o o' hr _ _ ih1 ih2 =>
    rw [List.map_append]
    exact .expand rule.plain us _ _ (List.mem_map_of_mem (List.mem_of_getElem? hr)) ih1 ih2

/-- One tree in front of others. -/
theorem WorksOut.cons {A : Nat} {x : List T} {o : Outs N T E} (h : WorksOut rules idx [.nt A] x o) {us : List Sym} {w : List T} {o' : Outs N T E} (h' : WorksOut rules idx us w o') :
    (∀ v, o.2 = .ok [.nt v] → WorksOut rules idx (.nt A :: us) (x ++ w) (o.1 ++ o'.1, o'.2.map (.nt v :: ·))) ∧
    ∀ e, o.2 = .error e → WorksOut rules idx (.nt A :: us) (x ++ w) (o.1, .error e) := by
  generalize hl : [Sym.nt A] = l at h
  cases h with
  | nil => cases hl
  | tok t us w o h => cases hl
  | node r rule us0 u w0 o1 o2 hr h1 h2 =>
    cases hl
    generalize hl2 : ([] : List Sym) = l2 at h2
    cases h2 with
    | tok => cases hl2
    | node => cases hl2
    | nil =>
      have := WorksOut.node r rule us u w o1 o' hr h1 h'
      obtain ⟨lg, y⟩ := o1
      rw [List.append_nil]
      cases y with
      | error e =>
        refine ⟨fun v hv => ?_, fun e' he => ?_⟩
        · simp [Outs.node] at hv
        · simp only [Outs.node, Except.error.injEq] at he this ⊢
          subst he
          exact this
      | ok args =>
        simp only [Outs.node] at this ⊢
        cases hg : rule.gen args with
        | error e =>
          rw [hg] at this
          refine ⟨fun v hv => ?_, fun e' he => ?_⟩
          · simp at hv
          · simp only [Except.error.injEq] at he
            subst he
            exact this
        | ok v0 =>
          rw [hg] at this
          refine ⟨fun v hv => ?_, fun e' he => ?_⟩
          · simp only [Except.map, Except.ok.injEq, List.cons.injEq, Arg.nt.injEq, and_true] at hv
            subst hv
            simpa using this
          · simp [Except.map] at he

/-! ## Contexts -/

/-- What is computed around a part that is derived from `A`. -/
def Around (rules : List (Rule N T E)) (idx : T → Nat) (A : Nat) (us : List Sym) (u w : List T) : Prop :=
  (∃ (pre : List (Call N T)) (K : N → Outs N T E), ∀ x o, WorksOut rules idx [.nt A] x o →
    (∀ v, o.2 = .ok [.nt v] → WorksOut rules idx us (u ++ x ++ w) (pre ++ o.1 ++ (K v).1, (K v).2)) ∧
    ∀ e, o.2 = .error e → WorksOut rules idx us (u ++ x ++ w) (pre ++ o.1, .error e)) ∨
  ∃ (pre : List (Call N T)) (e : E), ∀ x o, WorksOut rules idx [.nt A] x o → WorksOut rules idx us (u ++ x ++ w) (pre, .error e)

theorem WorksOut.shape {A : Nat} {x : List T} {o : Outs N T E} (h : WorksOut rules idx [.nt A] x o) : (∃ v, o.2 = .ok [.nt v]) ∨ ∃ e, o.2 = .error e := by
  generalize hl : [Sym.nt A] = l at h
  cases h with
  | nil => cases hl
  | tok t us w o h => cases hl
  | node r rule us0 u w0 o1 o2 hr h1 h2 =>
    cases hl
    generalize hl2 : ([] : List Sym) = l2 at h2
    cases h2 with
    | tok => cases hl2
    | node => cases hl2
    | nil =>
      obtain ⟨lg, y⟩ := o1
      cases y with
      | error e => exact .inr ⟨e, rfl⟩
      | ok args =>
        simp only [Outs.node]
        cases hg : rule.gen args with
        | error e => exact .inr ⟨e, rfl⟩
        | ok v => exact .inl ⟨v, rfl⟩

theorem Around.some {A : Nat} {us : List Sym} {u w x : List T} {o : Outs N T E} (h : Around rules idx A us u w) (hx : WorksOut rules idx [.nt A] x o) :
    ∃ o', WorksOut rules idx us (u ++ x ++ w) o' := by
  rcases h with ⟨pre, K, h⟩ | ⟨pre, e, h⟩
  · rcases hx.shape with ⟨v, hv⟩ | ⟨e, he⟩
    · exact ⟨_, (h x o hx).1 v hv⟩
    · exact ⟨_, (h x o hx).2 e he⟩
  · exact ⟨_, h x o hx⟩

theorem Gen.around {A : Nat} {us w' : List Sym} (h : Gen (rules.map Rule.plain) us w') : ∀ u w : List T,
    w' = u.map (fun t => .tm (.sym (idx t))) ++ .nt A :: w.map (fun t => .tm (.sym (idx t))) → Around rules idx A us u w := by
  induction h with
  | nil => intro u w hw; simp at hw
  | keep X l w' hg ih =>
    intro u w hw
    cases u with
    | nil =>
      simp only [List.map_nil, List.nil_append, List.cons.injEq] at hw
      obtain ⟨rfl, rfl⟩ := hw
      obtain ⟨o', h'⟩ := hg.worksOut w rfl
      refine .inl ⟨[], fun v => (o'.1, o'.2.map (.nt v :: ·)), fun x o hx => ⟨fun v hv => ?_, fun e he => ?_⟩⟩
      · exact (hx.cons h').1 v hv
      · exact (hx.cons h').2 e he
    | cons t u =>
      simp only [List.map_cons, List.cons_append, List.cons.injEq] at hw
      obtain ⟨rfl, hw⟩ := hw
      rcases ih u w hw with ⟨pre, K, h⟩ | ⟨pre, e, h⟩
      · refine .inl ⟨pre, fun v => (K v).tok t, fun x o hx => ⟨fun v hv => ?_, fun e he => ?_⟩⟩
        · exact .tok t _ _ _ ((h x o hx).1 v hv)
        · exact .tok t _ _ _ ((h x o hx).2 e he)
      · exact .inr ⟨pre, e, fun x o hx => .tok t _ _ _ (h x o hx)⟩
  | expand r l u1 v1 hr hg1 hg2 ih1 ih2 =>
    intro u w hw
    obtain ⟨rule, hm, rfl⟩ := List.mem_map.1 hr
    obtain ⟨n, hn⟩ := List.getElem?_of_mem hm
    show Around rules idx A (.nt rule.lhs :: l) u w
    have inU : ∀ s', u1 = u.map (fun t => Sym.tm (.sym (idx t))) ++ .nt A :: s' → w.map (fun t => Sym.tm (.sym (idx t))) = s' ++ v1 →
        Around rules idx A (.nt rule.lhs :: l) u w := by
      intro s' h1 h2
      obtain ⟨wa, wb, rfl, rfl, rfl⟩ := List.map_eq_append_iff.1 h2
      obtain ⟨o2, k2⟩ := hg2.worksOut wb rfl
      rcases ih1 u wa h1 with ⟨pre, K, h⟩ | ⟨pre, e, h⟩
      · refine .inl ⟨pre, fun v => Outs.node n rule (K v) o2, fun x o hx => ⟨fun v hv => ?_, fun e he => ?_⟩⟩
        · have := WorksOut.node n rule l _ _ _ _ hn ((h x o hx).1 v hv) k2
          rw [show u ++ x ++ (wa ++ wb) = u ++ x ++ wa ++ wb by simp]
          have he : Outs.node n rule (pre ++ o.1 ++ (K v).1, (K v).2) o2 = (pre ++ o.1 ++ (Outs.node n rule (K v) o2).1, (Outs.node n rule (K v) o2).2) := by
            unfold Outs.node
            generalize K v = kv
            obtain ⟨k1, k2⟩ := kv
            cases k2 with
            | error e => rfl
            | ok args =>
              simp only
              cases rule.gen args with
              | error e => simp
              | ok v0 => simp
          rw [he] at this
          exact this
        · have := WorksOut.node n rule l _ _ _ _ hn ((h x o hx).2 e he) k2
          rw [show u ++ x ++ (wa ++ wb) = u ++ x ++ wa ++ wb by simp]
          exact this
      · refine .inr ⟨pre, e, fun x o hx => ?_⟩
        have := WorksOut.node n rule l _ _ _ _ hn (h x o hx) k2
        rw [show u ++ x ++ (wa ++ wb) = u ++ x ++ wa ++ wb by simp]
        exact this
    have inV : ∀ s', v1 = s' ++ .nt A :: w.map (fun t => Sym.tm (.sym (idx t))) → u.map (fun t => Sym.tm (.sym (idx t))) = u1 ++ s' →
        Around rules idx A (.nt rule.lhs :: l) u w := by
      intro s' h1 h2
      obtain ⟨ua, ub, rfl, rfl, rfl⟩ := List.map_eq_append_iff.1 h2
      obtain ⟨o1, k1⟩ := hg1.worksOut ua rfl
      have ih := ih2 ub w h1
      have hf : ∀ lg e, (∀ o', Outs.node n rule o1 o' = (lg, .error e)) → Around rules idx A (.nt rule.lhs :: l) (ua ++ ub) w := by
        intro lg e he
        refine .inr ⟨lg, e, fun x o hx => ?_⟩
        obtain ⟨o', k2⟩ := ih.some hx
        have := WorksOut.node n rule l _ _ _ _ hn k1 k2
        rw [he] at this
        rw [show ua ++ ub ++ x ++ w = ua ++ (ub ++ x ++ w) by simp]
        exact this
      obtain ⟨lg, y⟩ := o1
      cases y with
      | error e => exact hf lg e fun _ => rfl
      | ok args =>
        cases hgen : rule.gen args with
        | error e => exact hf (lg ++ [(n, args)]) e fun _ => by simp [Outs.node, hgen]
        | ok v0 =>
          rcases ih with ⟨pre, K, h⟩ | ⟨pre, e, h⟩
          · refine .inl ⟨lg ++ (n, args) :: pre, fun v => ((K v).1, (K v).2.map (.nt v0 :: ·)), fun x o hx => ⟨fun v hv => ?_, fun e he => ?_⟩⟩
            · have := WorksOut.node n rule l _ _ _ _ hn k1 ((h x o hx).1 v hv)
              rw [show ua ++ ub ++ x ++ w = ua ++ (ub ++ x ++ w) by simp]
              simpa [Outs.node, hgen] using this
            · have := WorksOut.node n rule l _ _ _ _ hn k1 ((h x o hx).2 e he)
              rw [show ua ++ ub ++ x ++ w = ua ++ (ub ++ x ++ w) by simp]
              simpa [Outs.node, hgen, Except.map] using this
          · refine .inr ⟨lg ++ (n, args) :: pre, e, fun x o hx => ?_⟩
            have := WorksOut.node n rule l _ _ _ _ hn k1 (h x o hx)
            rw [show ua ++ ub ++ x ++ w = ua ++ (ub ++ x ++ w) by simp]
            simpa [Outs.node, hgen, Except.map] using this
    rcases List.append_eq_append_iff.1 hw with ⟨s', h1, h2⟩ | ⟨s', h1, h2⟩
    · exact inV s' h2 h1
    · cases s' with
      | nil => exact inV [] (by simpa using h2.symm) (by simpa using h1.symm)
      | cons X s' =>
        simp only [List.cons_append, List.cons.injEq] at h2
        obtain ⟨rfl, h2⟩ := h2
        exact inU s' h1 h2

/-! ## Phrases -/

/-- Each call is for a phrase: the calls for it stand directly before it. -/
theorem WorksOut.phrase {us : List Sym} {w : List T} {o : Outs N T E} (h : WorksOut rules idx us w o) : ∀ as, o.2 = .ok as → ∀ a r args b, o.1 = a ++ (r, args) :: b →
    ∃ rule v a' calls u x z, rules[r]? = some rule ∧ rule.gen args = .ok v ∧ a = a' ++ calls ∧ w = u ++ x ++ z ∧ WorksOut rules idx rule.rhs x (calls, .ok args) ∧
      Gen (rules.map Rule.plain) us (u.map (fun t => .tm (.sym (idx t))) ++ .nt rule.lhs :: z.map (fun t => .tm (.sym (idx t)))) := by
  induction h with
  | nil => intro as _ a r args b h; simp at h
  | tok t us w o _ ih =>
    intro as ho a r args b h
    obtain ⟨lg, y⟩ := o
    cases y with
    | error e => cases ho
    | ok as' =>
      obtain ⟨rule, v, a', calls, u, x, z, h1, h2, h3, h4, h5, h6⟩ := ih as' rfl a r args b h
      exact ⟨rule, v, a', calls, t :: u, x, z, h1, h2, h3, by rw [h4]; simp, h5, .keep _ _ _ h6⟩
  | node r0 rule0 us u0 w0 o o' hr hc hc' ih1 ih2 =>
    intro as ho a r args b h
    obtain ⟨lg, y⟩ := o
    obtain ⟨lg', y'⟩ := o'
    cases y with
    | error e => cases ho
    | ok args0 =>
      cases hgen : rule0.gen args0 with
      | error e => simp [Outs.node, hgen] at ho
      | ok v0 =>
        cases y' with
        | error e => simp [Outs.node, hgen, Except.map] at ho
        | ok as' =>
          simp only [Outs.node, hgen] at h
          have hmem : rule0.plain ∈ rules.map Rule.plain := List.mem_map_of_mem (List.mem_of_getElem? hr)
          rcases List.append_eq_append_iff.1 h with ⟨s, h1, h2⟩ | ⟨s, h1, h2⟩
          · cases s with
            | nil =>
              simp only [List.nil_append, List.cons.injEq, Prod.mk.injEq] at h2
              obtain ⟨⟨rfl, rfl⟩, _⟩ := h2
              refine ⟨rule0, v0, [], lg, [], u0, w0, hr, hgen, by simpa using h1, by simp, hc, ?_⟩
              exact .keep _ _ _ hc'.gen
            | cons q s =>
              simp only [List.cons_append, List.cons.injEq] at h2
              obtain ⟨rfl, h2⟩ := h2
              obtain ⟨rule, v, a', calls, u, x, z, k1, k2, k3, k4, k5, k6⟩ := ih2 as' rfl s r args b h2
              refine ⟨rule, v, lg ++ (r0, args0) :: a', calls, u0 ++ u, x, z, k1, k2, by rw [h1, k3]; simp, by rw [k4]; simp, k5, ?_⟩
              have := Gen.expand rule0.plain us _ _ hmem hc.gen k6
              rw [List.map_append, List.append_assoc]
              exact this
          · cases s with
            | nil =>
              simp only [List.nil_append, List.cons.injEq, Prod.mk.injEq] at h2
              obtain ⟨⟨rfl, rfl⟩, _⟩ := h2
              refine ⟨rule0, v0, [], lg, [], u0, w0, hr, hgen, by simpa using h1.symm, by simp, hc, ?_⟩
              exact .keep _ _ _ hc'.gen
            | cons q s =>
              simp only [List.cons_append, List.cons.injEq] at h2
              obtain ⟨rfl, h2⟩ := h2
              obtain ⟨rule, v, a', calls, u, x, z, k1, k2, k3, k4, k5, k6⟩ := ih1 args0 rfl a r args s h1
              refine ⟨rule, v, a', calls, u, x, z ++ w0, k1, k2, k3, by rw [k4]; simp, k5, ?_⟩
              have := Gen.expand rule0.plain us _ _ hmem k6 hc'.gen
              rw [List.append_assoc, List.cons_append, ← List.map_append] at this
              exact this

end Verif.Par
