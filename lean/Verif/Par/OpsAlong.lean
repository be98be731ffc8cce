import Verif.Par.OpsTable

/-!
# RightGrouped trees are taken
-/

namespace Verif.Par

variable {N T E : Type} {o : Ops} {g : Gram} {idx : T → Nat} {input : List T} {s : Nat}

/-- No operator follows an operand, no `else` an `if`. -/
def opQ (o : Ops) (g : Gram) : List Sym → Nat → Term → Prop := fun _ r a => ∀ rule, g.rules[r]? = some rule →
  (EndsE g.start rule.rhs → ∀ t, a = .sym t → t ∉ o.posts ∧ t ∉ o.bins) ∧ ∀ t e, rule.rhs = [tk t, .nt g.start] → (t, e) ∈ o.ites → a ≠ .sym e

theorem op_done {p : Parser N T E} {rules : List (Rule N T E)} {start fresh : Nat} (hx : Ctx p rules start fresh) (hg : OpGram o (gram rules start)) (ha : o.Apart)
    (hnd : (gram rules start).rules.Nodup) : Done p rules start fresh (opQ o (gram rules start)) := by
  intro γ q r a h1 h2 h3 h4
  left
  have hl := gram_length (rules := rules) (start := start)
  rw [hx.canon.reduce γ q a r h1]
  rw [← hl] at h2 h3 ⊢
  obtain ⟨rule, k1, k2⟩ := id h3
  have hq := h4 rule (Gram.aug_get' k1 h2)
  refine ⟨h2, h3, ?_, ?_, ?_⟩
  · intro he
    rcases hg.expects ha h2 k1 h3 he with ⟨m1, t, m2, m3⟩ | ⟨t, e, m1, m2, m3⟩
    · have := hq.1 m1 t m2
      rcases m3 with m3 | m3
      · exact this.1 m3
      · exact this.2 m3
    · exact hq.2 t e m1 m2 m3
  · rintro ⟨_, h5⟩
    have h5 := (accepts_iff hx.unused).1 h5
    obtain ⟨γ0, r0, m1, m2, _⟩ := k2.split ⟨_, Gram.aug_start⟩
    simp only [k1, Option.some.injEq] at m1
    subst m1
    obtain ⟨_, _, n1⟩ := (hg.rule k1).resolve_left fun h => h2 h.1
    rw [List.take_length, h5] at m2
    have := congrArg List.length m2
    generalize rule.rhs = rhs at n1 m2 this
    cases n1 <;> simp at this
    have := congrArg List.reverse m2
    simp at this
  · intro r' h5 h6
    rw [hg.complete_unique ha hnd h2 h5 h3 h6]
    exact Nat.le_refl _

theorem op_early (hg : OpGram o g) {fresh r : Nat} (hr : r ≠ g.rules.length) (h : Complete (g.aug fresh) g.rules.length [.nt g.start] r .eoi) : False := by
  obtain ⟨rule, k1, k2⟩ := h
  obtain ⟨γ0, r0, m1, m2, _⟩ := k2.split ⟨_, Gram.aug_start⟩
  simp only [k1, Option.some.injEq] at m1
  subst m1
  obtain ⟨_, _, n1⟩ := (hg.rule k1).resolve_left fun h => hr h.1
  rw [List.take_length] at m2
  have := congrArg List.length m2
  generalize rule.rhs = rhs at n1 m2 this
  cases n1 <;> simp at this
  have := congrArg List.reverse m2
  simp at this

/-- The leaves are the tokens from `j` on. -/
def Reads (input : List T) (j : Nat) (fs : List (Tree T)) : Prop := ∀ (k : Nat) (x : T × Nat), (leaves fs)[k]? = some x → input[j + k]? = some x.1

theorem Reads.append {j : Nat} {fs gs : List (Tree T)} (h : Reads input j (fs ++ gs)) : Reads input j fs ∧ Reads input (j + (leaves fs).length) gs := by
  constructor
  · intro k x hk
    apply h
    rw [leaves_append, List.getElem?_append_left (List.getElem?_eq_some_iff.1 hk).1]
    exact hk
  · intro k x hk
    rw [Nat.add_assoc]
    apply h
    rw [leaves_append, List.getElem?_append_right (by omega), Nat.add_sub_cancel_left]
    exact hk

theorem Reads.leaf {j i : Nat} {t : T} (h : Reads input j [.leaf i t]) : input[j]? = some t := h 0 (t, i) rfl

/-- What may follow a grouped tree. -/
def Follow (o : Ops) (idx : T → Nat) (f : Tree T) (a : Term) : Prop :=
  (¬ f.Closed → ∀ t, a = .sym t → t ∉ o.posts ∧ t ∉ o.bins) ∧ ∀ e, a = .sym e → ¬ Dangles o.ites idx e f

theorem RightGrouped.node {l : List (Nat × Nat)} {f : Tree T} (h : RightGrouped l idx f) : ∃ r cs, f = .node r cs := by
  cases h <;> exact ⟨_, _, rfl⟩

theorem RightGrouped.open_last {l : List (Nat × Nat)} {x : Tree T} (h : RightGrouped l idx x) (r : Nat) (cs : List (Tree T)) : ¬ (Tree.node r (cs ++ [x])).Closed := by
  rintro ⟨r', cs', i, t, he⟩
  simp only [Tree.node.injEq] at he
  have := (List.append_inj' he.2 rfl).2
  simp at this
  subst this
  cases h

theorem Dangles.mem {l : List (Nat × Nat)} {e : Nat} {f : Tree T} (h : Dangles l idx e f) : ∃ t, (t, e) ∈ l := by
  induction h with
  | here r i t x h => exact ⟨_, h⟩
  | last _ _ _ _ ih => exact ih

theorem RightGrouped.closed_not {l : List (Nat × Nat)} {e : Nat} {f : Tree T} (h : RightGrouped l idx f) (hc : f.Closed) : ¬ Dangles l idx e f := by
  intro hd
  obtain ⟨r, cs, i, t, rfl⟩ := hc
  generalize hf : Tree.node r (cs ++ [.leaf i t]) = f at hd h
  cases hd with
  | here r' i' t' x h' =>
    simp only [Tree.node.injEq] at hf
    obtain ⟨rfl, hf⟩ := hf
    have hl := congrArg List.getLast? hf
    simp at hl
    subst hl
    cases h with
    | pre _ _ _ _ h => cases h
    | post _ _ _ _ h => cases h
  | last r' cs' x h' =>
    simp only [Tree.node.injEq] at hf
    obtain ⟨rfl, hf⟩ := hf
    have := (List.append_inj' hf rfl).2
    simp at this
    subst this
    generalize hy : Tree.leaf i t = y at h'
    cases h' <;> cases hy

theorem Along.cons {R : List PRule} {Q : List Sym → Nat → Term → Prop} {X : Sym} {γ : List Sym} {j : Nat} {f : Tree T} {fs : List (Tree T)}
    (hb : Built R idx input [X] [f]) (h : Along R Q idx input γ j [f]) (h' : Along R Q idx input (γ ++ [X]) (j + (leaves [f]).length) fs) :
    Along R Q idx input γ j (f :: fs) := by
  have := h.append hb h'
  simpa using this

theorem Along.tok {R : List PRule} {Q : List Sym → Nat → Term → Prop} (γ : List Sym) (j i : Nat) (t : T) :
    Along R Q idx input γ j [.leaf i t] := .leaf _ _ _ _ _ (.nil _ _)

theorem Built.cons_inv {R : List PRule} {us : List Sym} {f : Tree T} {fs : List (Tree T)} (h : Built R idx input us (f :: fs)) :
    ∃ X us', us = X :: us' ∧ Built R idx input [X] [f] ∧ Built R idx input us' fs := by
  cases h with
  | leaf i t us fs h h' => exact ⟨_, _, rfl, .leaf _ _ _ _ h .nil, h'⟩
  | err lo l us fs h1 h2 h' => exact ⟨_, _, rfl, .err _ _ _ _ h1 h2 .nil, h'⟩
  | node r rule cs us fs h1 h2 h' => exact ⟨_, _, rfl, .node _ _ _ _ _ h1 h2 .nil, h'⟩

theorem Built.nil_inv {R : List PRule} {us : List Sym} (h : Built R idx input us ([] : List (Tree T))) : us = [] := by cases h; rfl

theorem Built.leaf_inv {R : List PRule} {X : Sym} {i : Nat} {t : T} (h : Built R idx input [X] [.leaf i t]) : X = tk (idx t) := by cases h; rfl

theorem OpGram.built_node (hg : OpGram o g) {X : Sym} {r : Nat} {cs : List (Tree T)} (h : Built g.rules idx input [X] [.node r cs]) :
    X = .nt g.start ∧ ∃ rule, g.rules[r]? = some rule ∧ OpRule o g.start rule.rhs ∧ rule.lhs = g.start ∧ Built g.rules idx input rule.rhs cs := by
  cases h with
  | node _ rule _ _ _ h1 h2 _ =>
    have := (hg rule).1 (List.mem_of_getElem? h1)
    exact ⟨by rw [this.1], rule, h1, this.2, this.1, h2⟩

theorem OpGram.built_grouped (hg : OpGram o g) {X : Sym} {f : Tree T} (hf : RightGrouped o.ites idx f) (h : Built g.rules idx input [X] [f]) : X = .nt g.start := by
  obtain ⟨r, cs, rfl⟩ := hf.node
  exact (hg.built_node h).1

theorem nextTerm_some {j : Nat} {t : T} (h : input[j]? = some t) : nextTerm idx input j = .sym (idx t) := by simp [nextTerm, h]

theorem EndsE.not_tk {l : List Sym} {t : Nat} (h : EndsE s (l ++ [tk t])) : False := not_endsE_tk h

theorem RightGrouped.along (hg : OpGram o g) (ha : o.Apart) {f : Tree T} (hf : RightGrouped o.ites idx f) : ∀ {X : Sym} {γ : List Sym} {j : Nat},
    Built g.rules idx input [X] [f] → Reads input j [f] → Follow o idx f (nextTerm idx input (j + (leaves [f]).length)) →
    Along g.rules (opQ o g) idx input γ j [f] := by
  -- a node from its children
  have fin : ∀ {r cs rule γ j}, g.rules[r]? = some rule → Along g.rules (opQ o g) idx input γ j cs →
      ((EndsE g.start rule.rhs → ∀ t, nextTerm idx input (j + (leaves cs).length) = .sym t → t ∉ o.posts ∧ t ∉ o.bins) ∧
        ∀ t e, rule.rhs = [tk t, .nt g.start] → (t, e) ∈ o.ites → nextTerm idx input (j + (leaves cs).length) ≠ .sym e) →
      Along g.rules (opQ o g) idx input γ j [.node r cs] := by
    intro r cs rule γ j h1 h2 h3
    refine .node _ _ _ _ _ _ h1 h2 ?_ (.nil _ _)
    intro rule' h4
    rw [h1] at h4
    cases h4
    exact h3
  induction hf with
  | atom r i t =>
    intro X γ j hb hr hfo
    obtain ⟨rfl, rule, h1, h2, h3, h4⟩ := hg.built_node hb
    obtain ⟨X1, us1, e1, b1, b2⟩ := h4.cons_inv
    rw [b2.nil_inv, b1.leaf_inv] at e1
    refine fin h1 (.tok _ _ _ _) ⟨?_, ?_⟩
    · rw [e1]
      intro h
      exact (EndsE.not_tk (l := []) h).elim
    · rw [e1]
      intro t e h
      simp at h
  | pre r i t x hx ih =>
    intro X γ j hb hr hfo
    obtain ⟨rfl, rule, h1, h2, h3, h4⟩ := hg.built_node hb
    obtain ⟨X1, us1, e1, b1, b2⟩ := h4.cons_inv
    obtain ⟨X2, us2, e2, b3, b4⟩ := b2.cons_inv
    have g1 := hg.built_grouped hx b3
    rw [e2, b4.nil_inv, b1.leaf_inv, g1] at e1
    have hcl : ¬ (Tree.node r [.leaf i t, x]).Closed := hx.open_last r [.leaf i t]
    have hlen : j + (leaves [Tree.leaf i t, x]).length = j + 1 + (leaves [x]).length := by simp [leaves, Tree.leaves]; omega
    have hfo' : Follow o idx (.node r [.leaf i t, x]) (nextTerm idx input (j + (leaves [.leaf i t, x]).length)) := by simpa [leaves, Tree.leaves] using hfo
    have hr' : Reads input j ([.leaf i t] ++ [x]) := by
      intro k y hk; apply hr; simpa [leaves, Tree.leaves] using hk
    refine fin h1 (.cons b1 (.tok _ _ _ _) (ih b3 hr'.append.2 ?_)) ⟨?_, ?_⟩
    · rw [show j + (leaves [Tree.leaf i t]).length + (leaves [x]).length = j + (leaves [Tree.leaf i t, x]).length by simp [leaves, Tree.leaves]; omega]
      exact ⟨fun _ => hfo'.1 hcl, fun e he hd => hfo'.2 e he (.last r [.leaf i t] x hd)⟩
    · intro _; exact hfo'.1 hcl
    · intro t' e he hm hn
      rw [e1] at he
      simp at he
      subst he
      exact hfo'.2 e hn (.here _ _ _ _ hm)
  | post r x i t hx hc ih =>
    intro X γ j hb hr hfo
    obtain ⟨rfl, rule, h1, h2, h3, h4⟩ := hg.built_node hb
    obtain ⟨X1, us1, e1, b1, b2⟩ := h4.cons_inv
    obtain ⟨X2, us2, e2, b3, b4⟩ := b2.cons_inv
    rw [e2, b4.nil_inv, b3.leaf_inv] at e1
    have hr' : Reads input j ([x] ++ [.leaf i t]) := by
      intro k y hk; apply hr; simpa [leaves, Tree.leaves] using hk
    refine fin h1 (.cons b1 (ih b1 hr'.append.1 ?_) (.tok _ _ _ _)) ⟨?_, ?_⟩
    · exact ⟨fun h => absurd hc h, fun e _ => hx.closed_not hc⟩
    · rw [e1]
      intro h
      exact (EndsE.not_tk (l := [X1]) h).elim
    · rw [e1]
      intro t e h
      simp at h
  | bin r x i t y hx hc hy ih1 ih2 =>
    intro X γ j hb hr hfo
    obtain ⟨rfl, rule, h1, h2, h3, h4⟩ := hg.built_node hb
    obtain ⟨X1, us1, e1, b1, b2⟩ := h4.cons_inv
    obtain ⟨X2, us2, e2, b3, b4⟩ := b2.cons_inv
    obtain ⟨X3, us3, e3, b5, b6⟩ := b4.cons_inv
    rw [e2, e3, b6.nil_inv, b3.leaf_inv] at e1
    have hcl : ¬ (Tree.node r [x, .leaf i t, y]).Closed := hy.open_last r [x, .leaf i t]
    have hfo' : Follow o idx (.node r [x, .leaf i t, y]) (nextTerm idx input (j + (leaves [x, .leaf i t, y]).length)) := by simpa [leaves, Tree.leaves] using hfo
    have hr' : Reads input j ([x] ++ ([.leaf i t] ++ [y])) := by
      intro k z hk; apply hr; simpa [leaves, Tree.leaves] using hk
    refine fin h1 (.cons b1 (ih1 b1 hr'.append.1 ?_) (.cons b3 (.tok _ _ _ _) (ih2 b5 hr'.append.2.append.2 ?_))) ⟨?_, ?_⟩
    · exact ⟨fun h => absurd hc h, fun e _ => hx.closed_not hc⟩
    · rw [show j + (leaves [x]).length + (leaves [Tree.leaf i t]).length + (leaves [y]).length = j + (leaves [x, Tree.leaf i t, y]).length by
        simp [leaves, Tree.leaves]; omega]
      exact ⟨fun _ => hfo'.1 hcl, fun e he hd => hfo'.2 e he (.last r [x, .leaf i t] y hd)⟩
    · intro _; exact hfo'.1 hcl
    · rw [e1]
      intro t e h
      simp at h
  | par r i t x i' u hx ih =>
    intro X γ j hb hr hfo
    obtain ⟨rfl, rule, h1, h2, h3, h4⟩ := hg.built_node hb
    obtain ⟨X1, us1, e1, b1, b2⟩ := h4.cons_inv
    obtain ⟨X2, us2, e2, b3, b4⟩ := b2.cons_inv
    obtain ⟨X3, us3, e3, b5, b6⟩ := b4.cons_inv
    have g1 := hg.built_grouped hx b3
    rw [e2, e3, b6.nil_inv, b1.leaf_inv, b5.leaf_inv, g1] at e1
    have hm : (idx t, idx u) ∈ o.pars := by
      rw [e1] at h2
      cases h2
      assumption
    have hr' : Reads input j ([.leaf i t] ++ ([x] ++ [.leaf i' u])) := by
      intro k z hk; apply hr; simpa [leaves, Tree.leaves] using hk
    have hu := hr'.append.2.append.2.leaf
    refine fin h1 (.cons b1 (.tok _ _ _ _) (.cons b3 (ih b3 hr'.append.2.append.1 ?_) (.tok _ _ _ _))) ⟨?_, ?_⟩
    · rw [nextTerm_some hu]
      refine ⟨fun _ t' h => ?_, fun e h hd => ?_⟩
      · cases h
        exact ⟨ha.cq _ _ hm, ha.cb _ _ hm⟩
      · cases h
        obtain ⟨t', ht⟩ := hd.mem
        exact ha.ci _ _ _ hm ht
    · rw [e1]
      intro h
      exact (EndsE.not_tk (l := [tk (idx t), .nt g.start]) h).elim
    · rw [e1]
      intro t e h
      simp at h
  | ite r i t x i' u y hx hd hy ih1 ih2 =>
    intro X γ j hb hr hfo
    obtain ⟨rfl, rule, h1, h2, h3, h4⟩ := hg.built_node hb
    obtain ⟨X1, us1, e1, b1, b2⟩ := h4.cons_inv
    obtain ⟨X2, us2, e2, b3, b4⟩ := b2.cons_inv
    obtain ⟨X3, us3, e3, b5, b6⟩ := b4.cons_inv
    obtain ⟨X4, us4, e4, b7, b8⟩ := b6.cons_inv
    have g1 := hg.built_grouped hx b3
    have g2 := hg.built_grouped hy b7
    rw [e2, e3, e4, b8.nil_inv, b1.leaf_inv, b5.leaf_inv, g1, g2] at e1
    have hm : (idx t, idx u) ∈ o.ites := by
      rw [e1] at h2
      cases h2
      assumption
    have hcl : ¬ (Tree.node r [.leaf i t, x, .leaf i' u, y]).Closed := hy.open_last r [.leaf i t, x, .leaf i' u]
    have hfo' : Follow o idx (.node r [.leaf i t, x, .leaf i' u, y]) (nextTerm idx input (j + (leaves [.leaf i t, x, .leaf i' u, y]).length)) := by
      simpa [leaves, Tree.leaves] using hfo
    have hr' : Reads input j ([.leaf i t] ++ ([x] ++ ([.leaf i' u] ++ [y]))) := by
      intro k z hk; apply hr; simpa [leaves, Tree.leaves] using hk
    have hu := hr'.append.2.append.2.append.1.leaf
    refine fin h1 (.cons b1 (.tok _ _ _ _) (.cons b3 (ih1 b3 hr'.append.2.append.1 ?_) (.cons b5 (.tok _ _ _ _) (ih2 b7 hr'.append.2.append.2.append.2 ?_)))) ⟨?_, ?_⟩
    · rw [nextTerm_some hu]
      refine ⟨fun _ t' h => ?_, fun e h => ?_⟩
      · cases h
        exact ⟨ha.eq _ _ hm, ha.eb _ _ hm⟩
      · cases h
        exact hd
    · rw [show j + (leaves [Tree.leaf i t]).length + (leaves [x]).length + (leaves [Tree.leaf i' u]).length + (leaves [y]).length =
        j + (leaves [Tree.leaf i t, x, Tree.leaf i' u, y]).length by simp [leaves, Tree.leaves]; omega]
      exact ⟨fun _ => hfo'.1 hcl, fun e he hd => hfo'.2 e he (.last r [.leaf i t, x, .leaf i' u] y hd)⟩
    · intro _; exact hfo'.1 hcl
    · rw [e1]
      intro t e h
      simp at h

/-- `parse` takes a grouped tree. -/
theorem op_follow {p : Parser N T E} {rules : List (Rule N T E)} {start fresh : Nat} (hx : Ctx p rules start fresh) (hg : OpGram o (gram rules start)) (ha : o.Apart)
    (hnd : (gram rules start).rules.Nodup) {f : Tree T} (hf : IsTree (rules.map Rule.plain) start idx input f) (hgr : RightGrouped o.ites idx f)
    {lg x} (hev : Evals rules [f] lg x) :
    (∃ v c, x = .ok [.nt v] ∧ ParsesTo idx p input (.ok v) c ∧ c.log.reverse = lg) ∨
    (∃ e c, x = .error e ∧ ParsesTo idx p input (.error (.reducer e)) c ∧ c.log.reverse = lg) := by
  have hl := gram_length (rules := rules) (start := start)
  have hal : Along (rules.map Rule.plain) (opQ o (gram rules start)) idx input [] 0 [f] := by
    refine hgr.along hg ha hf.1 ?_ ?_
    · intro k y hk
      rw [hf.2.2] at hk
      simp at hk
      obtain ⟨t, h1, h2⟩ := hk
      rw [← h2]
      simpa using h1
    · have : nextTerm idx input (0 + (leaves [f]).length) = .eoi := by
        rw [hf.2.2]; simp [nextTerm]
      rw [this]
      exact ⟨fun _ t h => by simp at h, fun e h => by simp at h⟩
  rcases followQ (Cy := False) hx (op_done hx hg ha hnd) (fun r hr hc _ => op_early hg (by rw [hl]; exact hr) (by rw [hl]; exact hc)) hf hal hev with h | h | ⟨h, _⟩
  · exact .inl h
  · exact .inr h
  · exact h.elim

end Verif.Par
