import Verif.Par.OpsAlong

/-!
# Every sentence of an operator grammar has a grouped tree
-/

namespace Verif.Par

variable {T : Type} {o : Ops} {g : Gram} {idx : T → Nat} {input : List T}

/-- A grouped derivation tree. -/
structure GTree (o : Ops) (g : Gram) (idx : T → Nat) (input : List T) (f : Tree T) : Prop where
  built : Built g.rules idx input [.nt g.start] [f]
  grouped : RightGrouped o.ites idx f

/-- A token of the input. -/
abbrev IsLeaf (g : Gram) (idx : T → Nat) (input : List T) (k i : Nat) (t : T) : Prop := Built g.rules idx input [tk k] [.leaf i t]

theorem OpGram.index (hg : OpGram o g) {rhs : List Sym} (h : OpRule o g.start rhs) : ∃ r : Nat, g.rules[r]? = some ⟨g.start, rhs⟩ :=
  List.getElem?_of_mem ((hg ⟨g.start, rhs⟩).2 ⟨rfl, h⟩)

theorem OpGram.node (hg : OpGram o g) {r : Nat} {rule : PRule} {cs : List (Tree T)} (h : g.rules[r]? = some rule) (hb : Built g.rules idx input rule.rhs cs) :
    Built g.rules idx input [.nt g.start] [.node r cs] := by
  have := ((hg rule).1 (List.mem_of_getElem? h)).1
  have h2 := Built.node r rule cs [] [] h hb .nil
  rw [this] at h2
  exact h2

theorem Built.cons {R : List PRule} {X : Sym} {us : List Sym} {f : Tree T} {fs : List (Tree T)} (h : Built R idx input [X] [f]) (h' : Built R idx input us fs) :
    Built R idx input (X :: us) (f :: fs) := by
  simpa using h.append h'

/-- Replacing the last child. -/
theorem GTree.last (hg : OpGram o g) {r : Nat} {cs : List (Tree T)} {x y : Tree T} (h : Built g.rules idx input [.nt g.start] [.node r (cs ++ [x])])
    (hx : GTree o g idx input x) (hy : Built g.rules idx input [.nt g.start] [y]) : Built g.rules idx input [.nt g.start] [.node r (cs ++ [y])] := by
  obtain ⟨_, rule, h1, h2, h3, h4⟩ := hg.built_node h
  refine hg.node h1 ?_
  clear h h1 h2 h3
  generalize rule.rhs = us at h4
  induction cs generalizing us with
  | nil =>
    obtain ⟨X, us', rfl, b1, b2⟩ := h4.cons_inv
    rw [b2.nil_inv, hg.built_grouped hx.grouped b1]
    exact hy
  | cons c cs ih =>
    obtain ⟨X, us', rfl, b1, b2⟩ := Built.cons_inv (f := c) (fs := cs ++ [x]) h4
    exact Built.cons b1 (ih _ b2)

theorem leaves_last (r : Nat) (cs : List (Tree T)) (x : Tree T) : leaves [.node r (cs ++ [x])] = leaves cs ++ leaves [x] := by
  simp [leaves, Tree.leaves, leaves_append]

theorem GTree.child_last (hg : OpGram o g) {r : Nat} {cs : List (Tree T)} {x : Tree T} (h : Built g.rules idx input [.nt g.start] [.node r (cs ++ [x])])
    (hx : RightGrouped o.ites idx x) : GTree o g idx input x := by
  obtain ⟨_, rule, h1, h2, h3, h4⟩ := hg.built_node h
  clear h h1 h2 h3
  generalize rule.rhs = us at h4
  induction cs generalizing us with
  | nil =>
    obtain ⟨X, us', rfl, b1, b2⟩ := h4.cons_inv
    rw [hg.built_grouped hx b1] at b1
    exact ⟨b1, hx⟩
  | cons c cs ih =>
    obtain ⟨X, us', rfl, b1, b2⟩ := Built.cons_inv (f := c) (fs := cs ++ [x]) h4
    exact ih _ b2

/-- Something is added behind an expression. -/
theorem GTree.extend (hg : OpGram o g) {suf : List (T × Nat)}
    (base : ∀ x, GTree o g idx input x → x.Closed → ∃ f, GTree o g idx input f ∧ leaves [f] = leaves [x] ++ suf) {x : Tree T}
    (hx : GTree o g idx input x) : ∃ f, GTree o g idx input f ∧ leaves [f] = leaves [x] ++ suf := by
  obtain ⟨hb, hgr⟩ := hx
  induction hgr with
  | atom r i t => exact base _ ⟨hb, .atom r i t⟩ ⟨r, [], i, t, rfl⟩
  | post r x i t h1 h2 => exact base _ ⟨hb, .post r x i t h1 h2⟩ ⟨r, [x], i, t, rfl⟩
  | par r i t x j u h1 => exact base _ ⟨hb, .par r i t x j u h1⟩ ⟨r, [.leaf i t, x], j, u, rfl⟩
  | pre r i t x h1 ih =>
    have hc := GTree.child_last hg (cs := [.leaf i t]) hb h1
    obtain ⟨f, k1, k2⟩ := ih hc.built
    refine ⟨.node r ([.leaf i t] ++ [f]), ⟨GTree.last hg (cs := [.leaf i t]) hb hc k1.built, .pre _ _ _ _ k1.grouped⟩, ?_⟩
    rw [leaves_last, k2, ← List.append_assoc, ← leaves_last r]
    rfl
  | bin r x i t y h1 h2 h3 _ ih =>
    have hc := GTree.child_last hg (cs := [x, .leaf i t]) hb h3
    obtain ⟨f, k1, k2⟩ := ih hc.built
    refine ⟨.node r ([x, .leaf i t] ++ [f]), ⟨GTree.last hg (cs := [x, .leaf i t]) hb hc k1.built, .bin _ _ _ _ _ h1 h2 k1.grouped⟩, ?_⟩
    rw [leaves_last, k2, ← List.append_assoc, ← leaves_last r]
    rfl
  | ite r i t x j u y h1 h2 h3 _ ih =>
    have hc := GTree.child_last hg (cs := [.leaf i t, x, .leaf j u]) hb h3
    obtain ⟨f, k1, k2⟩ := ih hc.built
    refine ⟨.node r ([.leaf i t, x, .leaf j u] ++ [f]), ⟨GTree.last hg (cs := [.leaf i t, x, .leaf j u]) hb hc k1.built, .ite _ _ _ _ _ _ _ h1 h2 k1.grouped⟩, ?_⟩
    rw [leaves_last, k2, ← List.append_assoc, ← leaves_last r]
    rfl

theorem RightGrouped.dangles_last {l : List (Nat × Nat)} {e r : Nat} {cs : List (Tree T)} {x : Tree T} (h : Dangles l idx e (.node r (cs ++ [x]))) :
    Dangles l idx e x ∨ ∃ i t, cs = [.leaf i t] ∧ (idx t, e) ∈ l := by
  generalize hf : Tree.node r (cs ++ [x]) = f at h
  cases h with
  | here r' i t y h =>
    simp only [Tree.node.injEq] at hf
    have h2 : cs ++ [x] = [.leaf i t] ++ [y] := hf.2
    obtain ⟨rfl, h3⟩ := List.append_inj' h2 rfl
    exact .inr ⟨i, t, rfl, h⟩
  | last r' cs' y h =>
    simp only [Tree.node.injEq] at hf
    obtain ⟨_, h3⟩ := List.append_inj' hf.2 rfl
    simp at h3
    rw [h3]
    exact .inl h

/-- An `else` is given to the nearest `if`. -/
theorem GTree.attach (hg : OpGram o g) {j : Nat} {u : T} {y : Tree T} (hu : IsLeaf g idx input (idx u) j u) (hy : GTree o g idx input y) {x : Tree T}
    (hx : GTree o g idx input x) (hd : Dangles o.ites idx (idx u) x) :
    ∃ f, GTree o g idx input f ∧ leaves [f] = leaves [x] ++ (leaves [.leaf j u] ++ leaves [y]) := by
  obtain ⟨hb, hgr⟩ := hx
  induction hgr with
  | atom r i t => exact absurd hd (RightGrouped.closed_not (.atom r i t) ⟨r, [], i, t, rfl⟩)
  | post r x i t h1 h2 => exact absurd hd (RightGrouped.closed_not (.post r x i t h1 h2) ⟨r, [x], i, t, rfl⟩)
  | par r i t x j u h1 => exact absurd hd (RightGrouped.closed_not (.par r i t x j u h1) ⟨r, [.leaf i t, x], j, u, rfl⟩)
  | pre r i t x h1 ih =>
    have hc := GTree.child_last hg (cs := [.leaf i t]) hb h1
    by_cases hdx : Dangles o.ites idx (idx u) x
    · obtain ⟨f, k1, k2⟩ := ih hdx hc.built
      refine ⟨.node r ([.leaf i t] ++ [f]), ⟨GTree.last hg (cs := [.leaf i t]) hb hc k1.built, .pre _ _ _ _ k1.grouped⟩, ?_⟩
      rw [leaves_last, k2, ← List.append_assoc, ← leaves_last r]
      rfl
    · rcases RightGrouped.dangles_last (cs := [.leaf i t]) hd with h | ⟨i', t', h2, h3⟩
      · exact absurd h hdx
      · simp at h2
        obtain ⟨rfl, rfl⟩ := h2
        obtain ⟨r', hr'⟩ := hg.index (.ite _ _ h3)
        obtain ⟨_, rule, m1, m2, m3, m4⟩ := hg.built_node hb
        obtain ⟨X, us', e1, b1, b2⟩ := m4.cons_inv
        have := b1.leaf_inv
        subst this
        refine ⟨.node r' [.leaf i t, x, .leaf j u, y], ⟨hg.node hr' ?_, .ite _ _ _ _ _ _ _ h1 hdx hy.grouped⟩, ?_⟩
        · exact b1.cons (hc.built.cons (hu.cons hy.built))
        · simp [leaves, Tree.leaves]
  | bin r x i t y h1 h2 h3 _ ih =>
    have hc := GTree.child_last hg (cs := [x, .leaf i t]) hb h3
    rcases RightGrouped.dangles_last (cs := [x, .leaf i t]) hd with h | ⟨i', t', h2, h3⟩
    · obtain ⟨f, k1, k2⟩ := ih h hc.built
      refine ⟨.node r ([x, .leaf i t] ++ [f]), ⟨GTree.last hg (cs := [x, .leaf i t]) hb hc k1.built, .bin _ _ _ _ _ h1 h2 k1.grouped⟩, ?_⟩
      rw [leaves_last, k2, ← List.append_assoc, ← leaves_last r]
      rfl
    · simp at h2
  | ite r i t x j u y h1 h2 h3 _ ih =>
    have hc := GTree.child_last hg (cs := [.leaf i t, x, .leaf j u]) hb h3
    rcases RightGrouped.dangles_last (cs := [.leaf i t, x, .leaf j u]) hd with h | ⟨i', t', h2, h3⟩
    · obtain ⟨f, k1, k2⟩ := ih h hc.built
      refine ⟨.node r ([.leaf i t, x, .leaf j u] ++ [f]), ⟨GTree.last hg (cs := [.leaf i t, x, .leaf j u]) hb hc k1.built, .ite _ _ _ _ _ _ _ h1 h2 k1.grouped⟩, ?_⟩
      rw [leaves_last, k2, ← List.append_assoc, ← leaves_last r]
      rfl
    · simp at h2

theorem built_tk {R : List PRule} {k : Nat} {us : List Sym} {fs : List (Tree T)} (h : Built R idx input (tk k :: us) fs) :
    ∃ i t fs', fs = .leaf i t :: fs' ∧ k = idx t ∧ Built R idx input [tk k] [.leaf i t] ∧ Built R idx input us fs' := by
  generalize hX : tk k = X at h
  cases h with
  | leaf i t us fs h h' =>
    simp at hX
    exact ⟨i, t, fs, rfl, hX, .leaf _ _ _ _ h .nil, h'⟩
  | err => cases hX
  | node => cases hX

theorem built_nt {R : List PRule} {n : Nat} {us : List Sym} {fs : List (Tree T)} (h : Built R idx input (.nt n :: us) fs) :
    ∃ r cs fs', fs = .node r cs :: fs' ∧ Built R idx input [.nt n] [.node r cs] ∧ Built R idx input us fs' := by
  cases h with
  | node r rule cs us fs h1 h2 h' => exact ⟨r, cs, fs, rfl, .node _ _ _ _ _ h1 h2 .nil, h'⟩

theorem built_nil {R : List PRule} {fs : List (Tree T)} (h : Built R idx input [] fs) : fs = [] := by cases h; rfl

/-- Children. -/
def Kids (o : Ops) (idx : T → Nat) (fs : List (Tree T)) : Prop := ∀ f ∈ fs, (∃ r cs, f = .node r cs) → RightGrouped o.ites idx f

theorem regroup (hg : OpGram o g) {us : List Sym} {fs : List (Tree T)} (h : Built g.rules idx input us fs) :
    ∃ fs', Built g.rules idx input us fs' ∧ leaves fs' = leaves fs ∧ Kids o idx fs' := by
  induction h with
  | nil => exact ⟨[], .nil, rfl, fun f h => by cases h⟩
  | leaf i t us fs h _ ih =>
    obtain ⟨fs', h1, h2, h3⟩ := ih
    refine ⟨.leaf i t :: fs', .leaf _ _ _ _ h h1, by simp [leaves, h2], ?_⟩
    intro f hf
    rcases List.mem_cons.1 hf with rfl | hf
    · rintro ⟨r, cs, h⟩; cases h
    · exact h3 f hf
  | err lo l us fs ha hb _ ih =>
    obtain ⟨fs', h1, h2, h3⟩ := ih
    refine ⟨.err lo l :: fs', .err _ _ _ _ ha hb h1, by simp [leaves, h2], ?_⟩
    intro f hf
    rcases List.mem_cons.1 hf with rfl | hf
    · rintro ⟨r, cs, h⟩; cases h
    · exact h3 f hf
  | node r rule cs us fs hr _ _ ih1 ih2 =>
    obtain ⟨cs', h1, h2, h3⟩ := ih1
    obtain ⟨fs', k1, k2, k3⟩ := ih2
    obtain ⟨hlhs, hop⟩ := (hg rule).1 (List.mem_of_getElem? hr)
    have key : ∃ f, GTree o g idx input f ∧ leaves [f] = leaves cs' := by
      obtain ⟨lhs, rhs⟩ := rule
      simp only at hlhs hop h1
      cases hop with
      | atom k hk =>
        obtain ⟨i, t, l1, rfl, rfl, b1, b2⟩ := built_tk h1
        rw [built_nil b2] at h1 ⊢
        exact ⟨.node r [.leaf i t], ⟨hg.node hr h1, .atom _ _ _⟩, by simp [leaves, Tree.leaves]⟩
      | pre k hk =>
        obtain ⟨i, t, l1, rfl, rfl, b1, b2⟩ := built_tk h1
        obtain ⟨r1, c1, l2, rfl, b3, b4⟩ := built_nt b2
        rw [built_nil b4] at h1 h3 ⊢
        exact ⟨.node r _, ⟨hg.node hr h1, .pre _ _ _ _ (h3 _ (by simp) ⟨_, _, rfl⟩)⟩, by simp [leaves, Tree.leaves]⟩
      | post k hk =>
        obtain ⟨r1, c1, l2, rfl, b3, b4⟩ := built_nt h1
        obtain ⟨i, t, l1, rfl, rfl, b1, b2⟩ := built_tk b4
        rw [built_nil b2] at h1 h3 ⊢
        have := GTree.extend hg (suf := leaves [.leaf i t]) (fun x hx hc => by
          refine ⟨.node r [x, .leaf i t], ⟨hg.node hr (hx.built.cons b1), .post _ _ _ _ hx.grouped hc⟩, by simp [leaves, Tree.leaves]⟩) ⟨b3, h3 _ (by simp) ⟨_, _, rfl⟩⟩
        obtain ⟨f, m1, m2⟩ := this
        exact ⟨f, m1, by rw [m2]; simp [leaves, Tree.leaves]⟩
      | bin k hk =>
        obtain ⟨r1, c1, l2, rfl, b3, b4⟩ := built_nt h1
        obtain ⟨i, t, l1, rfl, rfl, b1, b2⟩ := built_tk b4
        obtain ⟨r2, c2, l3, rfl, b5, b6⟩ := built_nt b2
        rw [built_nil b6] at h1 h3 ⊢
        have hy : RightGrouped o.ites idx (.node r2 c2) := h3 _ (by simp) ⟨_, _, rfl⟩
        have := GTree.extend hg (suf := leaves [.leaf i t, .node r2 c2]) (fun x hx hc => by
          refine ⟨.node r [x, .leaf i t, .node r2 c2], ⟨hg.node hr (hx.built.cons (b1.cons b5)), .bin _ _ _ _ _ hx.grouped hc hy⟩, by simp [leaves, Tree.leaves]⟩)
          ⟨b3, h3 _ (by simp) ⟨_, _, rfl⟩⟩
        obtain ⟨f, m1, m2⟩ := this
        exact ⟨f, m1, by rw [m2]; simp [leaves, Tree.leaves]⟩
      | par k c hk =>
        obtain ⟨i, t, l1, rfl, rfl, b1, b2⟩ := built_tk h1
        obtain ⟨r1, c1, l2, rfl, b3, b4⟩ := built_nt b2
        obtain ⟨j, u, l3, rfl, rfl, b5, b6⟩ := built_tk b4
        rw [built_nil b6] at h1 h3 ⊢
        exact ⟨.node r _, ⟨hg.node hr h1, .par _ _ _ _ _ _ (h3 _ (by simp) ⟨_, _, rfl⟩)⟩, by simp [leaves, Tree.leaves]⟩
      | cond k e hk =>
        obtain ⟨i, t, l1, rfl, rfl, b1, b2⟩ := built_tk h1
        obtain ⟨r1, c1, l2, rfl, b3, b4⟩ := built_nt b2
        rw [built_nil b4] at h1 h3 ⊢
        exact ⟨.node r _, ⟨hg.node hr h1, .pre _ _ _ _ (h3 _ (by simp) ⟨_, _, rfl⟩)⟩, by simp [leaves, Tree.leaves]⟩
      | ite k e hk =>
        obtain ⟨i, t, l1, rfl, rfl, b1, b2⟩ := built_tk h1
        obtain ⟨r1, c1, l2, rfl, b3, b4⟩ := built_nt b2
        obtain ⟨j, u, l3, rfl, rfl, b5, b6⟩ := built_tk b4
        obtain ⟨r2, c2, l4, rfl, b7, b8⟩ := built_nt b6
        rw [built_nil b8] at h1 h3 ⊢
        have hx : RightGrouped o.ites idx (.node r1 c1) := h3 _ (by simp) ⟨_, _, rfl⟩
        have hy : RightGrouped o.ites idx (.node r2 c2) := h3 _ (by simp) ⟨_, _, rfl⟩
        by_cases hd : Dangles o.ites idx (idx u) (.node r1 c1)
        · obtain ⟨f, m1, m2⟩ := GTree.attach hg b5 ⟨b7, hy⟩ ⟨b3, hx⟩ hd
          obtain ⟨r', hr'⟩ := hg.index (.cond _ _ hk)
          refine ⟨.node r' [.leaf i t, f], ⟨hg.node hr' (b1.cons m1.built), .pre _ _ _ _ m1.grouped⟩, ?_⟩
          have : leaves [.node r' [.leaf i t, f]] = leaves [.leaf i t] ++ leaves [f] := by simp [leaves, Tree.leaves]
          rw [this, m2]
          simp [leaves, Tree.leaves]
        · exact ⟨.node r _, ⟨hg.node hr h1, .ite _ _ _ _ _ _ _ hx hd hy⟩, by simp [leaves, Tree.leaves]⟩
    obtain ⟨f, m1, m2⟩ := key
    refine ⟨f :: fs', ?_, ?_, ?_⟩
    · rw [hlhs]
      exact m1.built.cons k1
    · have : leaves (f :: fs') = leaves [f] ++ leaves fs' := by simp [leaves]
      rw [this, m2, h2, k2]
      simp [leaves, Tree.leaves]
    · intro f' hf
      rcases List.mem_cons.1 hf with rfl | hf
      · intro _; exact m1.grouped
      · exact k3 f' hf

theorem OpGram.noError (hg : OpGram o g) : g.NoError := by
  intro r hr hm
  have := ((hg r).1 hr).2
  generalize r.rhs = rhs at this hm
  cases this <;> simp at hm

/-- Every sentence has a grouped tree. -/
theorem op_exists (hg : OpGram o g) {f : Tree T} (hf : IsTree g.rules g.start idx input f) :
    ∃ f, IsTree g.rules g.start idx input f ∧ RightGrouped o.ites idx f := by
  obtain ⟨fs', h1, h2, h3⟩ := regroup hg hf.1
  obtain ⟨r, cs, l, rfl, b1, b2⟩ := built_nt h1
  rw [built_nil b2] at h1 h2 h3
  exact ⟨_, ⟨h1, h1.no_errs (by simp) hg.noError, by rw [h2]; exact hf.2.2⟩, h3 _ (by simp) ⟨_, _, rfl⟩⟩

end Verif.Par
