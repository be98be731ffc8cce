import Verif.Par.SimProof

/-!
# Sentences are parsed: from derivation trees to parse results
-/

namespace Verif.Par

variable {N T E : Type} {p : Parser N T E} {rules : List (Rule N T E)} {idx : T → Nat} {input : List T} {start fresh : Nat}

theorem noConflict_of_makes {o : Seeds} (ho : o.Fair) (hok : (gram rules start).Ok) (h : MakesParser o rules start p []) :
    ∃ fresh, Ctx p rules start fresh ∧ NoConflict p rules start fresh := by
  obtain ⟨⟨fuel, h1, h3⟩, d, h2⟩ := h
  obtain ⟨fresh, hx⟩ : ∃ fresh, fresh = freshSym (gram rules start).rules := ⟨_, rfl⟩
  have hs := (new_spec ho hok fuel).1 _ _ h1
  have hl : (gram rules start).rules.length = rules.length := by simp [gram]
  have hctx : Ctx p rules start fresh := by
    refine ⟨hok, ?_, ?_, ⟨_, h2⟩⟩
    · rintro ⟨r, hr, h⟩
      have := freshSym_spec (gram rules start).rules r hr
      rw [hx] at h
      rcases h with h | h
      · exact this.1 h
      · exact this.2 h
    · rw [← hl, hx]
      exact hs.1
  refine ⟨fresh, hctx, ?_⟩
  intro γ q r a hq hr hcomp
  have hw := hs.2.1
  rw [hl] at hw
  refine no_warn_reduce Ctx.start_rule hctx.canon (r := r) ?_ hq hr hcomp
  rw [hx]
  exact hw

theorem Ctx.fresh_ne (hx : Ctx p rules start fresh) (h : ∃ r ∈ (gram rules start).rules, r.lhs = start) : fresh ≠ start := by
  rintro rfl
  obtain ⟨r, hr, h⟩ := h
  exact hx.unused ⟨r, hr, Or.inl h⟩

theorem Built.head_rule {R : List PRule} {f : Tree T} (h : Built R idx input [.nt start] [f]) :
    ∃ r cs rule, f = .node r cs ∧ R[r]? = some rule ∧ rule.lhs = start ∧ Built R idx input rule.rhs cs := by
  cases h with
  | node r rule cs _ _ h1 h2 h3 => exact ⟨r, cs, rule, rfl, h1, rfl, h2⟩

theorem fill_log (c : Cfg N T) : (fill idx c).log = c.log := by
  unfold fill
  split
  · rfl
  · split <;> rfl

theorem fill_state (c : Cfg N T) : (fill idx c).state = c.state := by
  unfold fill
  split
  · rfl
  · split <;> rfl

theorem Ctx.accepts : Accepts ((gram rules start).aug fresh) rules.length [.nt start] := by
  have := Valid.start (R := (gram rules start).aug fresh) (s := rules.length) |>.advances Ctx.start_rule
  exact ⟨.eoi, _, Ctx.start_rule, this⟩

/-- The outcome of a parse of a sentence, if the reductions of one of its trees are done. -/
theorem followQ {Q : List Sym → Nat → Term → Prop} {Cy : Prop} (hx : Ctx p rules start fresh) (hnw : Done p rules start fresh Q)
    (hcy : ∀ r, r ≠ rules.length → Complete ((gram rules start).aug fresh) rules.length [.nt start] r .eoi → Q [.nt start] r .eoi → Cy) {f : Tree T}
    (hf : IsTree (rules.map Rule.plain) start idx input f) (hal : Along (rules.map Rule.plain) Q idx input [] 0 [f]) {lg x} (hev : Evals rules [f] lg x) :
    (∃ v c, x = .ok [.nt v] ∧ ParsesTo idx p input (.ok v) c ∧ c.log.reverse = lg) ∨
    (∃ e c, x = .error e ∧ ParsesTo idx p input (.error (.reducer e)) c ∧ c.log.reverse = lg) ∨
    (Cy ∧ ∃ v c f', ParsesTo idx p input (.ok v) c ∧ IsTree (rules.map Rule.plain) start idx input f' ∧
      Evals rules [f'] c.log.reverse (.ok [.nt v])) := by
  obtain ⟨hb, he, hl⟩ := hf
  have hs := sim (N := N) hx hnw hcy hb he (c := Cfg.init p input) (j := 0) (m := input.length) (vs := []) (b := .eoi) (ρ := []) hal .init rfl
    .start Ctx.start_rule (by simp) (Nat.zero_le _) (Nat.le_refl _) (by simpa using hl) (Or.inr ⟨rfl, rfl⟩) (.refl _) hev
  cases hs with
  | ok as n c' h1 h2 =>
    left
    simp only [List.nil_append] at h2
    obtain ⟨a, m1, m2, m3, m4⟩ := step_cases hx h2
    have ha : a = .eoi := m1.unique (Or.inr ⟨rfl, rfl⟩)
    subst ha
    have hact := (hx.canon.accept _ _ .eoi h2.seg.walk).2 ⟨rfl, Ctx.accepts⟩
    rcases m4 with ⟨t2, s2, n1, _⟩ | ⟨r2, n1, n2⟩ | ⟨v, n1, n2, n3, n4, ⟨f, n5⟩, n6, n7⟩ | ⟨n1, _⟩
    · cases n1
    · rw [hact] at n1; cases n1
    · refine ⟨v, fill idx c', by rw [n6], ⟨n + 1, ?_⟩, ?_⟩
      · rw [run_add, h1]
        simp only [run, n7]
      · rw [(m2.clean he).2.1]
    · rw [hact] at n1; cases n1
  | error e n c' h1 h2 => exact Or.inr (Or.inl ⟨e, c', rfl, ⟨n, h1⟩, h2⟩)
  | early x n v c' f' lg' h1 h2 h3 h4 =>
    right; right
    obtain ⟨h5, h6, _⟩ := h3.clean h4
    have hel := h3.seg.elems
    refine ⟨h1, v, c', f', ⟨n, h2⟩, ⟨hel.built ?_, h4, by rw [h5, List.take_length]⟩, ?_⟩
    · intro lo hi hm
      exact absurd h4 (hel.errs_ne hm)
    · rw [← h6]
      exact hel.evals

/-- The outcome of a parse of a sentence. -/
theorem follow (hx : Ctx p rules start fresh) (hnw : NoConflict p rules start fresh) {f : Tree T}
    (hf : IsTree (rules.map Rule.plain) start idx input f) {lg x} (hev : Evals rules [f] lg x) :
    (∃ v c, x = .ok [.nt v] ∧ ParsesTo idx p input (.ok v) c ∧ c.log.reverse = lg) ∨
    (∃ e c, x = .error e ∧ ParsesTo idx p input (.error (.reducer e)) c ∧ c.log.reverse = lg) ∨
    ((gram rules start).Cyclic ∧ ∃ v c f', ParsesTo idx p input (.ok v) c ∧ IsTree (rules.map Rule.plain) start idx input f' ∧
      Evals rules [f'] c.log.reverse (.ok [.nt v])) := by
  have hne : fresh ≠ start := by
    obtain ⟨r, cs, rule, _, h1, h2, _⟩ := hf.1.head_rule
    exact hx.fresh_ne ⟨rule, List.mem_of_getElem? h1, h2⟩
  exact followQ hx (fun γ q r a h1 h2 h3 _ => hnw γ q r a h1 h2 h3) (fun r hr hc _ => hx.cyclic hne hr hc) hf (hf.1.along_true hf.2.1 _ _) hev

theorem ParsesTo.unique {r r' : Except (PErr E) N} {c c' : Cfg N T} (h : ParsesTo idx p input r c) (h' : ParsesTo idx p input r' c') :
    r = r' ∧ c = c' := by
  obtain ⟨n, h⟩ := h
  obtain ⟨m, h'⟩ := h'
  have h1 : run idx p (n + m) (Cfg.init p input) = .done r c := by rw [run_add, h]
  have h2 : run idx p (m + n) (Cfg.init p input) = .done r' c' := by rw [run_add, h']
  rw [Nat.add_comm, h1] at h2
  cases h2
  exact ⟨rfl, rfl⟩

/-! ## Derivations and trees -/

theorem Built.of_gen {R : List PRule} {us w : List Sym} (h : Gen R us w) : ∀ pre l post, input = pre ++ l ++ post →
    w = l.map (fun t => .tm (.sym (idx t))) →
    ∃ fs, Built R idx input us fs ∧ errs fs = [] ∧ leaves fs = l.zipIdx pre.length := by
  induction h with
  | nil =>
    intro pre l post _ hw
    cases l with
    | nil => exact ⟨[], .nil, rfl, rfl⟩
    | cons t l => cases hw
  | keep X us w _ ih =>
    intro pre l post hi hw
    cases l with
    | nil => cases hw
    | cons t l =>
      simp only [List.map_cons, List.cons.injEq] at hw
      obtain ⟨rfl, hw⟩ := hw
      obtain ⟨fs, h1, h2, h3⟩ := ih (pre ++ [t]) l post (by simp [hi]) hw
      refine ⟨.leaf pre.length t :: fs, .leaf _ _ _ _ (by simp [hi]) h1, by simpa [errs, Tree.errs] using h2, ?_⟩
      simp [leaves, Tree.leaves, h3, List.zipIdx_cons]
  | expand r us u v hr _ _ ih1 ih2 =>
    intro pre l post hi hw
    obtain ⟨l1, l2, rfl, h1, h2⟩ := List.map_eq_append_iff.1 hw.symm
    obtain ⟨cs, k1, k2, k3⟩ := ih1 pre l1 (l2 ++ post) (by simp [hi]) h1.symm
    obtain ⟨fs, m1, m2, m3⟩ := ih2 (pre ++ l1) l2 post (by simp [hi]) h2.symm
    obtain ⟨n, hn⟩ := List.getElem?_of_mem hr
    refine ⟨.node n cs :: fs, .node _ _ _ _ _ hn k1 m1, by simp [errs, Tree.errs, k2, m2], ?_⟩
    simp [leaves, Tree.leaves, k3, m3, List.zipIdx_append]

/-- Sentences are what has a derivation tree. -/
theorem sentence_iff {g : Gram} : g.Sentence (input.map idx) ↔ ∃ f, IsTree g.rules g.start idx input f := by
  have hm : ((input.zipIdx).map fun x => Sym.tm (.sym (idx x.1))) = (input.map idx).map fun t => .tm (.sym t) := by
    rw [List.map_map]
    have : (fun x : T × Nat => Sym.tm (.sym (idx x.1))) = (fun t => Sym.tm (.sym (idx t))) ∘ Prod.fst := rfl
    rw [this, ← List.map_map, List.zipIdx_map_fst]
    rfl
  constructor
  · intro h
    obtain ⟨R, st⟩ := g
    obtain ⟨fs, h1, h2, h3⟩ := Built.of_gen (idx := idx) (input := input) (gen_iff.2 h) [] input [] (by simp) (by simp)
    cases h1 with
    | node r rule cs _ fs k1 k2 k3 =>
      cases k3
      exact ⟨_, .node _ _ _ _ _ k1 k2 .nil, h2, h3⟩
  · rintro ⟨f, h1, h2, h3⟩
    have := h1.gen h2
    rw [h3, hm] at this
    exact gen_iff.1 this

/-! ## Callbacks that build the tree -/

/-- The tree in an argument. -/
def Arg.tree : Arg (Tree T) T → Tree T
  | .nt f => f
  | .tok t => .leaf 0 t
  | .err l => .err 0 l

def treeRules (R : List PRule) : List (Rule (Tree T) T Unit) :=
  R.zipIdx.map fun x => ⟨x.1.lhs, x.1.rhs, fun as => .ok (.node x.2 (as.map Arg.tree))⟩

theorem treeRules_plain (R : List PRule) : (treeRules (T := T) R).map Rule.plain = R := by
  unfold treeRules
  rw [List.map_map]
  exact List.zipIdx_map_fst 0 R

theorem treeRules_get {R : List PRule} {r : Nat} {rule : PRule} (h : R[r]? = some rule) :
    (treeRules (T := T) R)[r]? = some ⟨rule.lhs, rule.rhs, fun as => .ok (.node r (as.map Arg.tree))⟩ := by
  simp [treeRules, h]

mutual
/-- Forget positions. -/
def Tree.erase : Tree T → Tree T
  | .leaf _ t => .leaf 0 t
  | .err _ l => .err 0 l
  | .node r cs => .node r (erases cs)
def erases : List (Tree T) → List (Tree T)
  | [] => []
  | f :: fs => f.erase :: erases fs
end

theorem Built.treeEvals {R : List PRule} {us fs} (h : Built R idx input us fs) :
    ∃ lg as, Evals (treeRules R) fs lg (.ok as) ∧ as.map Arg.tree = erases fs := by
  induction h with
  | nil => exact ⟨_, _, .nil, rfl⟩
  | leaf i t us fs _ _ ih =>
    obtain ⟨lg, as, h1, h2⟩ := ih
    exact ⟨_, _, .leaf _ _ _ _ _ h1, by simp [erases, Tree.erase, h2, Arg.tree]⟩
  | err lo l us fs _ _ _ ih =>
    obtain ⟨lg, as, h1, h2⟩ := ih
    exact ⟨_, _, .err _ _ _ _ _ h1, by simp [erases, Tree.erase, h2, Arg.tree]⟩
  | node r rule cs us fs h _ _ ih1 ih2 =>
    obtain ⟨lg1, as1, h1, h2⟩ := ih1
    obtain ⟨lg2, as2, h3, h4⟩ := ih2
    exact ⟨_, _, .node _ _ _ _ _ _ _ _ _ (treeRules_get h) h1 rfl h3, by simp [erases, Tree.erase, h2, h4, Arg.tree]⟩

mutual
theorem Tree.erase_leaves (f : Tree T) : f.erase.leaves.map Prod.fst = f.leaves.map Prod.fst := by
  cases f with
  | leaf i t => rfl
  | err lo l => rfl
  | node r cs => exact erases_leaves cs
theorem erases_leaves (fs : List (Tree T)) : (leaves (erases fs)).map Prod.fst = (leaves fs).map Prod.fst := by
  cases fs with
  | nil => rfl
  | cons f fs => simp [leaves, erases, Tree.erase_leaves f, erases_leaves fs]
end

mutual
theorem Tree.erase_inj (f g : Tree T) (h : f.erase = g.erase) (hl : f.leaves = g.leaves) (he : f.errs = []) : f = g := by
  cases f with
  | leaf i t =>
    cases g with
    | leaf j u => simp [Tree.leaves] at hl; rw [hl.1, hl.2]
    | err => cases h
    | node => cases h
  | err lo l => simp [Tree.errs] at he
  | node r cs =>
    cases g with
    | leaf j u => cases h
    | err => cases h
    | node r' ds =>
      simp only [Tree.erase, Tree.node.injEq] at h
      rw [h.1, erases_inj cs ds h.2 hl he]
theorem erases_inj (fs gs : List (Tree T)) (h : erases fs = erases gs) (hl : leaves fs = leaves gs) (he : errs fs = []) : fs = gs := by
  cases fs with
  | nil =>
    cases gs with
    | nil => rfl
    | cons g gs => cases h
  | cons f fs =>
    cases gs with
    | nil => cases h
    | cons g gs =>
      simp only [erases, List.cons.injEq] at h
      simp only [leaves] at hl
      simp only [errs, List.append_eq_nil_iff] at he
      have hlen : f.leaves.length = g.leaves.length := by
        have h1 := congrArg List.length (Tree.erase_leaves f)
        have h2 := congrArg List.length (Tree.erase_leaves g)
        rw [h.1] at h1
        simp at h1 h2
        omega
      obtain ⟨k1, k2⟩ := List.append_inj hl hlen
      rw [Tree.erase_inj f g h.1 k1 he.1, erases_inj fs gs h.2 k2 he.2]
end

theorem tree_unique {o : Seeds} (ho : o.Fair) {g : Gram} (hok : g.Ok) {tab : Tables} (h : NewGives o g (.ok (tab, []))) (hc : ¬ g.Cyclic)
    {f f' : Tree T} (hf : IsTree g.rules g.start idx input f) (hf' : IsTree g.rules g.start idx input f') : f = f' := by
  have hg : gram (treeRules (T := T) g.rules) g.start = g := by simp only [gram, treeRules_plain]
  let p : Parser (Tree T) T Unit := ⟨treeRules g.rules ++ [⟨freshSym ((treeRules (T := T) g.rules).map Rule.plain), [.nt g.start], fun _ => .error ()⟩], tab⟩
  have hp : MakesParser o (treeRules (T := T) g.rules) g.start p [] := ⟨by rw [hg]; exact h, _, rfl⟩
  obtain ⟨fresh, hx, hnw⟩ := noConflict_of_makes ho (by rw [hg]; exact hok) hp
  have key : ∀ f, IsTree g.rules g.start idx input f → ∃ v c, ParsesTo idx p input (.ok v) c ∧ v = f.erase := by
    intro f hf
    obtain ⟨lg, as, k1, k2⟩ := hf.1.treeEvals
    rcases follow (idx := idx) (input := input) hx hnw (f := f) (by rw [treeRules_plain]; exact hf) k1 with ⟨v, c, m1, m2, _⟩ | ⟨e, c, m1, _⟩ | ⟨m1, _⟩
    · cases m1
      refine ⟨v, c, m2, ?_⟩
      simpa [erases, Arg.tree] using k2
    · cases m1
    · rw [hg] at m1; exact absurd m1 hc
  obtain ⟨v, c, h1, h2⟩ := key f hf
  obtain ⟨v', c', h1', h2'⟩ := key f' hf'
  have := (h1.unique h1').1
  cases this
  have h3 := h2.symm.trans h2'
  have := erases_inj [f] [f'] (by simp [erases, h3]) (by rw [hf.2.2, hf'.2.2]) hf.2.1
  simpa using this

end Verif.Par
