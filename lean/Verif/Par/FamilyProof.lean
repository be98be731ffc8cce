import Verif.Par.Family
import Verif.Par.LL1Check
import Verif.Par.ChosenProof

/-!
# LR(0), SLR(1), LALR(1) and LR(1) grammars: proofs
-/

namespace Verif.Par

variable {g : Gram}

theorem Valid.dots {R : List PRule} {s : Nat} {γ : List Sym} {i : Item} (h : Valid R s γ i) : Dots R s γ i.rule i.pos := by
  induction h with
  | start => exact .start
  | advance γ i r X _ h1 h2 ih => exact .advance _ _ _ r X ih h1 h2
  | expand γ i r B j r' b ρ _ h1 h2 h3 h4 _ ih => exact .expand _ _ _ r B j r' ih h1 h2 h3 h4

theorem Complete.ends {R : List PRule} {s : Nat} {γ : List Sym} {r : Nat} {a : Term} (h : Complete R s γ r a) : Ends R s γ r := by
  obtain ⟨rule, h1, h2⟩ := h
  exact ⟨rule, h1, h2.dots⟩

theorem Expects.shifts {R : List PRule} {s : Nat} {γ : List Sym} {a : Term} (h : Expects R s γ (.tm a)) : Shifts R s γ a := by
  obtain ⟨i, rule, h1, h2, h3⟩ := h
  exact .inl ⟨_, _, rule, h1.dots, h2, h3⟩

theorem freshSym_ne (hst : ∃ r ∈ g.rules, r.lhs = g.start) : freshSym g.rules ≠ g.start := by
  obtain ⟨r, hr, e⟩ := hst
  intro h
  exact freshSym_unused g ⟨r, hr, .inl (by rw [e, h])⟩

/-! ## One is contained in the other -/

theorem Valid.met {R : List PRule} {s : Nat} {r0 : PRule} (hs : R[s]? = some r0) {γ : List Sym} {i : Item} (h : Valid R s γ i) :
    ∃ rule y, R[i.rule]? = some rule ∧ Met R r0 rule.lhs (.tm i.la :: y) := by
  induction h with
  | start => exact ⟨r0, [], hs, [], .refl _⟩
  | advance γ i r X _ h1 h2 ih => exact ih
  | expand γ i r B j r' b ρ _ h1 h2 h3 h4 h5 ih =>
    obtain ⟨rule, y, k1, k2⟩ := ih
    rw [h1] at k1
    cases k1
    obtain ⟨x, hx⟩ := k2.down (List.mem_of_getElem? h1) (take_split h2)
    subst h4
    refine ⟨r', ρ ++ y, h3, x, hx.trans ?_⟩
    have := Gen.append (Gen.refl (R := R) (x ++ [.nt r'.lhs])) (Gen.append (gen_iff.2 h5) (Gen.refl y))
    simpa using this

theorem Complete.follow (hst : ∃ r ∈ g.rules, r.lhs = g.start) {γ : List Sym} {r : Nat} {a : Term} (hr : r ≠ g.rules.length)
    (h : Complete g.full g.rules.length γ r a) : ∃ rule, g.rules[r]? = some rule ∧ g.Follow rule.lhs a := by
  obtain ⟨rule, h1, h2⟩ := h
  obtain ⟨rule', y, k1, k2⟩ := h2.met (r0 := ⟨freshSym g.rules, [.nt g.start]⟩) Gram.aug_start
  simp only at k1 k2
  obtain rfl := Option.some.inj (h1.symm.trans k1)
  have h3 := Gram.aug_get' h1 hr
  refine ⟨rule, h3, ?_⟩
  have hn : rule.lhs ≠ freshSym g.rules := fun e => freshSym_unused g ⟨rule, List.mem_of_getElem? h3, .inl e⟩
  obtain ⟨x, y', e, k3⟩ := g.met (freshSym_unused g) (freshSym_ne hst) hn k2
  exact ⟨x, y', y, gen_iff.1 k3, by rw [← e]; exact .refl _⟩

theorem Doubt.mono {R : List PRule} {s : Nat} {LA LA' : List Sym → Nat → Term → Prop} (h : ∀ γ r a, r ≠ s → LA γ r a → LA' γ r a)
    (hd : Doubt R s LA) : Doubt R s LA' := by
  obtain ⟨γ, a, r, h1, h2, h3, h4⟩ := hd
  refine ⟨γ, a, r, h1, h2, h γ r a h1 h3, ?_⟩
  rcases h4 with h4 | ⟨r', k1, k2, k3, k4⟩
  · exact .inl h4
  · exact .inr ⟨r', k1, k2, k3, h γ r' a k1 k4⟩

theorem Gram.LR0.slr1 (h : g.LR0) : g.SLR1 := fun hd => h (hd.mono fun _ _ _ _ _ => trivial)

theorem Gram.SLR1.lalr1 (hst : ∃ r ∈ g.rules, r.lhs = g.start) (h : g.SLR1) : g.LALR1 :=
  fun hd => h (hd.mono fun _ _ _ hr ⟨_, _, hc⟩ => hc.follow hst hr)

theorem Gram.LALR1.lr1 (h : g.LALR1) : g.LR1 := by
  rintro ⟨γ, a, r, h1, h2, h3⟩
  refine h ⟨γ, a, r, h1, h2.ends, ⟨γ, fun _ _ => Iff.rfl, h2⟩, ?_⟩
  rcases h3 with h3 | ⟨rfl, h3⟩ | ⟨r', k1, k2, k3⟩
  · exact .inl h3.shifts
  · obtain ⟨b, h3⟩ := h3
    exact .inl (.inr ⟨rfl, h3.ends⟩)
  · exact .inr ⟨r', k1, k2, k3.ends, γ, fun _ _ => Iff.rfl, k3⟩

theorem Gram.LR1.no_clash (h : g.LR1) : ¬ Clash g.full g.rules.length := by
  rintro ⟨γ, a, r, h1, h2, h3⟩
  refine h ⟨γ, a, r, h1, h2, ?_⟩
  rcases h3 with h3 | h3
  · exact .inl h3
  · exact .inr (.inr h3)

/-! ## Derivations from the start symbol to itself -/

theorem treeRules_gram (T : Type) (g : Gram) : gram (treeRules (T := T) g.rules) g.start = g := by simp only [gram, treeRules_plain]

theorem treeRules_length (T : Type) (g : Gram) : (treeRules (T := T) g.rules).length = g.rules.length := by
  have := congrArg List.length (treeRules_plain (T := T) g.rules)
  simpa using this

theorem treeParser_ctx {o : Seeds} (ho : o.Fair) (hok : g.Ok) {tab : Tables} {ws : List Warning} (h : NewGives o g (.ok (tab, ws))) (T : Type) :
    Ctx (treeParser T g tab) (treeRules (T := T) g.rules) g.start (freshSym g.rules) := by
  obtain ⟨fuel, h1, _⟩ := h
  refine ⟨by rw [treeRules_gram]; exact hok, by rw [treeRules_gram]; exact freshSym_unused g, ?_, ⟨_, rfl⟩⟩
  rw [treeRules_gram, treeRules_length]
  exact ((new_spec ho hok fuel).1 _ _ h1).1

/-- If a rule is complete where the input may be over, the start symbol derives itself. -/
theorem cyclic_of_complete {o : Seeds} (ho : o.Fair) (hok : g.Ok) {tab : Tables} {ws : List Warning} (h : NewGives o g (.ok (tab, ws)))
    (hp : g.Fruitful) {r : Nat} (hr : r ≠ g.rules.length) (hc : Complete g.full g.rules.length [.nt g.start] r .eoi) : g.Cyclic := by
  have := (treeParser_ctx ho hok h Nat).cyclic (r := r) (hp.fresh_ne (freshSym_unused g)) (by rw [treeRules_length]; exact hr)
    (by rw [treeRules_gram, treeRules_length]; exact hc)
  rwa [treeRules_gram] at this

mutual
/-- The number of rules in a tree. -/
def Tree.nodes {T : Type} : Tree T → Nat
  | .leaf _ _ => 0
  | .err _ _ => 0
  | .node _ cs => nodes cs + 1
def nodes {T : Type} : List (Tree T) → Nat
  | [] => 0
  | f :: fs => f.nodes + nodes fs
end

theorem nodes_append {T : Type} (l m : List (Tree T)) : nodes (l ++ m) = nodes l + nodes m := by
  induction l with
  | nil => simp [nodes]
  | cons f l ih => simp [nodes, ih]; omega

theorem leaves_append' {T : Type} (l m : List (Tree T)) : leaves (l ++ m) = leaves l ++ leaves m := by
  induction l with
  | nil => simp [leaves]
  | cons f l ih => simp [leaves, ih]

theorem errs_append' {T : Type} (l m : List (Tree T)) : errs (l ++ m) = errs l ++ errs m := by
  induction l with
  | nil => simp [errs]
  | cons f l ih => simp [errs, ih]

theorem Built.cut {T : Type} {R : List PRule} {idx : T → Nat} {input : List T} {us vs : List Sym} {fs : List (Tree T)}
    (h : Built R idx input (us ++ vs) fs) : ∃ l m, fs = l ++ m ∧ Built R idx input us l ∧ Built R idx input vs m := by
  generalize e : us ++ vs = ws at h
  induction h generalizing us with
  | nil =>
    obtain ⟨rfl, rfl⟩ := List.append_eq_nil_iff.1 e
    exact ⟨[], [], rfl, .nil, .nil⟩
  | leaf i t us' fs h1 h2 ih =>
    cases us with
    | nil => subst e; exact ⟨[], _, rfl, .nil, .leaf i t _ _ h1 h2⟩
    | cons X us =>
      obtain ⟨rfl, e'⟩ := List.cons.inj e
      obtain ⟨l, m, rfl, k1, k2⟩ := ih e'
      exact ⟨_ :: l, m, rfl, .leaf i t _ _ h1 k1, k2⟩
  | err lo x us' fs h1 h2 h3 ih =>
    cases us with
    | nil => subst e; exact ⟨[], _, rfl, .nil, .err lo x _ _ h1 h2 h3⟩
    | cons X us =>
      obtain ⟨rfl, e'⟩ := List.cons.inj e
      obtain ⟨l, m, rfl, k1, k2⟩ := ih e'
      exact ⟨_ :: l, m, rfl, .err lo x _ _ h1 h2 k1, k2⟩
  | node r rule cs us' fs h1 h2 h3 _ ih =>
    cases us with
    | nil => subst e; exact ⟨[], _, rfl, .nil, .node r rule cs _ _ h1 h2 h3⟩
    | cons X us =>
      obtain ⟨rfl, e'⟩ := List.cons.inj e
      obtain ⟨l, m, rfl, k1, k2⟩ := ih e'
      exact ⟨_ :: l, m, rfl, .node r rule cs _ _ h1 h2 k1, k2⟩

/-- A derivation with `n` rules is a forest with `n` nodes. -/
theorem Lm.forest {R : List PRule} {n : Nat} {us : List Sym} {w : List Term} (h : Lm R n us w) : ∀ {pre l : List Nat},
    w = l.map .sym → ∃ fs, Built R id (pre ++ l) us fs ∧ errs fs = [] ∧ leaves fs = l.zipIdx pre.length ∧ nodes fs = n := by
  induction h with
  | nil =>
    intro pre l hw
    cases l with
    | nil => exact ⟨[], .nil, rfl, rfl, rfl⟩
    | cons t l => cases hw
  | tok n t us w _ ih =>
    intro pre l hw
    cases l with
    | nil => cases hw
    | cons a l =>
      obtain ⟨rfl, hw'⟩ := List.cons.inj hw
      obtain ⟨fs, k1, k2, k3, k4⟩ := ih (pre := pre ++ [a]) hw'
      refine ⟨.leaf pre.length a :: fs, ?_, by simpa [errs, Tree.errs] using k2, by simp [leaves, Tree.leaves, k3, List.zipIdx_cons], by simp [nodes, Tree.nodes, k4]⟩
      exact .leaf (idx := id) pre.length a _ _ (by simp) (by simpa using k1)
  | rule n r us w hr _ ih =>
    intro pre l hw
    obtain ⟨fs, k1, k2, k3, k4⟩ := ih (pre := pre) hw
    obtain ⟨cs, fs', rfl, m1, m2⟩ := k1.cut
    obtain ⟨j, hj⟩ := List.getElem?_of_mem hr
    rw [errs_append'] at k2
    rw [leaves_append'] at k3
    rw [nodes_append] at k4
    refine ⟨.node j cs :: fs', .node j r cs _ _ hj m1 m2, by simpa [errs, Tree.errs] using k2, by simpa [leaves, Tree.leaves] using k3, ?_⟩
    simp [nodes, Tree.nodes]
    omega

/-- Without conflicts there is only one tree. -/
theorem tree_unique_lr1 {o : Seeds} (ho : o.Fair) (hok : g.Ok) {tab : Tables} (h : NewGives o g (.ok (tab, []))) (hl : g.LR1)
    {T : Type} {idx : T → Nat} {input : List T} {f f' : Tree T} (hf : IsTree g.rules g.start idx input f)
    (hf' : IsTree g.rules g.start idx input f') : f = f' := by
  have hg := treeRules_gram T g
  have hlen := treeRules_length T g
  have hx := treeParser_ctx ho hok h T
  obtain ⟨fuel, h1, _⟩ := h
  have hs := (new_spec ho hok fuel).1 _ _ h1
  have hnw : NoConflict (treeParser T g tab) (treeRules (T := T) g.rules) g.start (freshSym g.rules) := by
    intro γ q r a hq hr hcomp
    have hw := hs.2.1
    rw [← hlen] at hw
    refine no_warn_reduce Ctx.start_rule hx.canon (r := r) ?_ hq hr hcomp
    rw [hg]
    exact hw
  have key : ∀ f, IsTree g.rules g.start idx input f → ∃ v c, ParsesTo idx (treeParser T g tab) input (.ok v) c ∧ v = f.erase := by
    intro f hf
    obtain ⟨lg, as, k1, k2⟩ := hf.1.treeEvals
    rcases followQ (idx := idx) (input := input) (Cy := False) hx (fun γ q r a h1 h2 h3 _ => hnw γ q r a h1 h2 h3) (by
        intro r hr hc _
        rw [hg, hlen] at hc
        rw [hlen] at hr
        exact hl ⟨_, _, r, hr, hc, .inr (.inl ⟨rfl, (accepts_iff (freshSym_unused g)).2 rfl⟩)⟩) (f := f) (by rw [treeRules_plain]; exact hf)
        (Built.along_true (rules := treeRules (T := T) g.rules) (by rw [treeRules_plain]; exact hf.1) hf.2.1 _ _) k1 with ⟨v, c, m1, m2, _⟩ | ⟨e, c, m1, _⟩ | ⟨m1, _⟩
    · cases m1
      refine ⟨v, c, m2, ?_⟩
      simpa [erases, Arg.tree] using k2
    · cases m1
    · exact m1.elim
  obtain ⟨v, c, h1, h2⟩ := key f hf
  obtain ⟨v', c', h1', h2'⟩ := key f' hf'
  have := (h1.unique h1').1
  cases this
  have h3 := h2.symm.trans h2'
  have := erases_inj [f] [f'] (by simp [erases, h3]) (by rw [hf.2.2, hf'.2.2]) hf.2.1
  simpa using this

theorem Gram.LR1.not_cyclic {o : Seeds} (ho : o.Fair) (hok : g.Ok) {tab : Tables} (h : NewGives o g (.ok (tab, []))) (hl : g.LR1)
    (hp : g.Productive) : ¬ g.Cyclic := by
  rintro ⟨x, r, y, h1, h2, h3⟩
  obtain ⟨w, hw⟩ := hp [] g.start [] (.refl _)
  obtain ⟨n, hn⟩ := lm_of_gen (gen_iff.2 hw) (v := w.map .sym) (by simp [tms, Function.comp_def])
  have hn' : Lm g.rules n (x ++ r.rhs ++ y) (w.map .sym) := h3 ▸ hn
  rw [List.append_assoc] at hn'
  obtain ⟨n1, n2, w1, w2, rfl, e2, e3, e4⟩ := hn'.split rfl
  obtain ⟨m, hm, h'⟩ := Lm.back h2 (e3.append (.rule _ r _ _ h1 e4))
  rw [← e2] at h'
  obtain ⟨fs, a1, a2, a3, a4⟩ := hn.forest (pre := []) rfl
  obtain ⟨fs', b1, b2, b3, b4⟩ := h'.forest (pre := []) rfl
  have one : ∀ {fs : List (Tree Nat)}, Built g.rules id ([] ++ w) [.nt g.start] fs → ∃ f, fs = [f] := by
    intro fs h
    generalize hX : [Sym.nt g.start] = l at h
    cases h with
    | nil => cases hX
    | leaf => cases hX
    | err => cases hX
    | node r rule cs us fs _ _ h =>
      obtain ⟨_, rfl⟩ := List.cons.inj hX
      cases h
      exact ⟨_, rfl⟩
  obtain ⟨f, rfl⟩ := one a1
  obtain ⟨f', rfl⟩ := one b1
  obtain rfl := tree_unique_lr1 ho hok h hl (idx := id) (input := w) ⟨a1, a2, a3⟩ ⟨b1, b2, b3⟩
  omega

end Verif.Par
