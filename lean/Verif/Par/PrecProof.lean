import Verif.Par.PrecTable
import Verif.Par.FullProof
import Verif.Par.OpsAlong

/-!
# Trees of grammars with levels of precedence
-/

namespace Verif.Par

variable {N T E : Type} {P : Prec} {idx : T → Nat} {rules : List (Rule N T E)}

/-- `e` is read with value `v` from `.nt i`. -/
def HasTree (rules : List (Rule N T E)) (idx : T → Nat) (i : Nat) (w : List T) (v : N) : Prop :=
  ∀ pre post, ∃ f lg, Built (rules.map Rule.plain) idx (pre ++ w ++ post) [.nt i] [f] ∧ errs [f] = [] ∧ leaves [f] = w.zipIdx pre.length ∧
    Evals rules [f] lg (.ok [.nt v])

theorem HasTree.node {i k : Nat} {w : List T} {v : N} {r : Rule N T E} (hr : rules[k]? = some r) (hl : r.lhs = i) {args : List (Arg N T)}
    (h : ∀ pre post, ∃ fs lg, Built (rules.map Rule.plain) idx (pre ++ w ++ post) r.rhs fs ∧ errs fs = [] ∧ leaves fs = w.zipIdx pre.length ∧
      Evals rules fs lg (.ok args)) (hv : r.gen args = .ok v) : HasTree rules idx i w v := by
  intro pre post
  obtain ⟨fs, lg, h1, h2, h3, h4⟩ := h pre post
  refine ⟨.node k fs, _, ?_, ?_, ?_, .node k r fs lg args v [] [] [] hr h4 hv .nil⟩
  · have := Built.node (R := rules.map Rule.plain) (idx := idx) (input := pre ++ w ++ post) k r.plain fs [] [] (by simp [hr]) h1 .nil
    rw [← hl]
    exact this
  · simpa [errs, Tree.errs] using h2
  · simpa [leaves, Tree.leaves] using h3

/-- A sequence of symbols is read. -/
def HasForest (rules : List (Rule N T E)) (idx : T → Nat) (us : List Sym) (w : List T) (args : List (Arg N T)) : Prop :=
  ∀ pre post, ∃ fs lg, Built (rules.map Rule.plain) idx (pre ++ w ++ post) us fs ∧ errs fs = [] ∧ leaves fs = w.zipIdx pre.length ∧
    Evals rules fs lg (.ok args)

theorem HasForest.nil : HasForest rules idx [] [] [] := fun _ _ => ⟨[], [], .nil, rfl, rfl, .nil⟩

theorem HasForest.tok {us : List Sym} {w : List T} {args : List (Arg N T)} (t : T) (h : HasForest rules idx us w args) :
    HasForest rules idx (tk (idx t) :: us) (t :: w) (.tok t :: args) := by
  intro pre post
  obtain ⟨fs, lg, h1, h2, h3, h4⟩ := h (pre ++ [t]) post
  have e : pre ++ [t] ++ w ++ post = pre ++ (t :: w) ++ post := by simp
  rw [e] at h1
  refine ⟨.leaf pre.length t :: fs, lg, .leaf _ _ _ _ (by simp) h1, ?_, ?_, .leaf _ _ _ _ _ h4⟩
  · simpa [errs, Tree.errs] using h2
  · simpa [leaves, Tree.leaves, List.zipIdx_cons] using h3

theorem HasForest.nt {i : Nat} {us : List Sym} {w w' : List T} {v : N} {args : List (Arg N T)} (h0 : HasTree rules idx i w v)
    (h : HasForest rules idx us w' args) : HasForest rules idx (.nt i :: us) (w ++ w') (.nt v :: args) := by
  intro pre post
  obtain ⟨f, lg, h1, h2, h3, h4⟩ := h0 pre (w' ++ post)
  obtain ⟨fs, lg', h1', h2', h3', h4'⟩ := h (pre ++ w) post
  have e : pre ++ w ++ w' ++ post = pre ++ (w ++ w') ++ post := by simp
  have e' : pre ++ w ++ (w' ++ post) = pre ++ (w ++ w') ++ post := by simp
  rw [e] at h1'
  rw [e'] at h1
  refine ⟨[f] ++ fs, _, h1.append h1', ?_, ?_, h4.append h4'⟩
  · rw [errs_append, h2, h2']; rfl
  · rw [leaves_append, h3, h3', List.zipIdx_append]
    simp

theorem HasForest.tree {i : Nat} {us : List Sym} {w : List T} {v : N} {args : List (Arg N T)} (h : HasForest rules idx us w args) {r : Rule N T E}
    (hr : r ∈ rules) (hl : r.lhs = i) (hu : r.rhs = us) (hv : r.gen args = .ok v) : HasTree rules idx i w v := by
  obtain ⟨k, hk⟩ := List.getElem?_of_mem hr
  subst hu
  exact HasTree.node hk hl h hv

theorem HasTree.isTree {i : Nat} {w : List T} {v : N} (h : HasTree rules idx i w v) :
    ∃ f lg, IsTree (rules.map Rule.plain) i idx w f ∧ Evals rules [f] lg (.ok [.nt v]) := by
  obtain ⟨f, lg, h1, h2, h3, h4⟩ := h [] []
  exact ⟨f, lg, ⟨by simpa using h1, h2, by simpa using h3⟩, h4⟩

/-! ## From expressions to trees -/

theorem Grp.le {i : Nat} {e : Ex T} (h : Grp P idx i e) : i ≤ P.levels.length := by
  cases h with
  | atom => exact Nat.le_refl _
  | par => exact Nat.le_refl _
  | left _ _ _ _ _ _ h => exact Nat.le_of_lt h.lt
  | right _ _ _ _ _ _ h => exact Nat.le_of_lt h.lt
  | non _ _ _ _ _ _ h => exact Nat.le_of_lt h.lt
  | pre _ _ _ _ h => exact Nat.le_of_lt h.lt
  | post _ _ _ _ h => exact Nat.le_of_lt h.lt

/-- All rules are rules of `P`. -/
def PRs (P : Prec) (rules : List (Rule N T E)) : Prop := ∀ l rhs, (∃ r ∈ rules, r.lhs = l ∧ r.rhs = rhs) ↔ PR P l rhs

theorem PRs.mem (h : PRs P rules) {r : Rule N T E} (hr : r ∈ rules) : PR P r.lhs r.rhs := (h _ _).1 ⟨r, hr, rfl, rfl⟩

theorem HasTree.lower (hr : PRs P rules) (ht : Transparent rules) {w : List T} {v : N} {i j : Nat} (h : HasTree rules idx j w v) (hij : i ≤ j)
    (hj : j ≤ P.levels.length) : HasTree rules idx i w v := by
  obtain ⟨d, rfl⟩ := Nat.le.dest hij
  clear hij
  induction d with
  | zero => exact h
  | succ d ih =>
    apply ih
    · obtain ⟨r, h1, h2, h3⟩ := (hr (i + d) [.nt (i + d + 1)]).2 (.unit _ (by omega))
      have := HasForest.tree (HasForest.nt h .nil) h1 h2 h3 (ht r h1 _ h3 v)
      simpa using this
    · omega

theorem pr_bin (hP : P.Ok) {l a b t i : Nat} {f : Fix} {x y : Nat} (h : PR P l [.nt a, tk t, .nt b]) (ho : P.Op i f t) (hs : f.sides = some (x, y)) :
    l = i ∧ a = i + x ∧ b = i + y := by
  generalize hu : [Sym.nt a, tk t, .nt b] = u at h
  cases h with
  | bin _ f' t' a' b' o1 o2 =>
    simp at hu
    obtain ⟨rfl, rfl, rfl⟩ := hu
    obtain ⟨rfl, rfl⟩ := hP.op_unique ho o1 (by simp [(Fix.sides_pos hs).1, (Fix.sides_pos o2).1])
    rw [hs] at o2
    cases o2
    exact ⟨rfl, rfl, rfl⟩
  | _ => simp at hu

theorem pr_pre (hP : P.Ok) {l a t i : Nat} (h : PR P l [tk t, .nt a]) (ho : P.Op i .pre t) : l = i ∧ a = i := by
  generalize hu : [tk t, .nt a] = u at h
  cases h with
  | pre _ t' o1 =>
    simp at hu
    obtain ⟨rfl, rfl⟩ := hu
    exact ⟨(hP.op_unique o1 ho rfl).1, (hP.op_unique o1 ho rfl).1⟩
  | _ => simp at hu

theorem pr_post (hP : P.Ok) {l a t i : Nat} (h : PR P l [.nt a, tk t]) (ho : P.Op i .post t) : l = i ∧ a = i := by
  generalize hu : [.nt a, tk t] = u at h
  cases h with
  | post _ t' o1 =>
    simp at hu
    obtain ⟨rfl, rfl⟩ := hu
    exact ⟨(hP.op_unique o1 ho rfl).1, (hP.op_unique o1 ho rfl).1⟩
  | _ => simp at hu

theorem pr_atom {l t : Nat} (h : PR P l [tk t]) : l = P.levels.length ∧ t ∈ P.atoms := by
  generalize hu : [tk t] = u at h
  cases h with
  | atom t' o1 => simp at hu; subst hu; exact ⟨rfl, o1⟩
  | _ => simp at hu

theorem pr_par {l a t c : Nat} (h : PR P l [tk t, .nt a, tk c]) : l = P.levels.length ∧ a = 0 ∧ (t, c) ∈ P.pars := by
  generalize hu : [tk t, .nt a, tk c] = u at h
  cases h with
  | par t' c' o1 => simp at hu; obtain ⟨rfl, rfl, rfl⟩ := hu; exact ⟨rfl, rfl, o1⟩
  | _ => simp at hu

theorem Grp.hasTree (hP : P.Ok) (hr : PRs P rules) (ht : Transparent rules) {e : Ex T} {v : N} (hv : Value rules idx e v) : ∀ {i : Nat},
    Grp P idx i e → HasTree rules idx i e.tokens v := by
  induction hv with
  | atom t r v h1 h2 h3 =>
    intro i h
    cases h with
    | atom _ h =>
      obtain ⟨e1, _⟩ := pr_atom (h2 ▸ hr.mem h1)
      exact HasForest.tree (.tok t .nil) h1 e1 h2 h3
  | bin l t e r a b x y v h1 h2 _ _ h3 ih1 ih2 =>
    intro i h
    have key : ∀ {f : Fix} {p q j k : Nat}, P.Op i f (idx t) → f.sides = some (p, q) → Grp P idx j l → Grp P idx k e → i + p ≤ j → i + q ≤ k →
        HasTree rules idx i (Ex.bin l t e).tokens v := by
      intro f p q j k o1 o2 k1 k2 l1 l2
      obtain ⟨e1, rfl, rfl⟩ := pr_bin hP (h2 ▸ hr.mem h1) o1 o2
      exact HasForest.tree (.nt ((ih1 k1).lower hr ht l1 k1.le) (.tok t (List.append_nil e.tokens ▸ .nt ((ih2 k2).lower hr ht l2 k2.le) .nil))) h1 e1 h2 h3
    cases h with
    | left _ _ _ _ j k o1 k1 k2 l1 l2 => exact key o1 rfl k1 k2 l1 l2
    | right _ _ _ _ j k o1 k1 k2 l1 l2 => exact key o1 rfl k1 k2 l1 l2
    | non _ _ _ _ j k o1 k1 k2 l1 l2 => exact key o1 rfl k1 k2 l1 l2
  | pre t e r a x v h1 h2 _ h3 ih =>
    intro i h
    cases h with
    | pre _ _ _ j o1 k1 l1 =>
      obtain ⟨e1, rfl⟩ := pr_pre hP (h2 ▸ hr.mem h1) o1
      exact HasForest.tree (.tok t (List.append_nil e.tokens ▸ .nt ((ih k1).lower hr ht l1 k1.le) .nil)) h1 e1 h2 h3
  | post e t r a x v h1 h2 _ h3 ih =>
    intro i h
    cases h with
    | post _ _ _ j o1 k1 l1 =>
      obtain ⟨e1, rfl⟩ := pr_post hP (h2 ▸ hr.mem h1) o1
      exact HasForest.tree (.nt ((ih k1).lower hr ht l1 k1.le) (.tok t .nil)) h1 e1 h2 h3
  | par t e u r a x v h1 h2 _ h3 ih =>
    intro i h
    cases h with
    | par _ _ _ j o1 k1 =>
      obtain ⟨e1, rfl, _⟩ := pr_par (h2 ▸ hr.mem h1)
      exact HasForest.tree (.tok t (.nt ((ih k1).lower hr ht (Nat.zero_le _) k1.le) (.tok u .nil))) h1 e1 h2 h3

/-! ## From trees to expressions -/

inductive Spells (P : Prec) (idx : T → Nat) : List Sym → List T → Prop
  | nil : Spells P idx [] []
  | tok (t us w) : Spells P idx us w → Spells P idx (tk (idx t) :: us) (t :: w)
  | nt (i j e us w) : Grp P idx j e → i ≤ j → Spells P idx us w → Spells P idx (.nt i :: us) (e.tokens ++ w)

theorem Spells.nil_inv {w : List T} (h : Spells P idx [] w) : w = [] := by cases h; rfl

theorem Spells.tok_inv {w : List T} {t : Nat} {us : List Sym} (h : Spells P idx (tk t :: us) w) : ∃ t' w', idx t' = t ∧ w = t' :: w' ∧ Spells P idx us w' := by
  cases h with
  | tok t _ w h => exact ⟨t, w, rfl, rfl, h⟩

theorem Spells.nt_inv {w : List T} {i : Nat} {us : List Sym} (h : Spells P idx (.nt i :: us) w) :
    ∃ j e w', Grp P idx j e ∧ i ≤ j ∧ w = e.tokens ++ w' ∧ Spells P idx us w' := by
  cases h with
  | nt i j e us w h1 h2 h3 => exact ⟨j, e, w, h1, h2, rfl, h3⟩

theorem PR.spells {l : Nat} {rhs : List Sym} (h : PR P l rhs) {w : List T} (hw : Spells P idx rhs w) : ∃ j e, Grp P idx j e ∧ l ≤ j ∧ w = e.tokens := by
  cases h with
  | unit i _ =>
    obtain ⟨j, e, w', h1, h2, rfl, s1⟩ := hw.nt_inv
    obtain rfl := s1.nil_inv
    exact ⟨j, e, h1, by omega, by simp⟩
  | bin i f t a b o1 o2 =>
    obtain ⟨j, e, w', h1, h2, rfl, s1⟩ := hw.nt_inv
    obtain ⟨t', w'', rfl, rfl, s2⟩ := s1.tok_inv
    obtain ⟨k, e', w', h4, h5, rfl, s3⟩ := s2.nt_inv
    obtain rfl := s3.nil_inv
    refine ⟨l, .bin e t' e', ?_, Nat.le_refl _, by simp [Ex.tokens]⟩
    cases f <;> simp [Fix.sides] at o2 <;> obtain ⟨rfl, rfl⟩ := o2
    · exact .left _ _ _ _ j k o1 h1 h4 (by omega) (by omega)
    · exact .right _ _ _ _ j k o1 h1 h4 (by omega) (by omega)
    · exact .non _ _ _ _ j k o1 h1 h4 (by omega) (by omega)
  | pre i t o1 =>
    obtain ⟨t', w'', rfl, rfl, s1⟩ := hw.tok_inv
    obtain ⟨j, e, w', h1, h2, rfl, s2⟩ := s1.nt_inv
    obtain rfl := s2.nil_inv
    exact ⟨l, .pre t' e, .pre _ _ _ j o1 h1 h2, Nat.le_refl _, by simp [Ex.tokens]⟩
  | post i t o1 =>
    obtain ⟨j, e, w', h1, h2, rfl, s1⟩ := hw.nt_inv
    obtain ⟨t', w'', rfl, rfl, s2⟩ := s1.tok_inv
    obtain rfl := s2.nil_inv
    exact ⟨l, .post e t', .post _ _ _ j o1 h1 h2, Nat.le_refl _, by simp [Ex.tokens]⟩
  | atom t o1 =>
    obtain ⟨t', w'', rfl, rfl, s1⟩ := hw.tok_inv
    obtain rfl := s1.nil_inv
    exact ⟨_, .atom t', .atom _ o1, Nat.le_refl _, by simp [Ex.tokens]⟩
  | par t c o1 =>
    obtain ⟨t', w'', rfl, rfl, s1⟩ := hw.tok_inv
    obtain ⟨j, e, w', h1, h2, rfl, s2⟩ := s1.nt_inv
    obtain ⟨u, w'', rfl, rfl, s3⟩ := s2.tok_inv
    obtain rfl := s3.nil_inv
    exact ⟨_, .par t' e u, .par _ _ _ j o1 h1, Nat.le_refl _, by simp [Ex.tokens]⟩

theorem Built.spells {R : List PRule} (hR : ∀ r ∈ R, PR P r.lhs r.rhs) {input : List T} {us : List Sym} {fs : List (Tree T)} (h : Built R idx input us fs)
    (he : errs fs = []) : Spells P idx us ((leaves fs).map Prod.fst) := by
  induction h with
  | nil => exact .nil
  | leaf i t us fs _ _ ih => exact .tok _ _ _ (ih (by simpa [errs, Tree.errs] using he))
  | err => simp [errs, Tree.errs] at he
  | node r rule cs us fs h1 _ _ ih1 ih2 =>
    have he' : errs cs = [] ∧ errs fs = [] := by simpa [errs, Tree.errs] using he
    obtain ⟨j, e, k1, k2, k3⟩ := (hR rule (List.mem_of_getElem? h1)).spells (ih1 he'.1)
    have : (leaves (Tree.node r cs :: fs)).map Prod.fst = e.tokens ++ (leaves fs).map Prod.fst := by
      rw [← k3]; simp [leaves, Tree.leaves]
    rw [this]
    exact .nt _ j e _ _ k1 k2 (ih2 he'.2)

theorem IsTree.ex {R : List PRule} (hR : ∀ r ∈ R, PR P r.lhs r.rhs) {i : Nat} {input : List T} {f : Tree T} (h : IsTree R i idx input f) :
    ∃ j e, Grp P idx j e ∧ i ≤ j ∧ e.tokens = input := by
  have := Built.spells hR h.1 h.2.1
  rw [h.2.2, List.zipIdx_map_fst] at this
  obtain ⟨j, e, w', h1, h2, h3, h4⟩ := this.nt_inv
  obtain rfl := h4.nil_inv
  exact ⟨j, e, h1, h2, by simpa using h3.symm⟩

/-! ## Brackets -/

theorem Prec.Op.levelOf (hP : P.Ok) {i t : Nat} {f : Fix} (h : P.Op i f t) : P.levelOf (decide (f = .pre)) t = i := by
  obtain ⟨L, h1, hf, h2⟩ := id h
  have hi := (List.getElem?_eq_some_iff.1 h1)
  have hlt : P.levelOf (decide (f = .pre)) t < P.levels.length := by
    unfold Prec.levelOf
    apply List.findIdx_lt_length_of_exists
    exact ⟨L, List.mem_of_getElem? h1, by simp [hf, h2]⟩
  have hs := List.findIdx_getElem (w := hlt)
  simp only [Bool.and_eq_true, beq_iff_eq, decide_eq_decide, List.contains_iff_mem] at hs
  have : P.Op (P.levelOf (decide (f = .pre)) t) _ t := ⟨_, List.getElem?_eq_getElem hlt, rfl, hs.2⟩
  exact (hP.op_unique this h (propext hs.1)).1

theorem Prec.Op.sidesOf (hP : P.Ok) {i t : Nat} {f : Fix} {a b : Nat} (h : P.Op i f t) (hs : f.sides = some (a, b)) : P.sidesOf t = (i + a, i + b) := by
  have h1 := h.levelOf hP
  rw [decide_eq_false (Fix.sides_pos hs).1] at h1
  obtain ⟨L, h2, hf, _⟩ := h
  unfold Prec.sidesOf
  simp only [h1, h2, Option.map_some, hf]
  cases f <;> simp [Fix.sides] at hs <;> obtain ⟨rfl, rfl⟩ := hs <;> rfl

theorem Grp.root (hP : P.Ok) {i : Nat} {e : Ex T} (h : Grp P idx i e) : e.root P idx = i := by
  cases h with
  | atom => rfl
  | par => rfl
  | left _ _ _ _ _ _ h => exact h.levelOf hP
  | right _ _ _ _ _ _ h => exact h.levelOf hP
  | non _ _ _ _ _ _ h => exact h.levelOf hP
  | pre _ _ _ _ h => exact h.levelOf hP
  | post _ _ _ _ h => exact h.levelOf hP

theorem Grp.wrap (hP : P.Ok) {o c : T} (hoc : (idx o, idx c) ∈ P.pars) {i : Nat} {e : Ex T} (h : Grp P idx i e) {k : Nat} (hk : k ≤ P.levels.length) :
    ∃ j, k ≤ j ∧ Grp P idx j (e.wrap P idx o c k) := by
  unfold Ex.wrap
  split
  · exact ⟨_, hk, .par _ _ _ i hoc h⟩
  · rename_i hn
    rw [h.root hP] at hn
    exact ⟨i, by omega, h⟩

theorem Grp.wrap_eq (hP : P.Ok) {o c : T} {i : Nat} {e : Ex T} (h : Grp P idx i e) {k : Nat} (hk : k ≤ i) : e.wrap P idx o c k = e := by
  unfold Ex.wrap
  rw [h.root hP, if_neg (by omega)]

theorem Ex.close_grp (hP : P.Ok) {o c : T} (hoc : (idx o, idx c) ∈ P.pars) : ∀ {e : Ex T}, e.Uses P idx → ∃ i, Grp P idx i (e.close P idx o c) := by
  intro e
  induction e with
  | atom t => intro h; exact ⟨_, .atom _ h⟩
  | bin l t r ih1 ih2 =>
    rintro ⟨h, h1, h2⟩
    obtain ⟨i1, g1⟩ := ih1 h1
    obtain ⟨i2, g2⟩ := ih2 h2
    simp only [Ex.close]
    obtain ⟨i, h | h | h⟩ := h
    · rw [h.sidesOf hP (a := 0) (b := 1) rfl]
      obtain ⟨j1, l1, k1⟩ := g1.wrap hP hoc (k := i + 0) (Nat.le_of_lt h.lt)
      obtain ⟨j2, l2, k2⟩ := g2.wrap hP hoc (k := i + 1) h.lt
      exact ⟨i, .left _ _ _ _ _ _ h k1 k2 l1 l2⟩
    · rw [h.sidesOf hP (a := 1) (b := 0) rfl]
      obtain ⟨j1, l1, k1⟩ := g1.wrap hP hoc (k := i + 1) h.lt
      obtain ⟨j2, l2, k2⟩ := g2.wrap hP hoc (k := i + 0) (Nat.le_of_lt h.lt)
      exact ⟨i, .right _ _ _ _ _ _ h k1 k2 l1 l2⟩
    · rw [h.sidesOf hP (a := 1) (b := 1) rfl]
      obtain ⟨j1, l1, k1⟩ := g1.wrap hP hoc (k := i + 1) h.lt
      obtain ⟨j2, l2, k2⟩ := g2.wrap hP hoc (k := i + 1) h.lt
      exact ⟨i, .non _ _ _ _ _ _ h k1 k2 l1 l2⟩
  | pre t e ih =>
    rintro ⟨⟨i, h⟩, h1⟩
    obtain ⟨i1, g1⟩ := ih h1
    simp only [Ex.close]
    have e1 : P.levelOf true (idx t) = i := h.levelOf hP
    rw [e1]
    obtain ⟨j1, l1, k1⟩ := g1.wrap hP hoc (k := i) (Nat.le_of_lt h.lt)
    exact ⟨i, .pre _ _ _ _ h k1 l1⟩
  | post e t ih =>
    rintro ⟨⟨i, h⟩, h1⟩
    obtain ⟨i1, g1⟩ := ih h1
    simp only [Ex.close]
    have e1 : P.levelOf false (idx t) = i := h.levelOf hP
    rw [e1]
    obtain ⟨j1, l1, k1⟩ := g1.wrap hP hoc (k := i) (Nat.le_of_lt h.lt)
    exact ⟨i, .post _ _ _ _ h k1 l1⟩
  | par t e u ih =>
    rintro ⟨h, h1⟩
    obtain ⟨i1, g1⟩ := ih h1
    exact ⟨_, .par _ _ _ _ h g1⟩

theorem Grp.close (hP : P.Ok) {o c : T} {i : Nat} {e : Ex T} (h : Grp P idx i e) : e.close P idx o c = e := by
  induction h with
  | atom => rfl
  | par _ _ _ _ _ _ ih => simp only [Ex.close, ih]
  | left i l t r j k h g1 g2 l1 l2 ih1 ih2 =>
    simp only [Ex.close, ih1, ih2, h.sidesOf hP (a := 0) (b := 1) rfl, Nat.add_zero]
    rw [g1.wrap_eq hP l1, g2.wrap_eq hP l2]
  | right i l t r j k h g1 g2 l1 l2 ih1 ih2 =>
    simp only [Ex.close, ih1, ih2, h.sidesOf hP (a := 1) (b := 0) rfl, Nat.add_zero]
    rw [g1.wrap_eq hP l1, g2.wrap_eq hP l2]
  | non i l t r j k h g1 g2 l1 l2 ih1 ih2 =>
    simp only [Ex.close, ih1, ih2, h.sidesOf hP (a := 1) (b := 1) rfl]
    rw [g1.wrap_eq hP l1, g2.wrap_eq hP l2]
  | pre i t e j h g l1 ih =>
    have e1 : P.levelOf true (idx t) = i := h.levelOf hP
    simp only [Ex.close, ih, e1]
    rw [g.wrap_eq hP l1]
  | post i e t j h g l1 ih =>
    have e1 : P.levelOf false (idx t) = i := h.levelOf hP
    simp only [Ex.close, ih, e1]
    rw [g.wrap_eq hP l1]

theorem Value.wrap {o c : T} (hpar : ∀ v, ∃ r ∈ rules, (∃ a, r.rhs = [tk (idx o), .nt a, tk (idx c)]) ∧ r.gen [.tok o, .nt v, .tok c] = .ok v) {e : Ex T}
    {v : N} (h : Value rules idx e v) (k : Nat) : Value rules idx (e.wrap P idx o c k) v := by
  unfold Ex.wrap
  split
  · obtain ⟨r, h1, ⟨a, h2⟩, h3⟩ := hpar v
    exact .par _ _ _ r a v v h1 h2 h h3
  · exact h

theorem Value.close {o c : T} (hpar : ∀ v, ∃ r ∈ rules, (∃ a, r.rhs = [tk (idx o), .nt a, tk (idx c)]) ∧ r.gen [.tok o, .nt v, .tok c] = .ok v) {e : Ex T}
    {v : N} (h : Value rules idx e v) : Value rules idx (e.close P idx o c) v := by
  induction h with
  | atom t r v h1 h2 h3 => exact .atom t r v h1 h2 h3
  | bin l t e r a b x y v h1 h2 _ _ h3 ih1 ih2 => exact .bin _ _ _ r a b x y v h1 h2 (ih1.wrap hpar _) (ih2.wrap hpar _) h3
  | pre t e r a x v h1 h2 _ h3 ih => exact .pre _ _ r a x v h1 h2 (ih.wrap hpar _) h3
  | post e t r a x v h1 h2 _ h3 ih => exact .post _ _ r a x v h1 h2 (ih.wrap hpar _) h3
  | par t e u r a x v h1 h2 _ h3 ih => exact .par _ _ _ r a x v h1 h2 ih h3

/-! ## Callbacks that build the expression -/

def exGen : List (Arg (Ex T) T) → Except Unit (Ex T)
  | [.tok t] => .ok (.atom t)
  | [.nt e] => .ok e
  | [.nt l, .tok t, .nt r] => .ok (.bin l t r)
  | [.tok t, .nt e] => .ok (.pre t e)
  | [.nt e, .tok t] => .ok (.post e t)
  | [.tok t, .nt e, .tok u] => .ok (.par t e u)
  | _ => .error ()

def exRules (T : Type) (R : List PRule) : List (Rule (Ex T) T Unit) := R.map fun r => ⟨r.lhs, r.rhs, exGen⟩

theorem exRules_plain (R : List PRule) : (exRules T R).map Rule.plain = R := by
  unfold exRules
  rw [List.map_map]
  exact List.map_id R

theorem exRules_prs {g : Gram} (hg : PG P g) : PRs P (exRules T g.rules) := by
  intro l rhs
  rw [← hg.2 ⟨l, rhs⟩]
  constructor
  · rintro ⟨r, hr, rfl, rfl⟩
    obtain ⟨r', h, rfl⟩ := List.mem_map.1 hr
    exact h
  · intro h
    exact ⟨_, List.mem_map.2 ⟨_, h, rfl⟩, rfl, rfl⟩

theorem exRules_transparent (R : List PRule) : Transparent (exRules T R) := by
  intro r hr a _ v
  obtain ⟨r', _, rfl⟩ := List.mem_map.1 hr
  rfl

/-- Every expression has a value if callbacks do not fail. -/
theorem Grp.value (hr : PRs P rules) (hgen : ∀ r ∈ rules, ∀ l, ∃ v, r.gen l = .ok v) {i : Nat} {e : Ex T} (h : Grp P idx i e) : ∃ v, Value rules idx e v := by
  have key : ∀ {i f a b} {l r : Ex T} {t : T}, P.Op i f (idx t) → f.sides = some (a, b) → (∃ v, Value rules idx l v) → (∃ v, Value rules idx r v) →
      ∃ v, Value rules idx (.bin l t r) v := by
    rintro i f a b l r t h hs ⟨x, hx⟩ ⟨y, hy⟩
    obtain ⟨rr, h1, _, h2⟩ := (hr _ _).2 (.bin i f (idx t) a b h hs)
    obtain ⟨v, hv⟩ := hgen rr h1 [.nt x, .tok t, .nt y]
    exact ⟨v, .bin _ _ _ rr _ _ x y v h1 h2 hx hy hv⟩
  induction h with
  | atom t h =>
    obtain ⟨rr, h1, _, h2⟩ := (hr _ _).2 (.atom _ h)
    obtain ⟨v, hv⟩ := hgen rr h1 [.tok t]
    exact ⟨v, .atom _ rr v h1 h2 hv⟩
  | par t e u i h _ ih =>
    obtain ⟨x, hx⟩ := ih
    obtain ⟨rr, h1, _, h2⟩ := (hr _ _).2 (.par _ _ h)
    obtain ⟨v, hv⟩ := hgen rr h1 [.tok t, .nt x, .tok u]
    exact ⟨v, .par _ _ _ rr _ x v h1 h2 hx hv⟩
  | left _ _ _ _ _ _ h _ _ _ _ ih1 ih2 => exact key h rfl ih1 ih2
  | right _ _ _ _ _ _ h _ _ _ _ ih1 ih2 => exact key h rfl ih1 ih2
  | non _ _ _ _ _ _ h _ _ _ _ ih1 ih2 => exact key h rfl ih1 ih2
  | pre i t e j h _ _ ih =>
    obtain ⟨x, hx⟩ := ih
    obtain ⟨rr, h1, _, h2⟩ := (hr _ _).2 (.pre _ _ h)
    obtain ⟨v, hv⟩ := hgen rr h1 [.tok t, .nt x]
    exact ⟨v, .pre _ _ rr _ x v h1 h2 hx hv⟩
  | post i e t j h _ _ ih =>
    obtain ⟨x, hx⟩ := ih
    obtain ⟨rr, h1, _, h2⟩ := (hr _ _).2 (.post _ _ h)
    obtain ⟨v, hv⟩ := hgen rr h1 [.nt x, .tok t]
    exact ⟨v, .post _ _ rr _ x v h1 h2 hx hv⟩

/-- The callbacks `exGen` give the expression itself. -/
theorem Ex.value_self {g : Gram} (hg : PG P g) : ∀ {e : Ex T}, e.Uses P idx → Value (exRules T g.rules) idx e e := by
  have hr := exRules_prs (T := T) hg
  have gen : ∀ r ∈ exRules T g.rules, r.gen = exGen := by
    intro r h
    obtain ⟨r', _, rfl⟩ := List.mem_map.1 h
    rfl
  intro e
  induction e with
  | atom t =>
    intro h
    obtain ⟨rr, h1, _, h2⟩ := (hr _ _).2 (.atom _ h)
    exact .atom _ rr _ h1 h2 (by rw [gen rr h1]; rfl)
  | bin l t r ih1 ih2 =>
    rintro ⟨⟨i, h⟩, k1, k2⟩
    have : ∃ f a b, P.Op i f (idx t) ∧ f.sides = some (a, b) := by
      rcases h with h | h | h
      · exact ⟨_, 0, 1, h, rfl⟩
      · exact ⟨_, 1, 0, h, rfl⟩
      · exact ⟨_, 1, 1, h, rfl⟩
    obtain ⟨f, a, b, h, hs⟩ := this
    obtain ⟨rr, h1, _, h2⟩ := (hr _ _).2 (.bin i f (idx t) a b h hs)
    exact .bin _ _ _ rr _ _ _ _ _ h1 h2 (ih1 k1) (ih2 k2) (by rw [gen rr h1]; rfl)
  | pre t e ih =>
    rintro ⟨⟨i, h⟩, k1⟩
    obtain ⟨rr, h1, _, h2⟩ := (hr _ _).2 (.pre _ _ h)
    exact .pre _ _ rr _ _ _ h1 h2 (ih k1) (by rw [gen rr h1]; rfl)
  | post e t ih =>
    rintro ⟨⟨i, h⟩, k1⟩
    obtain ⟨rr, h1, _, h2⟩ := (hr _ _).2 (.post _ _ h)
    exact .post _ _ rr _ _ _ h1 h2 (ih k1) (by rw [gen rr h1]; rfl)
  | par t e u ih =>
    rintro ⟨h, k1⟩
    obtain ⟨rr, h1, _, h2⟩ := (hr _ _).2 (.par _ _ h)
    exact .par _ _ _ rr _ _ _ h1 h2 (ih k1) (by rw [gen rr h1]; rfl)

theorem Grp.uses {i : Nat} {e : Ex T} (h : Grp P idx i e) : e.Uses P idx := by
  induction h with
  | atom t h => exact h
  | par t e u i h _ ih => exact ⟨h, ih⟩
  | left _ _ _ _ _ _ h _ _ _ _ ih1 ih2 => exact ⟨⟨_, .inl h⟩, ih1, ih2⟩
  | right _ _ _ _ _ _ h _ _ _ _ ih1 ih2 => exact ⟨⟨_, .inr (.inl h)⟩, ih1, ih2⟩
  | non _ _ _ _ _ _ h _ _ _ _ ih1 ih2 => exact ⟨⟨_, .inr (.inr h)⟩, ih1, ih2⟩
  | pre i t e j h _ _ ih => exact ⟨⟨_, h⟩, ih⟩
  | post i e t j h _ _ ih => exact ⟨⟨_, h⟩, ih⟩

end Verif.Par
