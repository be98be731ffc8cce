import Verif.Par.Pieces
import Verif.Par.TreeProof
import Verif.Props.ParPart

/-!
# Trees of the outer grammar with trees of the inner one in place of values (proofs for C76)
-/

namespace Verif.Par

variable {N T E : Type}

theorem getElem?_seg {input pre w post : List T} (h : input = pre ++ w ++ post) (i : Nat) (hi : i < w.length) : input[pre.length + i]? = w[i]? := by
  subst h
  rw [List.append_assoc, List.getElem?_append_right (by omega), List.getElem?_append_left (by omega)]
  congr 1
  omega

/-- A tree of another text with the same tokens. -/
theorem relabel {rules : List (Rule N T E)} {idx : T → Nat} {input : List T} {us fs}
    (h : Built (rules.map Rule.plain) idx input us fs) (he : errs fs = []) (input' pre post : List T)
    (hi : input' = pre ++ (leaves fs).map Prod.fst ++ post) :
    ∃ fs', Built (rules.map Rule.plain) idx input' us fs' ∧ errs fs' = [] ∧ leaves fs' = ((leaves fs).map Prod.fst).zipIdx pre.length ∧
      ∀ lg x, Evals rules fs lg x → Evals rules fs' lg x := by
  induction h generalizing pre post with
  | nil => exact ⟨[], .nil, rfl, rfl, fun lg x h => by cases h; exact .nil⟩
  | leaf i t us fs h1 _ ih =>
    simp only [leaves, Tree.leaves, List.cons_append, List.nil_append, List.map_cons] at hi ⊢
    obtain ⟨fs', k1, k2, k3, k4⟩ := ih (by simpa [errs, Tree.errs] using he) (pre ++ [t]) post (by simp [hi])
    refine ⟨.leaf pre.length t :: fs', .leaf _ _ _ _ (by simp [hi]) k1, by simpa [errs, Tree.errs] using k2, ?_, ?_⟩
    · simp [leaves, Tree.leaves, k3, List.zipIdx_cons]
    · intro lg x h
      cases h with
      | leaf _ _ _ _ as h => exact .leaf _ _ _ _ _ (k4 _ _ h)
      | leafE _ _ _ _ e h => exact .leafE _ _ _ _ _ (k4 _ _ h)
  | err lo l us fs _ _ _ _ => simp [errs, Tree.errs] at he
  | node r rule cs us fs h1 _ _ ih1 ih2 =>
    simp only [errs, Tree.errs, List.append_eq_nil_iff] at he
    simp only [leaves, Tree.leaves, List.map_append] at hi ⊢
    obtain ⟨cs', k1, k2, k3, k4⟩ := ih1 he.1 pre ((leaves fs).map Prod.fst ++ post) (by simp [hi])
    obtain ⟨fs', m1, m2, m3, m4⟩ := ih2 he.2 (pre ++ (leaves cs).map Prod.fst) post (by simp [hi])
    refine ⟨.node r cs' :: fs', .node _ _ _ _ _ h1 k1 m1, by simp [errs, Tree.errs, k2, m2], ?_, ?_⟩
    · simp [leaves, Tree.leaves, k3, m3, List.zipIdx_append]
    · intro lg x h
      cases h with
      | node _ rule _ lg1 args v _ lg2 as e1 e2 e3 e4 => exact .node _ _ _ _ _ _ _ _ _ e1 (k4 _ _ e2) e3 (m4 _ _ e4)
      | nodeE _ rule _ lg1 args v _ lg2 e e1 e2 e3 e4 => exact .nodeE _ _ _ _ _ _ _ _ _ e1 (k4 _ _ e2) e3 (m4 _ _ e4)
      | fail _ rule _ lg1 args e _ e1 e2 e3 => exact .fail _ _ _ _ _ _ _ e1 (k4 _ _ e2) e3
      | inner _ _ lg1 e _ e1 => exact .inner _ _ _ _ _ (k4 _ _ e1)

/-- A failing tree fails whatever follows. -/
theorem Evals.fail_cons {rules : List (Rule N T E)} {f : Tree T} {lg e} (h : Evals rules [f] lg (.error e)) (fs : List (Tree T)) :
    Evals rules (f :: fs) lg (.error e) := by
  cases h with
  | leafE _ _ _ _ _ h => cases h
  | errE _ _ _ _ _ h => cases h
  | nodeE _ _ _ _ _ _ _ _ _ _ _ _ h => cases h
  | fail _ _ _ _ _ _ _ e1 e2 e3 => exact .fail _ _ _ _ _ _ _ e1 e2 e3
  | inner _ _ _ _ _ e1 => exact .inner _ _ _ _ _ e1

theorem Evals.ok_fail {rules : List (Rule N T E)} {f : Tree T} {lg as} (h : Evals rules [f] lg (.ok as)) {fs : List (Tree T)} {lg' e}
    (h' : Evals rules fs lg' (.error e)) : ∃ lg, Evals rules (f :: fs) lg (.error e) := by
  cases h with
  | leaf _ _ _ _ _ _ => exact ⟨_, .leafE _ _ _ _ _ h'⟩
  | err _ _ _ _ _ _ => exact ⟨_, .errE _ _ _ _ _ h'⟩
  | node _ _ _ _ _ _ _ _ _ e1 e2 e3 e4 => exact ⟨_, .nodeE _ _ _ _ _ _ _ _ _ e1 e2 e3 h'⟩

/-- Values in the inner grammar. -/
def Arg.lower : Arg N (Lump N T) → Arg N T
  | .nt n => .nt n
  | .tok (.tok a) => .tok a
  | .tok (.val n) => .nt n
  | .err _ => .err []

variable {rules : List (Rule N (Lump N T) E)} {rules' : List (Rule N T E)} {idx : T → Nat} {t h' : Nat} {ps : List (Lump N T)}

/-- The arguments of an outer callback can be had back. -/
theorem raise_lower {us : List Sym} {fs : List (Tree (Lump N T))} {lg x} (h : Evals rules fs lg x) (hb : Built (rules.map Rule.plain) (Lump.idx idx t) ps us fs)
    (he : errs fs = []) (hk : ∀ a, Lump.tok a ∈ (leaves fs).map Prod.fst → idx a ≠ t) : ∀ as, x = .ok as →
    List.zipWith (Arg.raise t) us (as.map Arg.lower) = as := by
  induction h generalizing us with
  | nil =>
    intro as e
    cases e
    simp
  | leaf i a fs lg as h ih =>
    intro as' e
    cases e
    cases hb with
    | leaf _ _ us _ h1 h2 =>
      have := ih h2 (by simpa [errs, Tree.errs] using he) (fun a ha => hk a (by simp only [leaves, List.map_append, List.mem_append]; exact .inr ha)) as rfl
      rw [List.map_cons, List.zipWith_cons_cons, this]
      cases a with
      | tok a => rfl
      | val n => simp [Arg.lower, Arg.raise, Lump.idx]
  | leafE => intro _ e; cases e
  | err lo l fs lg as h ih => simp [errs, Tree.errs] at he
  | errE => intro _ e; cases e
  | node r rule cs lg1 args v fs lg2 as h1 h2 h3 h4 ih1 ih2 =>
    intro as' e
    cases e
    cases hb with
    | node _ _ _ us _ _ _ h5 =>
      simp only [errs, List.append_eq_nil_iff] at he
      have := ih2 h5 he.2 (fun a ha => hk a (by simp only [leaves, List.map_append, List.mem_append]; exact .inr ha)) as rfl
      rw [List.map_cons, List.zipWith_cons_cons, this]
      simp [Arg.lower, Arg.raise]
  | nodeE => intro _ e; cases e
  | fail => intro _ e; cases e
  | inner => intro _ e; cases e

theorem Cuts.append_inv {M : List T → N → Prop} {l1 l2 : List (Lump N T)} : ∀ {w}, Cuts idx t M (l1 ++ l2) w →
    ∃ w1 w2, w = w1 ++ w2 ∧ Cuts idx t M l1 w1 ∧ Cuts idx t M l2 w2 := by
  induction l1 with
  | nil => exact fun h => ⟨[], _, rfl, .nil, h⟩
  | cons x l1 ih =>
    intro w h
    cases h with
    | keep a ps w ha h =>
      obtain ⟨w1, w2, rfl, k1, k2⟩ := ih h
      exact ⟨a :: w1, w2, rfl, .keep _ _ _ ha k1, k2⟩
    | fill u v ps w hm h =>
      obtain ⟨w1, w2, rfl, k1, k2⟩ := ih h
      exact ⟨u ++ w1, w2, by simp, .fill _ _ _ _ hm k1, k2⟩

theorem Cuts.tok_ne {M : List T → N → Prop} {l : List (Lump N T)} {w} (h : Cuts idx t M l w) : ∀ a, Lump.tok a ∈ l → idx a ≠ t := by
  induction h with
  | nil => intro a h; cases h
  | keep a ps w ha _ ih =>
    intro b hb
    rcases List.mem_cons.1 hb with hb | hb
    · cases hb; exact ha
    · exact ih b hb
  | fill u v ps w _ _ ih =>
    intro b hb
    rcases List.mem_cons.1 hb with hb | hb
    · cases hb
    · exact ih b hb

theorem getElem?_put {r : Nat} {rule : Rule N (Lump N T) E} (h : rules[r]? = some rule) :
    (putRules t h' rules rules')[r]? = some (rule.put t h') := by
  unfold putRules
  have := (List.getElem?_eq_some_iff.1 h).1
  rw [List.getElem?_append_left (by simpa using this), List.getElem?_map, h]
  rfl

/-- A tree of the outer grammar, with trees of the inner one for the values. -/
theorem fill_tree {M : List T → N → Prop} (P : Prop)
    (hM : ∀ u v, M u v → ∃ f, IsTree (rules'.map Rule.plain) h' idx u f ∧ (P → ∃ lg, Evals rules' [f] lg (.ok [.nt v])))
    {us fs} (h : Built (rules.map Rule.plain) (Lump.idx idx t) ps us fs) (he : errs fs = []) (w : List T)
    (hw : Cuts idx t M ((leaves fs).map Prod.fst) w) (input pre post : List T) (hi : input = pre ++ w ++ post) :
    ∃ fs', Built ((putRules t h' rules rules').map Rule.plain) idx input (us.map (Sym.put t h')) fs' ∧ errs fs' = [] ∧ leaves fs' = w.zipIdx pre.length ∧
      (P → (∀ lg as, Evals rules fs lg (.ok as) → ∃ lg', Evals (putRules t h' rules rules') fs' lg' (.ok (as.map Arg.lower))) ∧
        ∀ lg e, Evals rules fs lg (.error e) → ∃ lg', Evals (putRules t h' rules rules') fs' lg' (.error e)) := by
  induction h generalizing w pre post with
  | nil =>
    cases hw
    refine ⟨[], .nil, rfl, rfl, fun _ => ⟨?_, ?_⟩⟩
    · intro lg as h
      cases h
      exact ⟨_, .nil⟩
    · intro lg e h
      cases h
  | leaf i a us fs h1 h2 ih =>
    simp only [leaves, Tree.leaves, List.cons_append, List.nil_append, List.map_cons] at hw
    have he' : errs fs = [] := by simpa [errs, Tree.errs] using he
    cases hw with
    | keep b _ w hb hw =>
      obtain ⟨fs', k1, k2, k3, k4⟩ := ih he' w hw (pre ++ [b]) post (by simp [hi])
      refine ⟨.leaf pre.length b :: fs', ?_, by simpa [errs, Tree.errs] using k2, by simp [leaves, Tree.leaves, k3, List.zipIdx_cons], fun hP => ⟨?_, ?_⟩⟩
      · have : Sym.put t h' (.tm (.sym (Lump.idx idx t (.tok b : Lump N T)))) = .tm (.sym (idx b)) := by simp [Sym.put, Lump.idx, hb]
        rw [List.map_cons, this]
        exact .leaf _ _ _ _ (by simp [hi]) k1
      · intro lg as h
        cases h with
        | leaf _ _ _ _ as h =>
          obtain ⟨lg', h⟩ := (k4 hP).1 _ _ h
          exact ⟨_, .leaf _ _ _ _ _ h⟩
      · intro lg e h
        cases h with
        | leafE _ _ _ _ as h =>
          obtain ⟨lg', h⟩ := (k4 hP).2 _ _ h
          exact ⟨_, .leafE _ _ _ _ _ h⟩
    | fill u v _ w hm hw =>
      obtain ⟨f, hf, hv⟩ := hM u v hm
      obtain ⟨fs', k1, k2, k3, k4⟩ := ih he' w hw (pre ++ u) post (by simp [hi])
      obtain ⟨f1, m1, m2, m3, m4⟩ := part_tree (rules := putRules t h' rules rules') (fun r hr => List.mem_append_right _ hr) hf.1 hf.2.1
      have hlv : (leaves f1).map Prod.fst = u := by rw [m3, hf.2.2, List.zipIdx_map_fst]
      obtain ⟨f2, n1, n2, n3, n4⟩ := relabel m1 m2 input pre (w ++ post) (by rw [hlv, hi]; simp)
      obtain ⟨f3, rfl⟩ : ∃ f, f2 = [f] := by
        match f2, n1.length with
        | [f], _ => exact ⟨f, rfl⟩
      rw [hlv] at n3
      have hput : Sym.put t h' (.tm (.sym (Lump.idx idx t (.val v : Lump N T)))) = .nt h' := by simp [Sym.put, Lump.idx]
      refine ⟨f3 :: fs', ?_, ?_, ?_, fun hP => ?_⟩
      · rw [List.map_cons, hput]
        cases n1 with
        | node r rule cs _ _ e1 e2 e3 => exact .node _ _ _ _ _ e1 e2 k1
      · simp only [errs, List.append_nil] at n2 ⊢
        rw [n2, k2]
        rfl
      · simp only [leaves, List.append_nil] at n3 ⊢
        rw [n3, k3, List.zipIdx_append]
        simp
      · obtain ⟨lg0, hv⟩ := hv hP
        obtain ⟨lg1, hv⟩ := m4 _ _ hv
        have hv := n4 _ _ hv
        refine ⟨?_, ?_⟩
        · intro lg as h
          cases h with
          | leaf _ _ _ _ as h =>
            obtain ⟨lg', h⟩ := (k4 hP).1 _ _ h
            exact ⟨_, Evals.append hv h⟩
        · intro lg e h
          cases h with
          | leafE _ _ _ _ as h =>
            obtain ⟨lg', h⟩ := (k4 hP).2 _ _ h
            cases hv with
            | node _ _ _ _ _ _ _ _ _ e1 e2 e3 e4 => exact ⟨_, .nodeE _ _ _ _ _ _ _ _ _ e1 e2 e3 h⟩
  | err lo l us fs _ _ _ _ => simp [errs, Tree.errs] at he
  | node r rule cs us fs h1 h2 h3 ih1 ih2 =>
    simp only [errs, Tree.errs, List.append_eq_nil_iff] at he
    simp only [leaves, Tree.leaves, List.map_append] at hw
    obtain ⟨w1, w2, rfl, hw1, hw2⟩ := hw.append_inv
    obtain ⟨cs', k1, k2, k3, k4⟩ := ih1 he.1 w1 hw1 pre (w2 ++ post) (by simp [hi])
    obtain ⟨fs', m1, m2, m3, m4⟩ := ih2 he.2 w2 hw2 (pre ++ w1) post (by simp [hi])
    rw [List.getElem?_map] at h1
    obtain ⟨rule0, h4, rfl⟩ := Option.map_eq_some_iff.1 h1
    have h5 := getElem?_put (rules' := rules') (t := t) (h' := h') h4
    have harg : ∀ lg1 args, Evals rules cs lg1 (.ok args) → (rule0.put t h').gen (args.map Arg.lower) = rule0.gen args := by
      intro lg1 args e
      show rule0.gen _ = _
      rw [show List.zipWith (Arg.raise t) rule0.rhs (args.map Arg.lower) = args from raise_lower e h2 he.1 hw1.tok_ne _ rfl]
    refine ⟨.node r cs' :: fs', .node _ (rule0.put t h').plain _ _ _ (by simp [h5]) k1 m1, by simp [errs, Tree.errs, k2, m2], ?_, fun hP => ⟨?_, ?_⟩⟩
    · simp [leaves, Tree.leaves, k3, m3, List.zipIdx_append]
    · intro lg as h
      cases h with
      | node _ rule _ lg1 args v _ lg2 as e1 e2 e3 e4 =>
        rw [h4] at e1; cases e1
        obtain ⟨l1, h1'⟩ := (k4 hP).1 _ _ e2
        obtain ⟨l2, h2'⟩ := (m4 hP).1 _ _ e4
        exact ⟨_, .node _ _ _ _ _ _ _ _ _ h5 h1' ((harg _ _ e2).trans e3) h2'⟩
    · intro lg e h
      cases h with
      | nodeE _ rule _ lg1 args v _ lg2 e e1 e2 e3 e4 =>
        rw [h4] at e1; cases e1
        obtain ⟨l1, h1'⟩ := (k4 hP).1 _ _ e2
        obtain ⟨l2, h2'⟩ := (m4 hP).2 _ _ e4
        exact ⟨_, .nodeE _ _ _ _ _ _ _ _ _ h5 h1' ((harg _ _ e2).trans e3) h2'⟩
      | fail _ rule _ lg1 args e _ e1 e2 e3 =>
        rw [h4] at e1; cases e1
        obtain ⟨l1, h1'⟩ := (k4 hP).1 _ _ e2
        exact ⟨_, .fail _ _ _ _ _ _ _ h5 h1' ((harg _ _ e2).trans e3)⟩
      | inner _ _ lg1 e _ e1 =>
        obtain ⟨l1, h1'⟩ := (k4 hP).2 _ _ e1
        exact ⟨_, .inner _ _ _ _ _ h1'⟩

theorem Cuts.append {M : List T → N → Prop} {l1 l2 : List (Lump N T)} {w1 w2} (h : Cuts idx t M l1 w1) (h2 : Cuts idx t M l2 w2) :
    Cuts idx t M (l1 ++ l2) (w1 ++ w2) := by
  induction h with
  | nil => exact h2
  | keep a ps w ha _ ih => exact .keep _ _ _ ha ih
  | fill u v ps w hm _ ih => rw [List.append_assoc]; exact .fill _ _ _ _ hm ih

theorem Cuts.mono {M M' : List T → N → Prop} (hm : ∀ u v, M u v → M' u v) {l : List (Lump N T)} {w} (h : Cuts idx t M l w) : Cuts idx t M' l w := by
  induction h with
  | nil => exact .nil
  | keep a ps w ha _ ih => exact .keep _ _ _ ha ih
  | fill u v ps w h _ ih => exact .fill _ _ _ _ (hm _ _ h) ih

/-- If no callback fails, there is a value. -/
theorem Evals.total (htot : ∀ r ∈ rules, ∀ args, ∃ v, r.gen args = .ok v) {fs : List (Tree (Lump N T))} {lg x} (h : Evals rules fs lg x) :
    ∃ as, x = .ok as := by
  induction h with
  | nil => exact ⟨_, rfl⟩
  | leaf => exact ⟨_, rfl⟩
  | leafE _ _ _ _ _ _ ih => exact ih
  | err => exact ⟨_, rfl⟩
  | errE _ _ _ _ _ _ ih => exact ih
  | node => exact ⟨_, rfl⟩
  | nodeE _ _ _ _ _ _ _ _ _ _ _ _ _ _ ih => exact ih
  | fail r rule cs lg1 args e fs h1 _ h3 _ =>
    obtain ⟨v, hv⟩ := htot rule (List.mem_of_getElem? h1) args
    rw [hv] at h3
    cases h3
  | inner r cs lg1 e fs _ ih =>
    obtain ⟨_, h⟩ := ih
    cases h

/-- The same, if one piece fails and those in front of it do not. -/
theorem fill_fail {M M' : List T → N → Prop} (htot : ∀ r ∈ rules, ∀ args, ∃ v, r.gen args = .ok v)
    (hM : ∀ u v, M u v → ∃ f, IsTree (rules'.map Rule.plain) h' idx u f ∧ ∃ lg, Evals rules' [f] lg (.ok [.nt v]))
    (hM' : ∀ u v, M' u v → ∃ f, IsTree (rules'.map Rule.plain) h' idx u f)
    {u : List T} {f : Tree T} {lg0 e} (hf : IsTree (rules'.map Rule.plain) h' idx u f) (hv : Evals rules' [f] lg0 (.error e))
    {us fs} (h : Built (rules.map Rule.plain) (Lump.idx idx t) ps us fs) (he : errs fs = []) (l1 l2 : List (Lump N T)) (v0 : N)
    (hl : (leaves fs).map Prod.fst = l1 ++ .val v0 :: l2) (w1 w2 : List T) (hw1 : Cuts idx t M l1 w1) (hw2 : Cuts idx t M' l2 w2)
    (input pre post : List T) (hi : input = pre ++ (w1 ++ (u ++ w2)) ++ post) :
    ∃ fs', Built ((putRules t h' rules rules').map Rule.plain) idx input (us.map (Sym.put t h')) fs' ∧ errs fs' = [] ∧
      leaves fs' = (w1 ++ (u ++ w2)).zipIdx pre.length ∧ ∃ lg, Evals (putRules t h' rules rules') fs' lg (.error e) := by
  have hM1 : ∀ u v, M u v → ∃ f, IsTree (rules'.map Rule.plain) h' idx u f ∧ (True → ∃ lg, Evals rules' [f] lg (.ok [.nt v])) :=
    fun u v h => by
      obtain ⟨f, h1, h2⟩ := hM u v h
      exact ⟨f, h1, fun _ => h2⟩
  have hM2 : ∀ u v, M' u v → ∃ f, IsTree (rules'.map Rule.plain) h' idx u f ∧ (False → ∃ lg, Evals rules' [f] lg (.ok [.nt v])) :=
    fun u v h => by
      obtain ⟨f, h1⟩ := hM' u v h
      exact ⟨f, h1, nofun⟩
  induction h generalizing l1 w1 l2 w2 pre post with
  | nil => simp [leaves] at hl
  | leaf i a us fs h1 h2 ih =>
    simp only [leaves, Tree.leaves, List.cons_append, List.nil_append, List.map_cons] at hl
    have he' : errs fs = [] := by simpa [errs, Tree.errs] using he
    cases l1 with
    | nil =>
      cases hw1
      simp only [List.nil_append, List.cons.injEq] at hl hi ⊢
      obtain ⟨rfl, rfl⟩ := hl
      obtain ⟨fs', k1, k2, k3, _⟩ := fill_tree False hM2 h2 he' w2 hw2 input (pre ++ u) post (by simp [hi])
      obtain ⟨f1, m1, m2, m3, m4⟩ := part_tree (rules := putRules t h' rules rules') (fun r hr => List.mem_append_right _ hr) hf.1 hf.2.1
      have hlv : (leaves f1).map Prod.fst = u := by rw [m3, hf.2.2, List.zipIdx_map_fst]
      obtain ⟨f2, n1, n2, n3, n4⟩ := relabel m1 m2 input pre (w2 ++ post) (by rw [hlv, hi]; simp)
      obtain ⟨f3, rfl⟩ : ∃ f, f2 = [f] := by
        match f2, n1.length with
        | [f], _ => exact ⟨f, rfl⟩
      rw [hlv] at n3
      have hput : Sym.put t h' (.tm (.sym (Lump.idx idx t (.val v0 : Lump N T)))) = .nt h' := by simp [Sym.put, Lump.idx]
      refine ⟨f3 :: fs', ?_, ?_, ?_, ?_⟩
      · rw [List.map_cons, hput]
        cases n1 with
        | node r rule cs _ _ e1 e2 e3 => exact .node _ _ _ _ _ e1 e2 k1
      · simp only [errs, List.append_nil] at n2 ⊢
        rw [n2, k2]
        rfl
      · simp only [leaves, List.append_nil] at n3 ⊢
        rw [n3, k3, List.zipIdx_append]
        simp
      · obtain ⟨lg1, hv⟩ := m4 _ _ hv
        exact ⟨_, (n4 _ _ hv).fail_cons _⟩
    | cons x l1 =>
      simp only [List.cons_append, List.cons.injEq] at hl
      obtain ⟨rfl, hl⟩ := hl
      have hsplit : ∃ w3 w4, w1 = w3 ++ w4 ∧ Cuts idx t M [a] w3 ∧ Cuts idx t M l1 w4 :=
        Cuts.append_inv (l1 := [a]) hw1
      obtain ⟨w3, w4, rfl, c1, c2⟩ := hsplit
      obtain ⟨fs', k1, k2, k3, lg', k4⟩ := ih he' l1 l2 hl w4 w2 c2 hw2 (pre ++ w3) post (by simp [hi])
      obtain ⟨gs, m1, m2, m3, m4⟩ := fill_tree (rules := rules) True hM1 (Built.leaf i a [] [] h1 .nil) (by simp [errs, Tree.errs]) w3 (by simpa [leaves, Tree.leaves] using c1) input pre
        (w4 ++ (u ++ w2) ++ post) (by simp [hi])
      obtain ⟨lg3, m4⟩ := (m4 trivial).1 _ _ (.leaf i a [] [] [] .nil)
      obtain ⟨f3, rfl⟩ : ∃ f, gs = [f] := by
        match gs, m1.length with
        | [f], _ => exact ⟨f, rfl⟩
      refine ⟨f3 :: fs', ?_, ?_, ?_, ?_⟩
      · exact Built.append m1 k1
      · simp only [errs, List.append_nil] at m2 ⊢
        rw [m2, k2]
        rfl
      · simp only [leaves, List.append_nil] at m3 ⊢
        rw [m3, k3]
        simp [List.zipIdx_append]
      · exact m4.ok_fail k4
  | err lo l us fs _ _ _ _ => simp [errs, Tree.errs] at he
  | node r rule cs us fs h1 h2 h3 ih1 ih2 =>
    simp only [errs, Tree.errs, List.append_eq_nil_iff] at he
    simp only [leaves, Tree.leaves, List.map_append] at hl
    rw [List.getElem?_map] at h1
    obtain ⟨rule0, h4, rfl⟩ := Option.map_eq_some_iff.1 h1
    have h5 := getElem?_put (rules' := rules') (t := t) (h' := h') h4
    rcases List.append_eq_append_iff.1 hl with ⟨l3, e1, e2⟩ | ⟨l3, e1, e2⟩
    · -- the piece is behind
      rw [e1] at hw1
      obtain ⟨w3, w4, rfl, c1, c2⟩ := hw1.append_inv
      obtain ⟨cs', k1, k2, k3, k4⟩ := fill_tree True hM1 h2 he.1 w3 c1 input pre (w4 ++ (u ++ w2) ++ post) (by simp [hi])
      obtain ⟨fs', m1, m2, m3, lg', m4⟩ := ih2 he.2 l3 l2 e2 w4 w2 c2 hw2 (pre ++ w3) post (by simp [hi])
      obtain ⟨lg1, x, hx⟩ := Built.evals h2
      obtain ⟨args, rfl⟩ := hx.total htot
      obtain ⟨lg2, hx'⟩ := (k4 trivial).1 _ _ hx
      obtain ⟨v, hgen⟩ := htot rule0 (List.mem_of_getElem? h4) args
      have harg : (rule0.put t h').gen (args.map Arg.lower) = rule0.gen args := by
        show rule0.gen _ = _
        rw [show List.zipWith (Arg.raise t) rule0.rhs (args.map Arg.lower) = args from raise_lower hx h2 he.1 c1.tok_ne _ rfl]
      refine ⟨.node r cs' :: fs', .node _ (rule0.put t h').plain _ _ _ (by simp [h5]) k1 m1, by simp [errs, Tree.errs, k2, m2], ?_,
        _, .nodeE _ _ _ _ _ _ _ _ _ h5 hx' (harg.trans hgen) m4⟩
      simp [leaves, Tree.leaves, k3, m3, List.zipIdx_append]
    · -- the piece is inside, if there is anything of the rest in `cs`
      cases l3 with
      | nil =>
        simp only [List.append_nil] at e1
        simp only [List.nil_append] at e2
        rw [← e1] at hw1
        obtain ⟨cs', k1, k2, k3, k4⟩ := fill_tree True hM1 h2 he.1 w1 hw1 input pre (u ++ w2 ++ post) (by simp [hi])
        obtain ⟨fs', m1, m2, m3, lg', m4⟩ := ih2 he.2 [] l2 e2.symm [] w2 .nil hw2 (pre ++ w1) post (by simp [hi])
        obtain ⟨lg1, x, hx⟩ := Built.evals h2
        obtain ⟨args, rfl⟩ := hx.total htot
        obtain ⟨lg2, hx'⟩ := (k4 trivial).1 _ _ hx
        obtain ⟨v, hgen⟩ := htot rule0 (List.mem_of_getElem? h4) args
        have harg : (rule0.put t h').gen (args.map Arg.lower) = rule0.gen args := by
          show rule0.gen _ = _
          rw [show List.zipWith (Arg.raise t) rule0.rhs (args.map Arg.lower) = args from raise_lower hx h2 he.1 hw1.tok_ne _ rfl]
        refine ⟨.node r cs' :: fs', .node _ (rule0.put t h').plain _ _ _ (by simp [h5]) k1 m1, by simp [errs, Tree.errs, k2, m2], ?_,
          _, .nodeE _ _ _ _ _ _ _ _ _ h5 hx' (harg.trans hgen) m4⟩
        simp only [List.nil_append, List.length_append] at m3
        simp [leaves, Tree.leaves, k3, m3, List.zipIdx_append]
      | cons y l3 =>
        simp only [List.cons_append, List.cons.injEq] at e2
        obtain ⟨rfl, rfl⟩ := e2
        obtain ⟨w5, w6, rfl, c1, c2⟩ := hw2.append_inv
        obtain ⟨cs', k1, k2, k3, lg', k4⟩ := ih1 he.1 l1 l3 e1 w1 w5 hw1 c1 pre (w6 ++ post) (by simp [hi])
        obtain ⟨fs', m1, m2, m3, _⟩ := fill_tree False hM2 h3 he.2 w6 c2 input (pre ++ (w1 ++ (u ++ w5))) post (by simp [hi])
        refine ⟨.node r cs' :: fs', .node _ (rule0.put t h').plain _ _ _ (by simp [h5]) k1 m1, by simp [errs, Tree.errs, k2, m2], ?_,
          _, .inner _ _ _ _ _ k4⟩
        simp only [leaves, Tree.leaves, k3, m3]
        simp [List.zipIdx_append, Nat.add_assoc]

end Verif.Par
