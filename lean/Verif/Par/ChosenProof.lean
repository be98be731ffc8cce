import Verif.Par.FullProof
import Verif.Par.RmGram

/-!
# `parse` takes the chosen tree
-/

namespace Verif.Par

variable {N T E : Type} {p : Parser N T E} {rules : List (Rule N T E)} {idx : T → Nat} {input : List T} {start fresh : Nat}

theorem gram_length : (gram rules start).rules.length = rules.length := by simp [gram]

theorem accepts_iff {g : Gram} (hf : ¬ g.Used fresh) {γ : List Sym} : Accepts (g.aug fresh) g.rules.length γ ↔ γ = [.nt g.start] := by
  constructor
  · rintro ⟨b, rule, h1, h2⟩
    rw [Gram.aug_start] at h1
    cases h1
    rcases (start_items hf h2 rfl).2 with ⟨h3, _⟩ | ⟨_, h3⟩
    · simp at h3
    · exact h3
  · rintro rfl
    exact ⟨.eoi, _, Gram.aug_start, Valid.advance [] ⟨g.rules.length, 0, .eoi⟩ ⟨fresh, [.nt g.start]⟩ _ .start Gram.aug_start rfl⟩

/-- The reductions that are done are the preferred ones. -/
theorem reduce_iff (hx : Ctx p rules start fresh) (hfr : (gram rules start).Fruitful) {γ q r a} (hw : p.tab.walk γ = some q) :
    p.tab.act q a = some (.reduce r) ↔ r ≠ rules.length ∧ Complete ((gram rules start).aug fresh) rules.length γ r a ∧ (gram rules start).Preferred γ r a := by
  have hl := gram_length (rules := rules) (start := start)
  rw [hx.canon.reduce γ q a r hw, ← hl, accepts_iff hx.unused, Gram.expects_iff hfr hx.unused]
  unfold Gram.Preferred
  constructor
  · rintro ⟨h1, h2, h3, h4, h5⟩
    exact ⟨h1, h2, h3, fun r' h' => h5 r' (Gram.handleAt_ne h') ((Gram.complete_iff hfr hx.unused (Gram.handleAt_ne h')).2 h'), h4⟩
  · rintro ⟨h1, h2, h3, h4, h5⟩
    exact ⟨h1, h2, h3, h5, fun r' h6 h7 => h4 r' ((Gram.complete_iff hfr hx.unused h6).1 h7)⟩

/-- A chosen tree is taken. -/
theorem follow_chosen (hx : Ctx p rules start fresh) (hfr : (gram rules start).Fruitful) {f : Tree T}
    (hf : (gram rules start).Chosen idx input f) {lg x} (hev : Evals rules [f] lg x) :
    (∃ v c, x = .ok [.nt v] ∧ ParsesTo idx p input (.ok v) c ∧ c.log.reverse = lg) ∨
    (∃ e c, x = .error e ∧ ParsesTo idx p input (.error (.reducer e)) c ∧ c.log.reverse = lg) := by
  have := followQ (Q := (gram rules start).Preferred) (Cy := False) hx
    (fun γ q r a h1 h2 h3 h4 => Or.inl ((reduce_iff hx hfr h1).2 ⟨h2, h3, h4⟩)) (fun r _ _ h => h.2.2 ⟨rfl, rfl⟩) hf.1 hf.2 hev
  rcases this with h | h | ⟨h, _⟩
  · exact .inl h
  · exact .inr h
  · exact h.elim

section
variable {R : List PRule} {Q : List Sym → Nat → Term → Prop}

theorem Along.append {us fs gs} (hb : Built R idx input us fs) : ∀ {γ j}, Along R Q idx input γ j fs →
    Along R Q idx input (γ ++ us) (j + (leaves fs).length) gs → Along R Q idx input γ j (fs ++ gs) := by
  induction hb with
  | nil => intro γ j _ h; simpa [leaves] using h
  | leaf i t us fs _ _ ih =>
    intro γ j h h'
    cases h with
    | leaf _ _ _ _ _ h =>
      refine .leaf _ _ _ _ _ (ih h ?_)
      have e : j + 1 + (leaves fs).length = j + (leaves (.leaf i t :: fs)).length := by simp [leaves, Tree.leaves]; omega
      rw [e]
      simpa using h'
  | err lo l us fs => intro γ j h; cases h
  | node r rule cs us fs h1 _ _ _ ih =>
    intro γ j h h'
    cases h with
    | node _ _ _ rule' _ _ k1 k2 k3 k4 =>
      rw [h1] at k1
      cases k1
      refine .node _ _ _ _ _ _ h1 k2 k3 (ih k4 ?_)
      have e : j + (leaves cs).length + (leaves fs).length = j + (leaves (.node r cs :: fs)).length := by simp [leaves, Tree.leaves]; omega
      rw [e]
      simpa using h'

theorem Along.split {us fs gs} (hb : Built R idx input us fs) : ∀ {γ j}, Along R Q idx input γ j (fs ++ gs) →
    Along R Q idx input γ j fs ∧ Along R Q idx input (γ ++ us) (j + (leaves fs).length) gs := by
  induction hb with
  | nil => intro γ j h; exact ⟨.nil _ _, by simpa [leaves] using h⟩
  | leaf i t us fs _ _ ih =>
    intro γ j h
    cases h with
    | leaf _ _ _ _ _ h =>
      obtain ⟨h1, h2⟩ := ih h
      refine ⟨.leaf _ _ _ _ _ h1, ?_⟩
      have e : j + 1 + (leaves fs).length = j + (leaves (.leaf i t :: fs)).length := by simp [leaves, Tree.leaves]; omega
      rw [e] at h2
      simpa using h2
  | err lo l us fs => intro γ j h; cases h
  | node r rule cs us fs h1 _ _ _ ih =>
    intro γ j h
    cases h with
    | node _ _ _ rule' _ _ k1 k2 k3 k4 =>
      rw [h1] at k1
      cases k1
      obtain ⟨h3, h2⟩ := ih k4
      refine ⟨.node _ _ _ _ _ _ h1 k2 k3 h3, ?_⟩
      have e : j + (leaves cs).length + (leaves fs).length = j + (leaves (.node r cs :: fs)).length := by simp [leaves, Tree.leaves]; omega
      rw [e] at h2
      simpa using h2
end

/-- The configurations on the way: all reductions so far were preferred. -/
def OnWay (p : Parser N T E) (rules : List (Rule N T E)) (idx : T → Nat) (input : List T) (start : Nat) (c : Cfg N T) : Prop :=
  ∃ j γ fs lg as, Inv p rules idx input c j γ fs lg as ∧ errs fs = [] ∧
    Along (rules.map Rule.plain) (gram rules start).Preferred idx input [] 0 fs

theorem Inv.built {c : Cfg N T} {j γ fs lg as} (h : Inv p rules idx input c j γ fs lg as) (he : errs fs = []) :
    Built (rules.map Rule.plain) idx input γ fs :=
  h.seg.elems.built fun _ _ hm => absurd he (h.seg.elems.errs_ne hm)

theorem Inv.leaves_length {c : Cfg N T} {j γ fs lg as} (h : Inv p rules idx input c j γ fs lg as) (he : errs fs = []) :
    (leaves fs).length = j := by
  have h1 := (h.clean he).1
  have h2 := h.jle
  have h3 := congrArg List.length h.read
  simp at h3
  rw [h1]
  simp
  omega

theorem OnWay.step (hx : Ctx p rules start fresh) (hfr : (gram rules start).Fruitful) (hn : (gram rules start).NoError) {c : Cfg N T}
    (h : OnWay p rules idx input start c) :
    (∃ c', Par.step idx p c = .more c' ∧ OnWay p rules idx input start c') ∨
    (∃ e c', Par.step idx p c = .done (.error e) c') ∨
    (∃ v c' f, Par.step idx p c = .done (.ok v) c' ∧ (gram rules start).Chosen idx input f ∧ Evals rules [f] c'.log.reverse (.ok [.nt v])) := by
  obtain ⟨j, γ, fs, lg, as, hi, he, hal⟩ := h
  obtain ⟨a, h1, h2, h3, h4⟩ := step_cases hx hi
  rcases h4 with ⟨t, s, _, _, _, k1, k2⟩ | ⟨r, k1, k2⟩ | ⟨v, k1, k2, k3, k4, ⟨f, k5⟩, k6, k7⟩ | ⟨k1, k2 | ⟨c', j', γ', fs', lg', as', k2, k3, k4, k5, k6, k7, k8, k9, _⟩⟩
  · left
    refine ⟨_, k1, _, _, _, _, _, k2, by simp [errs_append, he, errs, Tree.errs], hal.append (hi.built he) (.leaf _ _ _ _ _ (.nil _ _))⟩
  · have k1' : p.tab.act (fill idx c).state a = some (.reduce r) := by rw [fill_state]; exact k1
    obtain ⟨rule, γ0, fs0, fs1, lg0, lg1, as0, as1, m1, m2, m3, m4, m5, m6⟩ := h2.reduce hx k1'
    have hez : errs fs0 = [] ∧ errs fs1 = [] := by rw [m3, errs_append, List.append_eq_nil_iff] at he; exact he
    rcases m6 with ⟨m6, m7, m8⟩ | ⟨m6, m7, m8, m9, m10⟩
    · exact absurd hez.2 m8
    · cases hg : rule.gen as1 with
      | error e =>
        right; left
        exact ⟨_, _, by rw [k2, m9 e hg]⟩
      | ok v =>
        left
        obtain ⟨q, q0, i, st, n1, n2⟩ := m10 v hg
        rw [k2]
        refine ⟨_, n1, _, _, _, _, _, n2, by simp [errs_append, hez, errs, Tree.errs], ?_⟩
        have hb0 : Built (rules.map Rule.plain) idx input γ0 fs0 := by
          have hs := h2.seg
          rw [m2] at hs
          obtain ⟨st0, q0, f0, l0, a0, st1, f1, l1, a1, _, z1, z2, z3, z4, z5⟩ := hs.split
          have : fs1.length = f1.length := by
            rw [← m6.length, ← (z5.elems.built fun _ _ hm => absurd ?_ (z5.elems.errs_ne hm)).length]
            rw [z1, errs_append, List.append_eq_nil_iff] at he
            exact he.2
          rw [m3] at z1
          obtain ⟨rfl, rfl⟩ := List.append_inj' z1 this
          exact z4.elems.built fun _ _ hm => absurd hez.1 (z4.elems.errs_ne hm)
        rw [m3] at hal
        obtain ⟨w1, w2⟩ := hal.split hb0
        refine w1.append hb0 (.node _ _ _ rule.plain _ _ (by rw [List.getElem?_map, m1]; rfl) w2 ?_ (.nil _ _))
        have hlen := hi.leaves_length he
        rw [m3, leaves_append, List.length_append] at hlen
        have e : 0 + (leaves fs0).length + (leaves fs1).length = j := by omega
        rw [e, ← h1.next]
        have := ((reduce_iff hx hfr hi.seg.walk).1 k1).2.2
        rw [m2] at this
        simpa [Rule.plain] using this
  · right; right
    subst k3 k4 k5 k6
    refine ⟨v, _, f, k7, ⟨⟨hi.built he, he, ?_⟩, hal⟩, ?_⟩
    · rw [(hi.clean he).1, List.take_length]
    · rw [fill_log, ← (hi.clean he).2.1]
      exact hi.seg.elems.evals
  · right; left
    exact ⟨_, _, k2⟩
  · exact absurd k9 (no_err_expected hn)

/-- What `parse` returns comes from a chosen tree. -/
theorem chosen_of_parses (hx : Ctx p rules start fresh) (hfr : (gram rules start).Fruitful) (hn : (gram rules start).NoError) {v : N} {c : Cfg N T}
    (h : ParsesTo idx p input (.ok v) c) :
    ∃ f, (gram rules start).Chosen idx input f ∧ Evals rules [f] c.log.reverse (.ok [.nt v]) := by
  obtain ⟨n, h⟩ := h
  have : ∀ n c0, OnWay p rules idx input start c0 → run idx p n c0 = .done (.ok v) c →
      ∃ f, (gram rules start).Chosen idx input f ∧ Evals rules [f] c.log.reverse (.ok [.nt v]) := by
    intro n
    induction n with
    | zero => intro c0 _ h; cases h
    | succ n ih =>
      intro c0 hw h
      simp only [run] at h
      rcases hw.step hx hfr hn with ⟨c', h1, h2⟩ | ⟨e, c', h1⟩ | ⟨v', c', f, h1, h2, h3⟩
      · rw [h1] at h
        exact ih c' h2 h
      · rw [h1] at h; cases h
      · rw [h1] at h
        cases h
        exact ⟨f, h2, h3⟩
  exact this n _ ⟨0, [], [], [], [], .init, rfl, .nil _ _⟩ h

/-- The parser whose callbacks build the tree. -/
def treeParser (T : Type) (g : Gram) (tab : Tables) : Parser (Tree T) T Unit :=
  ⟨treeRules g.rules ++ [⟨freshSym ((treeRules (T := T) g.rules).map Rule.plain), [.nt g.start], fun _ => .error ()⟩], tab⟩

theorem treeGram (g : Gram) : gram (treeRules (T := T) g.rules) g.start = g := by simp only [gram, treeRules_plain]

theorem treeParser_makes {o : Seeds} {g : Gram} {tab : Tables} {ws : List Warning} (h : NewGives o g (.ok (tab, ws))) :
    MakesParser o (treeRules (T := T) g.rules) g.start (treeParser T g tab) ws :=
  ⟨by rw [treeGram]; exact h, _, rfl⟩

theorem treeParser_chosen {o : Seeds} (ho : o.Fair) {g : Gram} (hok : g.Ok) (hfr : g.Fruitful) {tab : Tables} {ws : List Warning}
    (h : NewGives o g (.ok (tab, ws))) {f : Tree T} (hf : g.Chosen idx input f) :
    ∃ c, ParsesTo idx (treeParser T g tab) input (.ok f.erase) c := by
  obtain ⟨fresh, hx⟩ := ctx_of_makes ho (by rw [treeGram]; exact hok) (treeParser_makes (T := T) h)
  obtain ⟨lg, as, k1, k2⟩ := hf.1.1.treeEvals
  rcases follow_chosen (idx := idx) (input := input) hx (by rw [treeGram]; exact hfr) (f := f) (by rw [treeGram]; exact hf) k1 with ⟨v, c, m1, m2, _⟩ | ⟨e, c, m1, _⟩
  · cases m1
    have : v = f.erase := by simpa [erases, Arg.tree] using k2
    rw [← this]
    exact ⟨c, m2⟩
  · cases m1

theorem treeParser_taken {o : Seeds} (ho : o.Fair) {g : Gram} (hok : g.Ok) (hfr : g.Fruitful) (hn : g.NoError) {tab : Tables} {ws : List Warning}
    (h : NewGives o g (.ok (tab, ws))) {v : Tree T} {c} (hp : ParsesTo idx (treeParser T g tab) input (.ok v) c) :
    ∃ f, g.Chosen idx input f ∧ v = f.erase := by
  obtain ⟨fresh, hx⟩ := ctx_of_makes ho (by rw [treeGram]; exact hok) (treeParser_makes (T := T) h)
  obtain ⟨f, h1, h2⟩ := chosen_of_parses hx (by rw [treeGram]; exact hfr) (by rw [treeGram]; exact hn) hp
  rw [treeGram] at h1
  obtain ⟨lg, as, k1, k2⟩ := h1.1.1.treeEvals
  obtain ⟨_, h3⟩ := k1.unique h2
  cases h3
  exact ⟨f, h1, by simpa [erases, Arg.tree] using k2⟩

/-- At most one tree is chosen. -/
theorem chosen_unique {o : Seeds} (ho : o.Fair) {g : Gram} (hok : g.Ok) (hfr : g.Fruitful) {tab : Tables} {ws : List Warning}
    (h : NewGives o g (.ok (tab, ws))) {f f' : Tree T} (hf : g.Chosen idx input f) (hf' : g.Chosen idx input f') : f = f' := by
  obtain ⟨c, h1⟩ := treeParser_chosen ho hok hfr h hf
  obtain ⟨c', h2⟩ := treeParser_chosen ho hok hfr h hf'
  have h3 := (h1.unique h2).1
  injection h3 with h3
  have := erases_inj [f] [f'] (by simp [erases, h3]) (by rw [hf.1.2.2, hf'.1.2.2]) hf.1.2.1
  simpa using this

end Verif.Par
