import Verif.Par.Grammar

/-!
# Derivations, big-step
-/

namespace Verif.Par

/-- Big-step derivation of a string of symbols from a string of symbols. -/
inductive Gen (R : List PRule) : List Sym → List Sym → Prop
  | nil : Gen R [] []
  | keep (X l w) : Gen R l w → Gen R (X :: l) (X :: w)
  | expand (r l u v) : r ∈ R → Gen R r.rhs u → Gen R l v → Gen R (.nt r.lhs :: l) (u ++ v)

variable {R : List PRule}

theorem Gen.refl (l : List Sym) : Gen R l l := by
  induction l with
  | nil => exact .nil
  | cons X l ih => exact .keep X l l ih

theorem Gen.append {l w l' w' : List Sym} (h : Gen R l w) (h' : Gen R l' w') : Gen R (l ++ l') (w ++ w') := by
  induction h with
  | nil => exact h'
  | keep X l w _ ih => exact .keep X _ _ ih
  | expand r l u v hr hu _ _ ih =>
    rw [List.append_assoc]
    exact .expand r _ u _ hr hu ih

theorem Gen.split {l l' w : List Sym} (h : Gen R (l ++ l') w) : ∃ u v, w = u ++ v ∧ Gen R l u ∧ Gen R l' v := by
  induction l generalizing w with
  | nil => exact ⟨[], w, rfl, .nil, h⟩
  | cons X l ih =>
    generalize hx : X :: l ++ l' = L at h
    cases h with
    | nil => simp at hx
    | keep Y m w h' =>
      simp at hx
      obtain ⟨rfl, rfl⟩ := hx
      obtain ⟨u, v, rfl, h1, h2⟩ := ih h'
      exact ⟨X :: u, v, rfl, .keep _ _ _ h1, h2⟩
    | expand r m u v hr hu hv =>
      simp at hx
      obtain ⟨rfl, rfl⟩ := hx
      obtain ⟨u', v', rfl, h1, h2⟩ := ih hv
      exact ⟨u ++ u', v', by simp, .expand r _ _ _ hr hu h1, h2⟩

theorem Gen.nil_left {w : List Sym} (h : Gen R [] w) : w = [] := by
  cases h; rfl

theorem Gen.split_cons {X : Sym} {l w : List Sym} (h : Gen R (X :: l) w) : ∃ u v, w = u ++ v ∧ Gen R [X] u ∧ Gen R l v :=
  Gen.split (l := [X]) h

/-- What a single symbol derives. -/
theorem gen_single {X : Sym} {w : List Sym} (h : Gen R [X] w) : w = [X] ∨ ∃ r ∈ R, X = .nt r.lhs ∧ Gen R r.rhs w := by
  generalize hx : [X] = L at h
  cases h with
  | nil => cases hx
  | keep Y l w h' => cases hx; left; rw [h'.nil_left]
  | expand r l u v hr hu hv => cases hx; right; rw [hv.nil_left, List.append_nil]; exact ⟨r, hr, rfl, hu⟩

theorem Gen.trans {l w v : List Sym} (h : Gen R l w) (h' : Gen R w v) : Gen R l v := by
  induction h generalizing v with
  | nil => exact h'
  | keep X l w _ ih =>
    obtain ⟨a, b, rfl, h1, h2⟩ := h'.split_cons
    exact h1.append (l := [X]) (ih h2)
  | expand r l u' v' hr _ _ ih1 ih2 =>
    obtain ⟨a, b, rfl, h1, h2⟩ := h'.split
    exact .expand r l a b hr (ih1 h1) (ih2 h2)

theorem Gen.rule {r : PRule} (hr : r ∈ R) : Gen R [.nt r.lhs] r.rhs := by
  have := Gen.expand r [] r.rhs [] hr (.refl _) .nil
  simpa using this

theorem Gen.mid {r : PRule} (hr : r ∈ R) (x y : List Sym) : Gen R (x ++ .nt r.lhs :: y) (x ++ r.rhs ++ y) := by
  have h1 : Gen R ([.nt r.lhs] ++ y) (r.rhs ++ y) := (Gen.rule hr).append (.refl y)
  have := (Gen.refl x).append h1
  simpa using this

theorem Derives.trans {u v w : List Sym} (h : Derives R u v) (h' : Derives R v w) : Derives R u w := by
  induction h' with
  | refl => exact h
  | step x y r _ hr ih => exact .step _ x y r ih hr

theorem Derives.context {u v : List Sym} (h : Derives R u v) (x y : List Sym) : Derives R (x ++ u ++ y) (x ++ v ++ y) := by
  induction h with
  | refl => exact .refl _
  | step a b r _ hr ih =>
    have := Derives.step (x ++ u ++ y) (x ++ a) (b ++ y) r (by simpa using ih) hr
    simpa using this

theorem gen_iff {u v : List Sym} : Gen R u v ↔ Derives R u v := by
  constructor
  · intro h
    induction h with
    | nil => exact .refl _
    | keep X l w _ ih => simpa using ih.context [X] []
    | expand r l u v hr _ _ ih1 ih2 =>
      have h1 : Derives R (.nt r.lhs :: l) (r.rhs ++ l) := by
        simpa using Derives.step (.nt r.lhs :: l) [] l r (.refl _) hr
      have h2 : Derives R (r.rhs ++ l) (u ++ l) := by simpa using ih1.context [] l
      have h3 : Derives R (u ++ l) (u ++ v) := by simpa using ih2.context u []
      exact (h1.trans h2).trans h3
  · intro h
    induction h with
    | refl => exact .refl _
    | step x y r _ hr ih => exact ih.trans (.mid hr x y)

theorem Gen.mono {R' : List PRule} (hR : ∀ r ∈ R, r ∈ R') {l w : List Sym} (h : Gen R l w) : Gen R' l w := by
  induction h with
  | nil => exact .nil
  | keep X l w _ ih => exact .keep X _ _ ih
  | expand r l u v hr _ _ ih1 ih2 => exact .expand r _ _ _ (hR r hr) ih1 ih2

/-- A rule for a symbol that nothing derives can be left out. -/
theorem Gen.drop_rule {r0 : PRule} (hf : ∀ r ∈ R, Sym.nt r0.lhs ∉ r.rhs) {l w : List Sym} (h : Gen (R ++ [r0]) l w)
    (hl : Sym.nt r0.lhs ∉ l) (h0 : Sym.nt r0.lhs ∉ r0.rhs) : Gen R l w := by
  induction h with
  | nil => exact .nil
  | keep X l w _ ih => exact .keep X _ _ (ih (fun h => hl (List.mem_cons_of_mem _ h)))
  | expand r l u v hr _ _ ih1 ih2 =>
    rcases List.mem_append.1 hr with hr' | hr'
    · exact .expand r _ _ _ hr' (ih1 (hf r hr')) (ih2 (fun h => hl (List.mem_cons_of_mem _ h)))
    · simp at hr'
      subst hr'
      simp at hl

/-- Nothing but itself comes from a terminal. -/
theorem Gen.terminal {t : Term} {l w : List Sym} (h : Gen R (.tm t :: l) w) : ∃ v, w = .tm t :: v ∧ Gen R l v := by
  obtain ⟨u, v, rfl, h1, h2⟩ := h.split_cons
  rcases gen_single h1 with rfl | ⟨r, _, hx, _⟩
  · exact ⟨v, rfl, h2⟩
  · cases hx

end Verif.Par
