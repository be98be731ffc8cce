import Verif.Par.Plug
import Verif.Par.EmbedAug
import Verif.Par.PartProof

/-!
# Putting a grammar into another one: proofs for C76
-/

namespace Verif.Par

/-- The symbols of a grammar. -/
def Gram.Has (g : Gram) : Sym → Prop
  | .nt n => g.Used n
  | .tm u => ∃ r ∈ g.rules, Sym.tm u ∈ r.rhs

theorem Gram.has_rhs {g : Gram} {r : PRule} (hr : r ∈ g.rules) {X : Sym} (hX : X ∈ r.rhs) : g.Has X := by
  cases X with
  | nt n => exact ⟨r, hr, .inr hX⟩
  | tm u => exact ⟨r, hr, hX⟩

theorem Gram.has_gen {g : Gram} {l w : List Sym} (h : Gen g.rules l w) (hl : ∀ X ∈ l, g.Has X) : ∀ X ∈ w, g.Has X := by
  induction h with
  | nil => exact hl
  | keep X l w _ ih =>
    intro Y hY
    rcases List.mem_cons.1 hY with rfl | hY
    · exact hl _ List.mem_cons_self
    · exact ih (fun Z hZ => hl Z (List.mem_cons_of_mem _ hZ)) Y hY
  | expand r l u v hr _ _ ih1 ih2 =>
    intro Y hY
    rcases List.mem_append.1 hY with hY | hY
    · exact ih1 (fun Z hZ => g.has_rhs hr hZ) Y hY
    · exact ih2 (fun Z hZ => hl Z (List.mem_cons_of_mem _ hZ)) Y hY

theorem Gram.Closed.used {g : Gram} (h : g.Closed) : g.Used g.start := by
  obtain ⟨r, hr, h⟩ := h.1
  exact ⟨r, hr, .inl h⟩

/-- What `u` becomes if something derived from the start symbol of `g'` is put in place of each `t`. -/
inductive Fill (t : Nat) (g' : Gram) : List Sym → List Sym → Prop
  | nil : Fill t g' [] []
  | keep (X u v) : X ≠ .tm (.sym t) → Fill t g' u v → Fill t g' (X :: u) (X :: v)
  | put (w u v) : Gen g'.rules [.nt g'.start] w → Fill t g' u v → Fill t g' (.tm (.sym t) :: u) (w ++ v)

theorem Fill.append {t : Nat} {g' : Gram} {u v u' v' : List Sym} (h : Fill t g' u v) (h' : Fill t g' u' v') : Fill t g' (u ++ u') (v ++ v') := by
  induction h with
  | nil => exact h'
  | keep X u v hX _ ih => exact .keep X _ _ hX ih
  | put w u v hw _ ih => rw [List.append_assoc]; exact .put w _ _ hw ih

section
variable {g g' : Gram} {t : Nat}

theorem Sym.put_tm {h : Nat} : Sym.put t h (.tm (.sym t)) = .nt h := by simp [Sym.put]

theorem Sym.put_ne {h : Nat} {X : Sym} (hX : X ≠ .tm (.sym t)) : Sym.put t h X = X := by simp [Sym.put, hX]

theorem Apart.not_has (ha : Apart g g') {r : PRule} (hr : r ∈ g.rules) {X : Sym} (hX : X ∈ r.rhs) : ¬ g'.Has X := by
  cases X with
  | nt n => exact ha.nts n ⟨r, hr, .inr hX⟩
  | tm u => rintro ⟨r', hr', h⟩; exact ha.tms r hr u hX r' hr' h

/-- Derivations from symbols of `g'` use rules of `g'`. -/
theorem gen_inner (ha : Apart g g') {l w : List Sym} (h : Gen (g.put t g').rules l w) (hl : ∀ X ∈ l, g'.Has X) : Gen g'.rules l w := by
  induction h with
  | nil => exact .nil
  | keep X l w _ ih => exact .keep X _ _ (ih fun Y hY => hl Y (List.mem_cons_of_mem _ hY))
  | expand r l u v hr _ _ ih1 ih2 =>
    have h2 := ih2 fun Y hY => hl Y (List.mem_cons_of_mem _ hY)
    rcases List.mem_append.1 hr with hr | hr
    · obtain ⟨r0, h0, rfl⟩ := List.mem_map.1 hr
      exact absurd (hl _ List.mem_cons_self) (ha.nts _ ⟨r0, h0, .inl rfl⟩)
    · exact .expand r _ _ _ hr (ih1 fun Y hY => g'.has_rhs hr hY) h2

/-- Derivations from symbols of `g` are derivations of `g`, with something in place of `t`. -/
theorem gen_outer (ha : Apart g g') (hc' : g'.Closed) {l v : List Sym} (h : Gen (g.put t g').rules l v) :
    ∀ u, l = u.map (Sym.put t g'.start) → (∀ X ∈ u, ¬ g'.Has X) → ∃ u', Gen g.rules u u' ∧ (∀ X ∈ u', ¬ g'.Has X) ∧ Fill t g' u' v := by
  induction h with
  | nil =>
    intro u hu _
    simp at hu
    subst hu
    exact ⟨[], .nil, by simp, .nil⟩
  | keep X l w _ ih =>
    intro u hu hX
    cases u with
    | nil => simp at hu
    | cons Y u =>
      obtain ⟨e1, e2⟩ := List.cons.inj hu
      obtain ⟨u', h1, h2, h3⟩ := ih u e2 fun Z hZ => hX Z (List.mem_cons_of_mem _ hZ)
      refine ⟨Y :: u', .keep Y _ _ h1, ?_, ?_⟩
      · intro Z hZ
        rcases List.mem_cons.1 hZ with rfl | hZ
        · exact hX _ List.mem_cons_self
        · exact h2 Z hZ
      · by_cases hY : Y = .tm (.sym t)
        · subst hY
          rw [Sym.put_tm] at e1
          subst e1
          exact .put [.nt g'.start] _ _ (.refl _) h3
        · rw [Sym.put_ne hY] at e1
          subst e1
          exact .keep _ _ _ hY h3
  | expand r l a b hr hg _ ih1 ih2 =>
    intro u hu hX
    cases u with
    | nil => simp at hu
    | cons Y u =>
      obtain ⟨e1, e2⟩ := List.cons.inj hu
      obtain ⟨u', h1, h2, h3⟩ := ih2 u e2 fun Z hZ => hX Z (List.mem_cons_of_mem _ hZ)
      by_cases hY : Y = .tm (.sym t)
      · subst hY
        rw [Sym.put_tm] at e1
        simp only [Sym.nt.injEq] at e1
        have hr' : r ∈ g'.rules := by
          rcases List.mem_append.1 hr with hr | hr
          · obtain ⟨r0, h0, rfl⟩ := List.mem_map.1 hr
            exact absurd (e1 ▸ hc'.used) (ha.nts _ ⟨r0, h0, .inl rfl⟩)
          · exact hr
        refine ⟨.tm (.sym t) :: u', .keep _ _ _ h1, ?_, .put a _ _ ?_ h3⟩
        · intro Z hZ
          rcases List.mem_cons.1 hZ with rfl | hZ
          · exact hX _ List.mem_cons_self
          · exact h2 Z hZ
        · rw [← e1]
          exact (Gen.rule hr').trans (gen_inner ha hg fun Z hZ => g'.has_rhs hr' hZ)
      · rw [Sym.put_ne hY] at e1
        subst e1
        rcases List.mem_append.1 hr with hr | hr
        · obtain ⟨r0, h0, rfl⟩ := List.mem_map.1 hr
          obtain ⟨u1, k1, k2, k3⟩ := ih1 r0.rhs rfl fun Z hZ => ha.not_has h0 hZ
          refine ⟨u1 ++ u', .expand r0 _ _ _ h0 k1 h1, ?_, k3.append h3⟩
          intro Z hZ
          rcases List.mem_append.1 hZ with hZ | hZ
          · exact k2 Z hZ
          · exact h2 Z hZ
        · exact absurd ⟨r, hr, .inl rfl⟩ (hX (.nt r.lhs) List.mem_cons_self)

/-- The other way round. -/
theorem fill_gen {u v : List Sym} (h : Fill t g' u v) : Gen (g.put t g').rules (u.map (Sym.put t g'.start)) v := by
  induction h with
  | nil => exact .nil
  | keep X u v hX _ ih => rw [List.map_cons, Sym.put_ne hX]; exact .keep _ _ _ ih
  | put w u v hw _ ih =>
    rw [List.map_cons, Sym.put_tm]
    exact Gen.append (l := [_]) (hw.mono fun r hr => List.mem_append_right _ hr) ih

theorem gen_put {u v : List Sym} (h : Gen g.rules u v) : Gen (g.put t g').rules (u.map (Sym.put t g'.start)) (v.map (Sym.put t g'.start)) := by
  induction h with
  | nil => exact .nil
  | keep X l w _ ih => exact .keep _ _ _ ih
  | expand r l u v hr _ _ ih1 ih2 =>
    rw [List.map_append, List.map_cons, Sym.put_ne (X := .nt r.lhs) (by simp)]
    exact .expand (r.put t g'.start) _ _ _ (List.mem_append_left _ (List.mem_map.2 ⟨r, hr, rfl⟩)) ih1 ih2

/-- The look-ahead `b` in the whole grammar stands for `a` in `g`. -/
def Means (t : Nat) (g' : Gram) (b a : Term) : Prop := (b = a ∧ a ≠ .sym t ∧ ¬ g'.Has (.tm b)) ∨ (a = .sym t ∧ g'.Has (.tm b))

theorem Means.unique {b a a' : Term} (h : Means t g' b a) (h' : Means t g' b a') : a = a' := by
  rcases h with ⟨h1, _, h2⟩ | ⟨h1, h2⟩ <;> rcases h' with ⟨h3, _, h4⟩ | ⟨h3, h4⟩
  · exact h1.symm.trans h3
  · exact absurd h4 h2
  · exact absurd h2 h4
  · exact h1.trans h3.symm

theorem Fill.nil_of (hn : ¬ g'.Nullable) {u : List Sym} (h : Fill t g' u []) : u = [] := by
  generalize hv : ([] : List Sym) = v at h
  cases h with
  | nil => rfl
  | keep => cases hv
  | put w u v hw _ =>
    have := List.append_eq_nil_iff.1 hv.symm
    rw [this.1] at hw
    exact absurd (gen_iff.1 hw) hn

theorem Fill.first (hn : ¬ g'.Nullable) (hc' : g'.Closed) {u ρ : List Sym} {b : Term} (h : Fill t g' u (.tm b :: ρ)) (hu : ∀ X ∈ u, ¬ g'.Has X) :
    ∃ a ρ', u = .tm a :: ρ' ∧ Means t g' b a := by
  generalize hv : Sym.tm b :: ρ = v at h
  cases h with
  | nil => cases hv
  | keep X u v hX _ =>
    obtain ⟨rfl, _⟩ := List.cons.inj hv
    exact ⟨b, u, rfl, .inl ⟨rfl, fun e => hX (by rw [e]), hu _ List.mem_cons_self⟩⟩
  | put w u v hw _ =>
    refine ⟨_, u, rfl, .inr ⟨rfl, ?_⟩⟩
    cases w with
    | nil => exact absurd (gen_iff.1 hw) hn
    | cons X w =>
      obtain ⟨rfl, _⟩ := List.cons.inj hv
      exact g'.has_gen hw (by intro Y hY; simp only [List.mem_singleton] at hY; subst hY; exact hc'.used) _ List.mem_cons_self

/-- Look-aheads of the whole grammar and of `g`. -/
theorem la_outer (ha : Apart g g') (hc' : g'.Closed) (hn : ¬ g'.Nullable) {β ρ : List Sym} {a a' b : Term} (hβ : ∀ X ∈ β, ¬ g'.Has X)
    (hm : Means t g' a a') (h : Gen (g.put t g').rules (β.map (Sym.put t g'.start) ++ [.tm a]) (.tm b :: ρ)) :
    ∃ b' ρ', Gen g.rules (β ++ [.tm a']) (.tm b' :: ρ') ∧ Means t g' b b' := by
  obtain ⟨v1, v2, e, h1, h2⟩ := h.split
  obtain ⟨u', k1, k2, k3⟩ := gen_outer ha hc' h1 β rfl hβ
  cases v1 with
  | nil =>
    obtain ⟨v, rfl, h3⟩ := h2.terminal
    have := List.cons.inj e
    simp only [Sym.tm.injEq] at this
    obtain ⟨rfl, _⟩ := this
    rw [k3.nil_of hn] at k1
    exact ⟨a', [], k1.append (.refl _), hm⟩
  | cons X v1 =>
    obtain ⟨rfl, _⟩ := List.cons.inj e
    obtain ⟨b', ρ', rfl, h3⟩ := k3.first hn hc' k2
    exact ⟨b', ρ' ++ [.tm a'], k1.append (.refl _), h3⟩

/-! ## Sentences -/

theorem Fill.words {u : List Sym} {w : List Nat} (h : Fill t g' u (w.map fun a => .tm (.sym a))) (hu : ∀ X ∈ u, ¬ g'.Has X) :
    ∃ v : List Nat, u = v.map (fun a => .tm (.sym a)) ∧ Filled t g'.Sentence v w := by
  generalize hx : w.map (fun a => Sym.tm (.sym a)) = x at h
  induction h generalizing w with
  | nil =>
    simp only [List.map_eq_nil_iff] at hx
    subst hx
    exact ⟨[], rfl, .nil⟩
  | keep X u v hX _ ih =>
    cases w with
    | nil => cases hx
    | cons a w =>
      obtain ⟨rfl, e⟩ := List.cons.inj hx
      obtain ⟨v', rfl, h2⟩ := ih (fun Y hY => hu Y (List.mem_cons_of_mem _ hY)) e
      exact ⟨a :: v', rfl, .keep _ _ _ (by rintro rfl; exact hX rfl) h2⟩
  | put y u v hy _ ih =>
    obtain ⟨w1, w2, rfl, e1, e2⟩ := List.map_eq_append_iff.1 hx
    obtain ⟨v', rfl, h2⟩ := ih (fun Y hY => hu Y (List.mem_cons_of_mem _ hY)) e2
    refine ⟨t :: v', rfl, .fill _ _ _ ?_ h2⟩
    rw [← e1] at hy
    exact gen_iff.1 hy

theorem Filled.syms {v w : List Nat} (h : Filled t g'.Sentence v w) : Fill t g' (v.map fun a => .tm (.sym a)) (w.map fun a => .tm (.sym a)) := by
  induction h with
  | nil => exact .nil
  | keep a v w ha _ ih => exact .keep _ _ _ (by simpa using ha) ih
  | fill u v w hu _ ih => rw [List.map_append]; exact .put _ _ _ (gen_iff.2 hu) ih

theorem put_sentence (ha : Apart g g') (hc : g.Closed) (hc' : g'.Closed) (w : List Nat) :
    (g.put t g').Sentence w ↔ ∃ v, g.Sentence v ∧ Filled t g'.Sentence v w := by
  constructor
  · intro h
    obtain ⟨u, h1, h2, h3⟩ := gen_outer ha hc' (gen_iff.2 h) [.nt g.start] (by simp [Sym.put, Gram.put])
      (by intro X hX; simp only [List.mem_singleton] at hX; subst hX; exact ha.nts _ hc.used)
    obtain ⟨v, rfl, h4⟩ := h3.words h2
    exact ⟨v, gen_iff.1 h1, h4⟩
  · rintro ⟨v, h1, h2⟩
    have := (gen_put (t := t) (g' := g') (gen_iff.2 h1)).trans (fill_gen h2.syms)
    exact gen_iff.1 (by simpa [Sym.put, Gram.put] using this)

/-! ## The start symbol does not derive itself -/

theorem Fill.outer (hn : ¬ g'.Nullable) (hc' : g'.Closed) {u v : List Sym} (h : Fill t g' u v) (hv : ∀ X ∈ v, ¬ g'.Has X) : u = v := by
  induction h with
  | nil => rfl
  | keep X u v _ _ ih => rw [ih fun Y hY => hv Y (List.mem_cons_of_mem _ hY)]
  | put w u v hw _ _ =>
    cases w with
    | nil => exact absurd (gen_iff.1 hw) hn
    | cons X w =>
      refine absurd (g'.has_gen hw ?_ X List.mem_cons_self) (hv X List.mem_cons_self)
      intro Y hY
      simp only [List.mem_singleton] at hY
      subst hY
      exact hc'.used

theorem Fill.inside {u v : List Sym} (h : Fill t g' u v) (hu : ∀ X ∈ u, ¬ g'.Has X) {x y : List Sym} {X : Sym} (e : v = x ++ X :: y) (hX : g'.Has X) :
    ∃ w1 w2, Gen g'.rules [.nt g'.start] (w1 ++ X :: w2) ∧ (∀ Z ∈ w1, Z ∈ x) ∧ ∀ Z ∈ w2, Z ∈ y := by
  induction h generalizing x with
  | nil => simp at e
  | keep Z u v _ _ ih =>
    cases x with
    | nil =>
      obtain ⟨rfl, _⟩ := List.cons.inj e
      exact absurd hX (hu _ List.mem_cons_self)
    | cons Z' x =>
      obtain ⟨rfl, e'⟩ := List.cons.inj e
      obtain ⟨w1, w2, h1, h2, h3⟩ := ih (fun Y hY => hu Y (List.mem_cons_of_mem _ hY)) e'
      exact ⟨w1, w2, h1, fun Y hY => List.mem_cons_of_mem _ (h2 Y hY), h3⟩
  | put w u v hw _ ih =>
    rcases List.append_eq_append_iff.1 e with ⟨a', rfl, e2⟩ | ⟨c', rfl, e2⟩
    · obtain ⟨w1, w2, h1, h2, h3⟩ := ih (fun Y hY => hu Y (List.mem_cons_of_mem _ hY)) e2
      exact ⟨w1, w2, h1, fun Y hY => List.mem_append_right _ (h2 Y hY), h3⟩
    · cases c' with
      | nil =>
        obtain ⟨w1, w2, h1, h2, h3⟩ := ih (fun Y hY => hu Y (List.mem_cons_of_mem _ hY)) (x := []) (by simpa using e2.symm)
        exact ⟨w1, w2, h1, fun Y hY => absurd (h2 Y hY) (by simp), h3⟩
      | cons Z c' =>
        obtain ⟨rfl, e3⟩ := List.cons.inj e2
        exact ⟨x, c', hw, fun _ h => h, fun Y hY => by rw [e3]; exact List.mem_append_left _ hY⟩

theorem put_cyclic (ha : Apart g g') (hc : g.Closed) (hc' : g'.Closed) (hn : ¬ g'.Nullable) (h : (g.put t g').Cyclic) : g.Cyclic := by
  have hst : ¬ g'.Has (.nt g.start) := ha.nts _ hc.used
  obtain ⟨x, r, y, h1, h2, h3⟩ := h
  obtain ⟨u, k1, k2, k3⟩ := gen_outer ha hc' (gen_iff.2 h2) [.nt g.start] (by simp [Sym.put, Gram.put])
    (by intro X hX; simp only [List.mem_singleton] at hX; subst hX; exact hst)
  have hall : ∀ Z ∈ x ++ r.rhs ++ y, ¬ g'.Has Z := by
    rw [h3]
    intro X hX
    simp only [List.mem_singleton] at hX
    subst hX
    exact hst
  have hx : ∀ Z ∈ x, ¬ g'.Has Z := fun Z hZ => hall Z (List.mem_append_left _ (List.mem_append_left _ hZ))
  have hy : ∀ Z ∈ y, ¬ g'.Has Z := fun Z hZ => hall Z (List.mem_append_right _ hZ)
  have hrr : ∀ Z ∈ r.rhs, ¬ g'.Has Z := fun Z hZ => hall Z (List.mem_append_left _ (List.mem_append_right _ hZ))
  rcases List.mem_append.1 h1 with hr | hr
  · obtain ⟨r0, h0, rfl⟩ := List.mem_map.1 hr
    have hl : ¬ g'.Has (.nt r0.lhs) := ha.nts _ ⟨r0, h0, .inl rfl⟩
    have e := k3.outer hn hc' (by
      intro X hX
      rcases List.mem_append.1 hX with hX | hX
      · exact hx X hX
      · rcases List.mem_cons.1 hX with rfl | hX
        · exact hl
        · exact hy X hX)
    rw [e] at k1
    refine ⟨x, r0, y, h0, gen_iff.1 k1, ?_⟩
    rw [show r0.rhs = (r0.put t g'.start).rhs from ?_]
    · exact h3
    · refine ((List.map_congr_left (g := id) ?_).trans (List.map_id _)).symm
      intro X hX
      by_cases hX' : X = .tm (.sym t)
      · subst hX'
        refine absurd hc'.used (hrr (.nt g'.start) (List.mem_map.2 ⟨_, hX, Sym.put_tm⟩))
      · exact Sym.put_ne hX'
  · have hB : g'.Has (.nt r.lhs) := ⟨r, hr, .inl rfl⟩
    obtain ⟨w1, w2, m1, m2, m3⟩ := k3.inside k2 rfl hB
    have hs : ∀ Y ∈ [Sym.nt g'.start], g'.Has Y := by
      intro Y hY
      simp only [List.mem_singleton] at hY
      subst hY
      exact hc'.used
    have hw := g'.has_gen m1 hs
    obtain rfl : w1 = [] := by
      cases w1 with
      | nil => rfl
      | cons Z w1 => exact absurd (hw Z (by simp)) (hx Z (m2 Z (by simp)))
    obtain rfl : w2 = [] := by
      cases w2 with
      | nil => rfl
      | cons Z w2 => exact absurd (hw Z (by simp)) (hy Z (m3 Z (by simp)))
    have hr0 : r.rhs = [] := by
      cases hrhs : r.rhs with
      | nil => rfl
      | cons Z l => exact absurd (g'.has_rhs (X := Z) hr (by rw [hrhs]; simp)) (hrr Z (by rw [hrhs]; simp))
    have := m1.trans (Gen.rule hr)
    rw [hr0] at this
    exact absurd (gen_iff.1 this) hn

/-! ## Neighbours -/

theorem linked_append {A : List (Sym × Sym)} {a b : List Sym} : linked A (a ++ b) = true ↔
    linked A a = true ∧ linked A b = true ∧ ∀ X Y, a.getLast? = some X → b.head? = some Y → (X, Y) ∈ A := by
  induction a with
  | nil => simp [linked]
  | cons X a ih =>
    cases a with
    | nil =>
      cases b with
      | nil => simp [linked]
      | cons Y b => simp [linked, and_comm]
    | cons Z a =>
      rw [List.cons_append, List.cons_append, linked, Bool.and_eq_true]
      rw [List.cons_append] at ih
      rw [ih, linked, Bool.and_eq_true, and_assoc]
      simp [List.getLast?_cons_cons]

theorem neighbours_step {A : List (Sym × Sym)} (hA : g.neighbours A = true) {x y : List Sym} {r : PRule} (hr : r ∈ g.rules)
    (h : linked A (x ++ .nt r.lhs :: y) = true) : linked A (x ++ r.rhs ++ y) = true := by
  simp only [Gram.neighbours, Bool.and_eq_true, List.all_eq_true, Bool.or_eq_true, bne_iff_ne, ne_eq] at hA
  obtain ⟨⟨h1, h2⟩, h3⟩ := hA
  rw [← List.singleton_append, linked_append, linked_append] at h
  obtain ⟨k1, ⟨_, k2, k3⟩, k4⟩ := h
  simp only [List.getLast?_singleton, Option.some.injEq, List.singleton_append, List.head?_cons] at k3 k4
  have h2' := h2 r hr
  have h3' := h3 r hr
  cases hrr : r.rhs with
  | nil =>
    rw [List.append_nil, linked_append]
    refine ⟨k1, k2, ?_⟩
    intro X Y hX hY
    rcases h2' _ (k4 X _ hX rfl) with h | h
    · exact absurd rfl h
    · rw [hrr] at h
      simp only [List.head?_nil, List.all_eq_true, Bool.or_eq_true, bne_iff_ne, ne_eq] at h
      rcases h _ (k3 _ Y rfl hY) with h | h
      · exact absurd rfl h
      · simpa using h
  | cons Z l =>
    rw [← hrr, linked_append, linked_append]
    refine ⟨⟨k1, h1 r hr, ?_⟩, k2, ?_⟩
    · intro X Y hX hY
      rcases h2' _ (k4 X _ hX rfl) with h | h
      · exact absurd rfl h
      · rw [hY] at h
        simpa using h
    · intro X Y hX hY
      rcases h3' _ (k3 _ Y rfl hY) with h | h
      · exact absurd rfl h
      · have : (x ++ r.rhs).getLast? = r.rhs.getLast? := by
          rw [List.getLast?_append, hrr, List.getLast?_cons]
          rfl
        rw [this] at hX
        rw [hX] at h
        simpa using h

theorem neighbours_sound {A : List (Sym × Sym)} (hA : g.neighbours A = true) {w : List Sym} (h : Derives g.rules [.nt g.start] w) : linked A w = true := by
  generalize hl : [Sym.nt g.start] = l at h
  induction h with
  | refl => subst hl; rfl
  | step x y r _ hr ih => exact neighbours_step hA hr ih

theorem neighbours_once {A : List (Sym × Sym)} (hA : g.neighbours A = true) (hn : (Sym.tm (.sym t), Sym.tm (.sym t)) ∉ A) : ¬ g.Twice t := by
  rintro ⟨x, y, h⟩
  have := neighbours_sound hA h
  rw [linked_append] at this
  have := this.2.1
  simp only [linked, Bool.and_eq_true, List.contains_iff_mem] at this
  exact hn this.1

/-! ## Items -/

/-- What is needed. -/
structure Plugs (g g' : Gram) (t fk f f' : Nat) : Prop where
  apart : Apart g g'
  ok : g.Ok
  ok' : g'.Ok
  closed : g.Closed
  closed' : g'.Closed
  nn : ¬ g'.Nullable
  once : ¬ g.Twice t
  hk : ¬ (g.put t g').Used fk
  hf : ¬ g.Used f
  hf' : ¬ g'.Used f'

variable {fk f f' : Nat}

theorem put_length : (g.put t g').rules.length = g.rules.length + g'.rules.length := by simp [Gram.put]

theorem put_left {j : Nat} (hj : j < g.rules.length) :
    ((g.put t g').aug fk)[j]? = (g.aug f)[j]?.map (PRule.put t g'.start) := by
  rw [Gram.aug, Gram.aug, List.getElem?_append_left (by rw [put_length]; omega), List.getElem?_append_left hj, Gram.put]
  simp only
  rw [List.getElem?_append_left (by simpa using hj), List.getElem?_map]

theorem put_right {j : Nat} (hj : j < g'.rules.length) : ((g.put t g').aug fk)[g.rules.length + j]? = (g'.aug f')[j]? := by
  rw [Gram.aug, Gram.aug, List.getElem?_append_left (by rw [put_length]; omega), List.getElem?_append_left hj, Gram.put]
  simp only
  rw [List.getElem?_append_right (by simp)]
  simp

theorem aug_last {g : Gram} {f : Nat} : (g.aug f)[g.rules.length]? = some ⟨f, [.nt g.start]⟩ := by simp [Gram.aug]

theorem aug_left {g : Gram} {f j : Nat} (hj : j < g.rules.length) : (g.aug f)[j]? = g.rules[j]? := by
  rw [Gram.aug, List.getElem?_append_left hj]

/-- The item of `g`. -/
def InG (g : Gram) (t : Nat) (g' : Gram) (f : Nat) (γ : List Sym) (i : Item) : Prop :=
  ∃ j γ1 a, γ = γ1.map (Sym.put t g'.start) ∧ (∀ X ∈ γ1, ¬ g'.Has X) ∧ Valid (g.aug f) g.rules.length γ1 ⟨j, i.pos, a⟩ ∧ Means t g' i.la a ∧
    ((i.rule = j ∧ j < g.rules.length) ∨ (i.rule = (g.put t g').rules.length ∧ j = g.rules.length))

/-- The item of `g'`, behind symbols of `g` that can be followed by `t`. -/
def InH (g : Gram) (t : Nat) (g' : Gram) (f f' : Nat) (γ : List Sym) (i : Item) : Prop :=
  ∃ γ1 γ2 j b, γ = γ1.map (Sym.put t g'.start) ++ γ2 ∧ (∀ X ∈ γ1, ¬ g'.Has X) ∧ (∀ X ∈ γ2, g'.Has X) ∧
    Expects (g.aug f) g.rules.length γ1 (.tm (.sym t)) ∧ i.rule = g.rules.length + j ∧ j < g'.rules.length ∧
    Valid (g'.aug f') g'.rules.length γ2 ⟨j, i.pos, b⟩ ∧ ((b = i.la ∧ g'.Has (.tm i.la)) ∨ (b = .eoi ∧ ¬ g'.Has (.tm i.la)))

namespace Plugs

variable (P : Plugs g g' t fk f f')
include P

theorem start_has : ¬ g'.Has (.nt g.start) := P.apart.nts _ P.closed.used

theorem ne_k : fk ≠ g.start := by
  rintro rfl
  obtain ⟨r, hr, h⟩ := P.closed.1
  exact P.hk ⟨r.put t g'.start, List.mem_append_left _ (List.mem_map.2 ⟨r, hr, rfl⟩), .inl h⟩

/-- Derivations with the added rule. -/
theorem gen_k {l w : List Sym} (h : Gen ((g.put t g').aug fk) l w) (hl : Sym.nt fk ∉ l) : Gen (g.put t g').rules l w :=
  Gen.unused_rule (r0 := ⟨fk, [.nt g.start]⟩) (fun r hr hm => P.hk ⟨r, hr, .inr hm⟩) h hl

/-- No right-hand side contains the added symbol. -/
theorem rhs_k {j : Nat} {r : PRule} (h : ((g.put t g').aug fk)[j]? = some r) : Sym.nt fk ∉ r.rhs := by
  rcases List.mem_append.1 (List.mem_of_getElem? h) with hm | hm
  · exact fun h => P.hk ⟨r, hm, .inr h⟩
  · simp only [List.mem_singleton] at hm
    subst hm
    intro h
    simp only [List.mem_singleton, Sym.nt.injEq] at h
    exact P.ne_k h

theorem rhs_g {j : Nat} {r : PRule} (h : (g.aug f)[j]? = some r) : ∀ X ∈ r.rhs, ¬ g'.Has X := by
  intro X hX
  rcases List.mem_append.1 (List.mem_of_getElem? h) with hm | hm
  · exact P.apart.not_has hm hX
  · simp only [List.mem_singleton] at hm
    subst hm
    simp only [List.mem_singleton] at hX
    subst hX
    exact P.start_has

theorem eoi_has : ¬ g'.Has (.tm .eoi) := by
  rintro ⟨r, hr, h⟩
  exact P.ok' r hr h

/-- `t` does not stand twice in a row. -/
theorem not_twice {x y : List Sym} (h : Gen (g.aug f) [.nt g.start, .tm .eoi] (x ++ .tm (.sym t) :: .tm (.sym t) :: y)) : False := by
  have hne : f ≠ g.start := fun e => P.hf (e ▸ P.closed.used)
  have h' : Gen g.rules [.nt g.start, .tm .eoi] (x ++ .tm (.sym t) :: .tm (.sym t) :: y) :=
    Gen.unused_rule (r0 := ⟨f, [.nt g.start]⟩) (fun r hr hm => P.hf ⟨r, hr, .inr hm⟩) h (by simpa using hne)
  obtain ⟨u, v, e, h1, h2⟩ := h'.split_cons
  obtain ⟨v', rfl, h3⟩ := h2.terminal
  rw [h3.nil_left] at e
  rcases List.eq_nil_or_concat y with rfl | ⟨y', z, rfl⟩
  · have e' : (x ++ [.tm (.sym t)]) ++ [.tm (.sym t)] = u ++ [.tm .eoi] := by simpa using e
    have := (List.append_inj' e' rfl).2
    simp at this
  · have e' : (x ++ .tm (.sym t) :: .tm (.sym t) :: y') ++ [z] = u ++ [.tm .eoi] := by simpa using e
    have := (List.append_inj' e' rfl).1
    rw [← this] at h1
    exact P.once ⟨x, y', gen_iff.1 h1⟩

omit P in
/-- The rule of an item of `g`. -/
theorem rule_g {k j : Nat} {r : PRule} (hk : (k = j ∧ j < g.rules.length) ∨ (k = (g.put t g').rules.length ∧ j = g.rules.length))
    (h : ((g.put t g').aug fk)[k]? = some r) : ∃ r0, (g.aug f)[j]? = some r0 ∧ r.rhs = r0.rhs.map (Sym.put t g'.start) := by
  rcases hk with ⟨rfl, hj⟩ | ⟨rfl, rfl⟩
  · rw [put_left (f := f) hj] at h
    obtain ⟨r0, h0, rfl⟩ := Option.map_eq_some_iff.1 h
    exact ⟨r0, h0, rfl⟩
  · rw [aug_last] at h
    cases h
    exact ⟨_, aug_last, rfl⟩

omit P in
theorem rule_h {j : Nat} {r : PRule} (hj : j < g'.rules.length) (h : ((g.put t g').aug fk)[g.rules.length + j]? = some r) :
    (g'.aug f')[j]? = some r ∧ r ∈ g'.rules := by
  rw [put_right (f' := f') hj] at h
  exact ⟨h, List.mem_of_getElem? ((aug_left hj).symm.trans h)⟩

/-- Where a rule for a symbol in use comes from. -/
theorem rule_for {j B : Nat} {r : PRule} (h : ((g.put t g').aug fk)[j]? = some r) (hl : r.lhs = B) (hB : B ≠ fk) :
    (j < g.rules.length ∧ ¬ g'.Used B ∧ ∃ r0, (g.aug f)[j]? = some r0 ∧ r0.lhs = B ∧ g.Used B) ∨
    (∃ j', j = g.rules.length + j' ∧ j' < g'.rules.length ∧ (g'.aug f')[j']? = some r ∧ g'.Used B) := by
  rcases Nat.lt_or_ge j g.rules.length with hj | hj
  · left
    rw [put_left (f := f) hj] at h
    obtain ⟨r0, h0, rfl⟩ := Option.map_eq_some_iff.1 h
    have hu : g.Used B := ⟨r0, List.mem_of_getElem? ((aug_left hj).symm.trans h0), .inl hl⟩
    exact ⟨hj, P.apart.nts _ hu, r0, h0, hl, hu⟩
  · right
    obtain ⟨j', rfl⟩ := Nat.exists_eq_add_of_le hj
    rcases Nat.lt_or_ge j' g'.rules.length with hj' | hj'
    · obtain ⟨h1, h2⟩ := rule_h (f' := f') hj' h
      exact ⟨j', rfl, hj', h1, ⟨r, h2, .inl hl⟩⟩
    · exfalso
      have hlt := (List.getElem?_eq_some_iff.1 h).1
      simp only [Gram.aug, List.length_append, List.length_singleton, put_length] at hlt
      have : g.rules.length + j' = (g.put t g').rules.length := by rw [put_length]; omega
      rw [this, aug_last] at h
      cases h
      exact hB hl.symm

theorem valid {γ : List Sym} {i : Item} (h : Valid ((g.put t g').aug fk) (g.put t g').rules.length γ i) :
    InG g t g' f γ i ∨ InH g t g' f f' γ i := by
  induction h with
  | start =>
    exact .inl ⟨g.rules.length, [], .eoi, rfl, by simp, .start, .inl ⟨rfl, by simp, P.eoi_has⟩, .inr ⟨rfl, rfl⟩⟩
  | advance γ i r X h1 h2 h3 ih =>
    rcases ih with ⟨j, γ1, a, e1, e2, e3, e4, e5⟩ | ⟨γ1, γ2, j, b, e1, e2, e3, e4, e5, e6, e7, e8⟩
    · left
      obtain ⟨r0, k1, k2⟩ := rule_g (f := f) e5 h2
      rw [k2, List.getElem?_map] at h3
      obtain ⟨Y, k3, rfl⟩ := Option.map_eq_some_iff.1 h3
      refine ⟨j, γ1 ++ [Y], a, by rw [e1]; simp, ?_, Valid.advance _ _ _ _ e3 k1 k3, e4, e5⟩
      intro Z hZ
      rcases List.mem_append.1 hZ with hZ | hZ
      · exact e2 Z hZ
      · simp only [List.mem_singleton] at hZ
        subst hZ
        exact P.rhs_g k1 _ (List.mem_of_getElem? k3)
    · right
      rw [e5] at h2
      obtain ⟨k1, k2⟩ := rule_h (f' := f') e6 h2
      refine ⟨γ1, γ2 ++ [X], j, b, by rw [e1]; simp, e2, ?_, e4, e5, e6, Valid.advance _ _ _ _ e7 k1 h3, e8⟩
      intro Z hZ
      rcases List.mem_append.1 hZ with hZ | hZ
      · exact e3 Z hZ
      · simp only [List.mem_singleton] at hZ
        subst hZ
        exact g'.has_rhs k2 (List.mem_of_getElem? h3)
  | expand γ i r B j' r' b' ρ h1 h2 h3 h4 h5 h6 ih =>
    have hB : B ≠ fk := by
      rintro rfl
      exact P.rhs_k h2 (List.mem_of_getElem? h3)
    have h6' := P.gen_k (gen_iff.2 h6) (by
      intro hm
      rcases List.mem_append.1 hm with hm | hm
      · exact P.rhs_k h2 (List.mem_of_mem_drop hm)
      · simp at hm)
    have hfor := P.rule_for h4 h5 hB
    rcases ih with ⟨j, γ1, a, e1, e2, e3, e4, e5⟩ | ⟨γ1, γ2, j, b, e1, e2, e3, e4, e5, e6, e7, e8⟩
    · obtain ⟨r0, k1, k2⟩ := rule_g (f := f) e5 h2
      rw [k2, List.getElem?_map] at h3
      obtain ⟨Y, k3, k4⟩ := Option.map_eq_some_iff.1 h3
      rw [k2, ← List.map_drop] at h6'
      obtain ⟨b1, ρ1, m1, m2⟩ := la_outer P.apart P.closed' P.nn (fun Z hZ => P.rhs_g k1 Z (List.mem_of_mem_drop hZ)) e4 h6'
      have m1' := m1.mono (R' := g.aug f) fun r hr => List.mem_append_left _ hr
      by_cases hY : Y = .tm (.sym t)
      · -- the grammar `g'` begins
        subst hY
        rw [Sym.put_tm] at k4
        simp only [Sym.nt.injEq] at k4
        rcases hfor with ⟨_, hu, _⟩ | ⟨j1, rfl, q1, q2, _⟩
        · rw [← k4] at hu
          exact absurd P.closed'.used hu
        · right
          refine ⟨γ1, [], j1, .eoi, by rw [e1]; simp, e2, by simp, ⟨_, r0, e3, k1, k3⟩, rfl, q1, ?_, .inr ⟨rfl, ?_⟩⟩
          · exact .expand _ ⟨_, 0, .eoi⟩ _ g'.start j1 r' .eoi [] .start aug_last rfl q2 (h5.trans k4.symm) (.refl _)
          · rcases m2 with ⟨_, _, m3⟩ | ⟨m3, _⟩
            · exact m3
            · exfalso
              subst m3
              obtain ⟨r1, ω, n1, n2⟩ := e3.sentential' aug_last
              simp only at n1 n2
              obtain rfl := Option.some.inj (k1.symm.trans n1)
              have hlt := (List.getElem?_eq_some_iff.1 k3).1
              rw [List.drop_eq_getElem_cons hlt, (List.getElem?_eq_some_iff.1 k3).2] at n2
              have n3 : Gen (g.aug f) (γ1 ++ Sym.tm (.sym t) :: (List.drop (i.pos + 1) r0.rhs ++ [.tm a] ++ ω))
                  (γ1 ++ Sym.tm (.sym t) :: ((.tm (.sym t) :: ρ1) ++ ω)) :=
                (Gen.refl _).append (.keep _ _ _ (m1'.append (.refl _)))
              exact P.not_twice (n2.trans (by simpa using n3))
      · rw [Sym.put_ne hY] at k4
        subst k4
        have hnB := P.rhs_g k1 _ (List.mem_of_getElem? k3)
        rcases hfor with ⟨q1, _, r2, q2, q3, _⟩ | ⟨_, _, _, _, hu⟩
        · left
          exact ⟨j', γ1, b1, e1, e2, .expand _ _ _ B j' r2 b1 ρ1 e3 k1 k3 q2 q3 (gen_iff.1 m1'), m2, .inl ⟨rfl, q1⟩⟩
        · exact absurd hu hnB
    · rw [e5] at h2
      obtain ⟨k1, k2⟩ := rule_h (f' := f') e6 h2
      have hu : g'.Used B := g'.has_rhs k2 (List.mem_of_getElem? h3)
      rcases hfor with ⟨_, q, _⟩ | ⟨j1, rfl, q1, q2, _⟩
      · exact absurd hu q
      right
      obtain ⟨v1, v2, e, m1, m2⟩ := h6'.split
      have m3 := gen_inner P.apart m1 fun Z hZ => g'.has_rhs k2 (List.mem_of_mem_drop hZ)
      have m3' := m3.mono (R' := g'.aug f') fun r hr => List.mem_append_left _ hr
      cases v1 with
      | nil =>
        obtain ⟨v, rfl, _⟩ := m2.terminal
        have := List.cons.inj e
        simp only [Sym.tm.injEq] at this
        obtain ⟨rfl, _⟩ := this
        exact ⟨γ1, γ2, j1, b, e1, e2, e3, e4, rfl, q1,
          .expand _ _ _ B j1 r' b [] e7 k1 h3 q2 h5 (gen_iff.1 (m3'.append (.refl [.tm b]))), e8⟩
      | cons X v1 =>
        obtain ⟨rfl, _⟩ := List.cons.inj e
        have hb : g'.Has (.tm b') := g'.has_gen m3 (fun Z hZ => g'.has_rhs k2 (List.mem_of_mem_drop hZ)) _ List.mem_cons_self
        exact ⟨γ1, γ2, j1, b', e1, e2, e3, e4, rfl, q1,
          .expand _ _ _ B j1 r' b' (v1 ++ [Sym.tm b]) e7 k1 h3 q2 h5 (gen_iff.1 (m3'.append (.refl [.tm b]))), .inl ⟨rfl, hb⟩⟩

/-! ## No new conflicts -/

omit P in
/-- Among the symbols of `g`, only `t` becomes a symbol of `g'`. -/
theorem put_has {X : Sym} (hX : ¬ g'.Has X) (h : g'.Has (Sym.put t g'.start X)) : X = .tm (.sym t) := by
  by_cases hx : X = .tm (.sym t)
  · exact hx
  · rw [Sym.put_ne hx] at h
    exact absurd h hX

theorem put_inj {u v : List Sym} (hu : ∀ X ∈ u, ¬ g'.Has X) (hv : ∀ X ∈ v, ¬ g'.Has X)
    (h : u.map (Sym.put t g'.start) = v.map (Sym.put t g'.start)) : u = v := by
  have hs : ¬ ¬ g'.Has (.nt g'.start) := fun h => h P.closed'.used
  induction u generalizing v with
  | nil => cases v with
    | nil => rfl
    | cons => simp at h
  | cons X u ih =>
    cases v with
    | nil => simp at h
    | cons Y v =>
      obtain ⟨h1, h2⟩ := List.cons.inj h
      have hx := hu X List.mem_cons_self
      have hy := hv Y List.mem_cons_self
      rw [ih (fun Z hZ => hu Z (List.mem_cons_of_mem _ hZ)) (fun Z hZ => hv Z (List.mem_cons_of_mem _ hZ)) h2]
      congr 1
      by_cases hX : X = .tm (.sym t)
      · subst hX
        rw [Sym.put_tm] at h1
        exact (put_has hy (h1 ▸ P.closed'.used)).symm
      · by_cases hY : Y = .tm (.sym t)
        · subst hY
          rw [Sym.put_tm] at h1
          exact put_has hx (h1 ▸ P.closed'.used)
        · rwa [Sym.put_ne hX, Sym.put_ne hY] at h1

/-- Behind a prefix at which `t` is expected there is no `t`. -/
theorem no_end {γ0 : List Sym} (h : Expects (g.aug f) g.rules.length (γ0 ++ [.tm (.sym t)]) (.tm (.sym t))) : False := by
  obtain ⟨i, r, h1, h2, h3⟩ := h
  obtain ⟨r1, ω, n1, n2⟩ := h1.sentential' aug_last
  obtain rfl := Option.some.inj (h2.symm.trans n1)
  have hlt := (List.getElem?_eq_some_iff.1 h3).1
  rw [List.drop_eq_getElem_cons hlt, (List.getElem?_eq_some_iff.1 h3).2] at n2
  exact P.not_twice (x := γ0) (by simpa using n2)

omit P in
/-- Only `t`s in a string of both kinds. -/
theorem all_t : ∀ {δ : List Sym}, (∀ X ∈ δ, ¬ g'.Has X) → (∀ X ∈ δ.map (Sym.put t g'.start), g'.Has X) → ∀ X ∈ δ, X = .tm (.sym t) := by
  intro δ h1 h2 X hX
  exact put_has (h1 X hX) (h2 _ (List.mem_map.2 ⟨X, hX, rfl⟩))

/-- One prefix of `g` followed by symbols of `g'` cannot be read in two ways. -/
theorem cut_unique {γ1 γ2 δ1 δ2 : List Sym} (h : γ1.map (Sym.put t g'.start) ++ γ2 = δ1.map (Sym.put t g'.start) ++ δ2)
    (hγ1 : ∀ X ∈ γ1, ¬ g'.Has X) (hγ2 : ∀ X ∈ γ2, g'.Has X) (hγe : Expects (g.aug f) g.rules.length γ1 (.tm (.sym t)))
    (hδ1 : ∀ X ∈ δ1, ¬ g'.Has X) (hδ2 : ∀ X ∈ δ2, g'.Has X) (hδe : Expects (g.aug f) g.rules.length δ1 (.tm (.sym t))) :
    γ1 = δ1 ∧ γ2 = δ2 := by
  have key : ∀ {γ1 γ2 δ1 δ2 : List Sym}, γ1.map (Sym.put t g'.start) ++ γ2 = δ1.map (Sym.put t g'.start) ++ δ2 →
      (∀ X ∈ γ1, ¬ g'.Has X) → (∀ X ∈ γ2, g'.Has X) → (∀ X ∈ δ1, ¬ g'.Has X) → Expects (g.aug f) g.rules.length δ1 (.tm (.sym t)) →
      γ1.length ≤ δ1.length → γ1 = δ1 ∧ γ2 = δ2 := by
    intro γ1 γ2 δ1 δ2 h h1 h2 h3 h4 hlen
    obtain ⟨α, β, rfl, hα⟩ : ∃ α β, δ1 = α ++ β ∧ α.length = γ1.length := ⟨δ1.take γ1.length, δ1.drop γ1.length, by simp, by simp; omega⟩
    rw [List.map_append, List.append_assoc] at h
    obtain ⟨e1, e2⟩ := List.append_inj h (by simp [hα])
    have hβ : β = [] := by
      rcases List.eq_nil_or_concat β with hβ | ⟨β', z, rfl⟩
      · exact hβ
      · exfalso
        have hz : z = .tm (.sym t) := by
          refine all_t (δ := β' ++ [z]) (fun X hX => h3 X (List.mem_append_right _ (by simpa using hX))) ?_ z (by simp)
          intro X hX
          exact h2 X (by rw [e2]; exact List.mem_append_left _ (by simpa using hX))
        subst hz
        exact P.no_end (γ0 := α ++ β') (by simpa using h4)
    subst hβ
    refine ⟨?_, by simpa using e2⟩
    rw [List.append_nil]
    exact P.put_inj h1 (fun X hX => h3 X (List.mem_append_left _ hX)) e1
  rcases Nat.le_total γ1.length δ1.length with hl | hl
  · exact key h hγ1 hγ2 hδ1 hδe hl
  · obtain ⟨e1, e2⟩ := key h.symm hδ1 hδ2 hγ1 hγe hl
    exact ⟨e1.symm, e2.symm⟩

/-- A prefix of `g` that is also one followed by symbols of `g'`: these are none, or only the start symbol of `g'`. -/
theorem cut_short {γ1 δ1 δ2 : List Sym} (h : γ1.map (Sym.put t g'.start) = δ1.map (Sym.put t g'.start) ++ δ2)
    (hγ1 : ∀ X ∈ γ1, ¬ g'.Has X) {i : Item} (hv : Valid (g.aug f) g.rules.length γ1 i)
    (hδ1 : ∀ X ∈ δ1, ¬ g'.Has X) (hδ2 : ∀ X ∈ δ2, g'.Has X) :
    (γ1 = δ1 ∧ δ2 = []) ∨ (γ1 = δ1 ++ [.tm (.sym t)] ∧ δ2 = [.nt g'.start]) := by
  have hlen := congrArg List.length h
  simp only [List.length_map, List.length_append] at hlen
  obtain ⟨α, β, rfl, hα⟩ : ∃ α β, γ1 = α ++ β ∧ α.length = δ1.length := ⟨γ1.take δ1.length, γ1.drop δ1.length, by simp, by simp; omega⟩
  rw [List.map_append] at h
  obtain ⟨e1, e2⟩ := List.append_inj h (by simp [hα])
  have hαδ := P.put_inj (fun X hX => hγ1 X (List.mem_append_left _ hX)) hδ1 e1
  subst hαδ
  have hβ := all_t (δ := β) (fun X hX => hγ1 X (List.mem_append_right _ hX)) (by rw [e2]; exact hδ2)
  match β, hβ, e2 with
  | [], _, e2 => exact .inl ⟨by simp, by simpa using e2.symm⟩
  | [X], hβ, e2 =>
    have hX := hβ X (by simp)
    subst hX
    rw [List.map_singleton, Sym.put_tm] at e2
    exact .inr ⟨rfl, e2.symm⟩
  | X :: Y :: β, hβ, _ =>
    exfalso
    have hX := hβ X (by simp)
    have hY := hβ Y (by simp)
    subst hX
    subst hY
    obtain ⟨r1, ω, n1, n2⟩ := hv.sentential' aug_last
    exact P.not_twice (x := α) (by simpa using n2)

/-- A complete rule of `g'` at its beginning, at the end of its input: the empty string is a sentence. -/
theorem complete_nil {r : Nat} (h : Complete (g'.aug f') g'.rules.length [] r .eoi) : False := by
  obtain ⟨rule, h1, h2⟩ := h
  obtain ⟨r1, ω, n1, n2⟩ := h2.sentential' aug_last
  obtain rfl := Option.some.inj (h1.symm.trans n1)
  simp only [List.drop_length, List.append_nil, List.nil_append] at n2
  have hne : f' ≠ g'.start := fun e => P.hf' (e ▸ P.closed'.used)
  have n3 : Gen g'.rules [.nt g'.start, .tm .eoi] ([] ++ .tm .eoi :: ω) :=
    Gen.unused_rule (r0 := ⟨f', [.nt g'.start]⟩) (fun r hr hm => P.hf' ⟨r, hr, .inr hm⟩) n2 (by simpa using hne)
  exact P.nn (gen_iff.1 (Gen.eoi_last P.ok' n3).2)

/-- A complete rule of `g'` behind its start symbol, at the end of its input: the start symbol derives itself. -/
theorem complete_start (hcy : ¬ g'.Cyclic) {r : Nat} (hr : r < g'.rules.length)
    (h : Complete (g'.aug f') g'.rules.length [.nt g'.start] r .eoi) : False := by
  obtain ⟨rule, h1, h2⟩ := h
  obtain ⟨γ0, rule', k1, k2, k3, _⟩ := h2.split ⟨_, aug_last⟩
  simp only at k1 k2
  obtain rfl := Option.some.inj (h1.symm.trans k1)
  simp only [List.take_length] at k2
  have hmem : rule ∈ g'.rules := List.mem_of_getElem? ((aug_left hr).symm.trans h1)
  generalize hi : (⟨r, 0, .eoi⟩ : Item) = i at k3
  cases k3 with
  | start => cases hi; omega
  | advance => cases hi
  | expand _ i r1 B j r' b ρ m1 m2 m3 m4 m5 m6 =>
    cases hi
    obtain rfl := Option.some.inj (h1.symm.trans m4)
    subst m5
    obtain ⟨r2, ω, n1, n2⟩ := m1.sentential' aug_last
    obtain rfl := Option.some.inj (m2.symm.trans n1)
    have hlt := (List.getElem?_eq_some_iff.1 m3).1
    rw [List.drop_eq_getElem_cons hlt, (List.getElem?_eq_some_iff.1 m3).2] at n2
    have n3 : Gen (g'.aug f') (γ0 ++ Sym.nt rule.lhs :: (List.drop (i.pos + 1) r1.rhs ++ [.tm i.la] ++ ω))
        (γ0 ++ Sym.nt rule.lhs :: ((.tm .eoi :: ρ) ++ ω)) :=
      (Gen.refl _).append (.keep _ _ _ ((gen_iff.2 m6).append (.refl _)))
    have n4 : Gen (g'.aug f') [.nt g'.start, .tm .eoi] ((γ0 ++ [.nt rule.lhs]) ++ .tm .eoi :: (ρ ++ ω)) := by
      have := n2.trans (v := γ0 ++ Sym.nt rule.lhs :: ((.tm .eoi :: ρ) ++ ω)) (by simpa using n3)
      simpa using this
    have hne : f' ≠ g'.start := fun e => P.hf' (e ▸ P.closed'.used)
    have n5 := Gen.unused_rule (r0 := ⟨f', [.nt g'.start]⟩) (fun r hr hm => P.hf' ⟨r, hr, .inr hm⟩) n4 (by simpa using hne)
    exact hcy ⟨γ0, rule, [], hmem, gen_iff.1 (Gen.eoi_last P.ok' n5).2, by rw [List.append_nil]; exact k2.symm⟩

/-- A complete rule of the whole grammar. -/
theorem complete {γ : List Sym} {r : Nat} {u : Term} (hr : r ≠ (g.put t g').rules.length)
    (h : Complete ((g.put t g').aug fk) (g.put t g').rules.length γ r u) :
    (∃ γ1 a, γ = γ1.map (Sym.put t g'.start) ∧ (∀ X ∈ γ1, ¬ g'.Has X) ∧ Complete (g.aug f) g.rules.length γ1 r a ∧ Means t g' u a ∧
      r < g.rules.length) ∨
    (∃ γ1 γ2 j b, γ = γ1.map (Sym.put t g'.start) ++ γ2 ∧ (∀ X ∈ γ1, ¬ g'.Has X) ∧ (∀ X ∈ γ2, g'.Has X) ∧
      Expects (g.aug f) g.rules.length γ1 (.tm (.sym t)) ∧ r = g.rules.length + j ∧ j < g'.rules.length ∧
      Complete (g'.aug f') g'.rules.length γ2 j b ∧ ((b = u ∧ g'.Has (.tm u)) ∨ (b = .eoi ∧ ¬ g'.Has (.tm u)))) := by
  obtain ⟨rule, h1, h2⟩ := h
  rcases P.valid h2 with ⟨j, γ1, a, e1, e2, e3, e4, e5⟩ | ⟨γ1, γ2, j, b, e1, e2, e3, e4, e5, e6, e7, e8⟩
  · left
    obtain ⟨r0, k1, k2⟩ := rule_g (f := f) e5 h1
    simp only at e3 e4 e5
    rcases e5 with ⟨rfl, hj⟩ | ⟨e5, _⟩
    · rw [k2, List.length_map] at e3
      exact ⟨γ1, a, e1, e2, ⟨r0, k1, e3⟩, e4, hj⟩
    · exact absurd e5 hr
  · right
    simp only at e5 e7 e8
    subst e5
    obtain ⟨k1, k2⟩ := rule_h (f' := f') e6 h1
    exact ⟨γ1, γ2, j, b, e1, e2, e3, e4, rfl, e6, ⟨rule, k1, e7⟩, e8⟩

/-- A terminal that is expected in the whole grammar. -/
theorem expects {γ : List Sym} {u : Term} (h : Expects ((g.put t g').aug fk) (g.put t g').rules.length γ (.tm u)) :
    (∃ γ1, γ = γ1.map (Sym.put t g'.start) ∧ (∀ X ∈ γ1, ¬ g'.Has X) ∧ Expects (g.aug f) g.rules.length γ1 (.tm u) ∧ u ≠ .sym t ∧ ¬ g'.Has (.tm u)) ∨
    (∃ γ1 γ2, γ = γ1.map (Sym.put t g'.start) ++ γ2 ∧ (∀ X ∈ γ1, ¬ g'.Has X) ∧ (∀ X ∈ γ2, g'.Has X) ∧
      Expects (g.aug f) g.rules.length γ1 (.tm (.sym t)) ∧ Expects (g'.aug f') g'.rules.length γ2 (.tm u) ∧ g'.Has (.tm u)) := by
  obtain ⟨i, rule, h2, h1, h3⟩ := h
  rcases P.valid h2 with ⟨j, γ1, a, e1, e2, e3, e4, e5⟩ | ⟨γ1, γ2, j, b, e1, e2, e3, e4, e5, e6, e7, e8⟩
  · left
    obtain ⟨r0, k1, k2⟩ := rule_g (f := f) e5 h1
    rw [k2, List.getElem?_map] at h3
    obtain ⟨Y, k3, k4⟩ := Option.map_eq_some_iff.1 h3
    have hY : Y ≠ .tm (.sym t) := by
      rintro rfl
      rw [Sym.put_tm] at k4
      cases k4
    rw [Sym.put_ne hY] at k4
    subst k4
    exact ⟨γ1, e1, e2, ⟨_, r0, e3, k1, k3⟩, fun e => hY (by rw [e]), P.rhs_g k1 _ (List.mem_of_getElem? k3)⟩
  · right
    rw [e5] at h1
    obtain ⟨k1, k2⟩ := rule_h (f' := f') e6 h1
    exact ⟨γ1, γ2, e1, e2, e3, e4, ⟨_, rule, e7, k1, h3⟩, g'.has_rhs k2 (List.mem_of_getElem? h3)⟩

/-- `t` behind `t`. -/
theorem la_once {γ0 : List Sym} {r : Nat} (h : Complete (g.aug f) g.rules.length (γ0 ++ [.tm (.sym t)]) r (.sym t)) : False := by
  obtain ⟨rule, h1, h2⟩ := h
  obtain ⟨r1, ω, n1, n2⟩ := h2.sentential' aug_last
  obtain rfl := Option.some.inj (h1.symm.trans n1)
  simp only [List.drop_length, List.append_nil] at n2
  exact P.not_twice (x := γ0) (by simpa using n2)

/-- A complete rule of `g` and one of `g'`. -/
theorem no_mix (hcy : ¬ g'.Cyclic) (hg : ¬ Clash (g.aug f) g.rules.length) {γ1 δ1 δ2 : List Sym} {r j : Nat} {u a b : Term}
    (h : γ1.map (Sym.put t g'.start) = δ1.map (Sym.put t g'.start) ++ δ2) (hγ1 : ∀ X ∈ γ1, ¬ g'.Has X)
    (hδ1 : ∀ X ∈ δ1, ¬ g'.Has X) (hδ2 : ∀ X ∈ δ2, g'.Has X) (hδe : Expects (g.aug f) g.rules.length δ1 (.tm (.sym t)))
    (hr : r < g.rules.length) (hc : Complete (g.aug f) g.rules.length γ1 r a) (hm : Means t g' u a) (hj : j < g'.rules.length)
    (hc' : Complete (g'.aug f') g'.rules.length δ2 j b) (hb : (b = u ∧ g'.Has (.tm u)) ∨ (b = .eoi ∧ ¬ g'.Has (.tm u))) : False := by
  obtain ⟨rule, _, hv⟩ := id hc
  have hs := P.cut_short h hγ1 hv hδ1 hδ2
  rcases hb with ⟨_, hu⟩ | ⟨rfl, hu⟩
  · rcases hm with ⟨_, _, hm⟩ | ⟨rfl, _⟩
    · exact hm hu
    · rcases hs with ⟨rfl, _⟩ | ⟨rfl, _⟩
      · exact hg ⟨γ1, .sym t, r, by omega, hc, .inl hδe⟩
      · exact P.la_once hc
  · rcases hs with ⟨_, rfl⟩ | ⟨_, rfl⟩
    · exact P.complete_nil hc'
    · exact P.complete_start hcy hj hc'

theorem no_clash (hcy : ¬ g'.Cyclic) (hg : ¬ Clash (g.aug f) g.rules.length) (hg' : ¬ Clash (g'.aug f') g'.rules.length) :
    ¬ Clash ((g.put t g').aug fk) (g.put t g').rules.length := by
  rintro ⟨γ, u, r, hr, h1, h2⟩
  rcases P.complete hr h1 with ⟨γ1, a, rfl, a1, a2, a3, a4⟩ | ⟨γ1, γ2, j, b, rfl, b1, b2, b3, rfl, b5, b6, b7⟩
  · rcases h2 with h2 | ⟨r2, hr2, hne, h2⟩
    · rcases P.expects h2 with ⟨δ1, e, c1, c2, c3, c4⟩ | ⟨δ1, δ2, e, c1, c2, c3, c4, c5⟩
      · obtain rfl := P.put_inj a1 c1 e
        rcases a3 with ⟨rfl, _, _⟩ | ⟨_, hu⟩
        · exact hg ⟨γ1, u, r, by omega, a2, .inl c2⟩
        · exact c4 hu
      · rcases a3 with ⟨_, _, hu⟩ | ⟨rfl, _⟩
        · exact hu c5
        · obtain ⟨rule, _, hv⟩ := id a2
          rcases P.cut_short e a1 hv c1 c2 with ⟨rfl, _⟩ | ⟨rfl, _⟩
          · exact hg ⟨γ1, .sym t, r, by omega, a2, .inl c3⟩
          · exact P.la_once a2
    · rcases P.complete hr2 h2 with ⟨δ1, a', e, c1, c2, c3, c4⟩ | ⟨δ1, δ2, j, b, e, c1, c2, c3, rfl, c5, c6, c7⟩
      · obtain rfl := P.put_inj a1 c1 e
        obtain rfl := a3.unique c3
        exact hg ⟨γ1, a, r, by omega, a2, .inr ⟨r2, by omega, hne, c2⟩⟩
      · exact P.no_mix hcy hg e a1 c1 c2 c3 a4 a2 a3 c5 c6 c7
  · rcases h2 with h2 | ⟨r2, hr2, hne, h2⟩
    · rcases P.expects h2 with ⟨δ1, e, c1, c2, c3, c4⟩ | ⟨δ1, δ2, e, c1, c2, c3, c4, c5⟩
      · rcases b7 with ⟨_, hu⟩ | ⟨rfl, _⟩
        · exact c4 hu
        · obtain ⟨i, rule, hv, _⟩ := id c2
          rcases P.cut_short e.symm c1 hv b1 b2 with ⟨_, rfl⟩ | ⟨_, rfl⟩
          · exact P.complete_nil b6
          · exact P.complete_start hcy b5 b6
      · obtain ⟨rfl, rfl⟩ := P.cut_unique e b1 b2 b3 c1 c2 c3
        rcases b7 with ⟨rfl, _⟩ | ⟨_, hu⟩
        · exact hg' ⟨γ2, b, j, by omega, b6, .inl c4⟩
        · exact hu c5
    · rcases P.complete hr2 h2 with ⟨δ1, a', e, c1, c2, c3, c4⟩ | ⟨δ1, δ2, j', b', e, c1, c2, c3, rfl, c5, c6, c7⟩
      · exact P.no_mix hcy hg e.symm c1 b1 b2 b3 c4 c2 c3 b5 b6 b7
      · obtain ⟨rfl, rfl⟩ := P.cut_unique e b1 b2 b3 c1 c2 c3
        have hbb : b' = b := by
          rcases b7 with ⟨rfl, hu⟩ | ⟨rfl, hu⟩ <;> rcases c7 with ⟨rfl, hu'⟩ | ⟨rfl, hu'⟩
          · rfl
          · exact absurd hu hu'
          · exact absurd hu' hu
          · rfl
        subst hbb
        exact hg' ⟨γ2, b', j, by omega, b6, .inr ⟨j', by omega, by omega, c6⟩⟩

end Plugs

end

end Verif.Par
