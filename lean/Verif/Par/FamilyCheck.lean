import Verif.Par.FamilyProof
import Verif.Par.PartProof

/-!
# The checks for LR(0), SLR(1), LALR(1) and LR(1) grammars: proofs
-/

namespace Verif.Par.Automaton

variable {g : Gram} {c : Automaton}

/-- The state after a sequence of symbols. -/
def walkFrom (c : Automaton) : Nat → List Sym → Option Nat
  | q, [] => some q
  | q, X :: γ => (c.next q X).bind fun q' => c.walkFrom q' γ

theorem walkFrom_append (q : Nat) (γ δ : List Sym) : c.walkFrom q (γ ++ δ) = (c.walkFrom q γ).bind fun q' => c.walkFrom q' δ := by
  induction γ generalizing q with
  | nil => rfl
  | cons X γ ih =>
    simp only [List.cons_append, walkFrom]
    cases c.next q X with
    | none => rfl
    | some q' => exact ih q'

theorem walk_snoc {γ : List Sym} {X : Sym} {q : Nat} : c.walkFrom 0 (γ ++ [X]) = some q ↔ ∃ q0, c.walkFrom 0 γ = some q0 ∧ c.next q0 X = some q := by
  rw [walkFrom_append]
  cases c.walkFrom 0 γ with
  | none => simp
  | some q0 => simp [walkFrom]

theorem rhs_of {j : Nat} {r : PRule} (h : g.full[j]? = some r) : rhs g j = r.rhs := by
  unfold rhs
  split
  · rename_i e
    subst e
    rw [Gram.full, Gram.aug_start] at h
    cases h
    rfl
  · rename_i e
    rw [Gram.aug_get' h e]
    rfl

theorem of_rhs {j k : Nat} {X : Sym} (h : (rhs g j)[k]? = some X) : ∃ r, g.full[j]? = some r ∧ r.rhs = rhs g j := by
  unfold rhs at h ⊢
  split at h
  · rename_i e
    exact ⟨_, by rw [e]; exact Gram.aug_start, by simp [e]⟩
  · rename_i e
    cases hr : g.rules[j]? with
    | none => simp [hr] at h
    | some r => exact ⟨r, (Gram.aug_get hr).1, by simp [e]⟩

/-- The item is in the state. -/
def In (l : List DItem) (j k : Nat) : Prop := ∃ d ∈ l, d.rule = j ∧ d.pos = k

theorem has_iff {l : List DItem} {j k : Nat} {L : List Term} : has l j k L = true ↔ ∃ d ∈ l, d.rule = j ∧ d.pos = k ∧ ∀ a ∈ L, a ∈ d.las := by
  simp [has, and_assoc]

theorem row_lt {q : Nat} {d : DItem} (h : d ∈ c.row q) : q < c.states.length := by
  unfold row at h
  rw [List.getD_eq_getElem?_getD] at h
  cases hq : c.states[q]? with
  | none => simp [hq] at h
  | some l => exact (List.getElem?_eq_some_iff.1 hq).1

section
variable (hs : c.sound g = true)
include hs

theorem sound_start : ∃ r ∈ g.rules, r.lhs = g.start := by
  simp only [sound, Bool.and_eq_true, List.any_eq_true, beq_iff_eq] at hs
  exact hs.1.1.1

theorem sound_null : ∀ r ∈ g.rules, c.sets.nullAll r.rhs = true → c.sets.null r.lhs = true := by
  simp only [sound, Bool.and_eq_true, List.all_eq_true, Bool.or_eq_true, Bool.not_eq_true'] at hs
  intro r hr hn
  rcases (hs.1.1.2 r hr).1 with h | h
  · rw [hn] at h; cases h
  · exact h

theorem sound_first : ∀ r ∈ g.rules, ∀ a ∈ c.sets.firstOf r.rhs, a ∈ c.sets.first r.lhs := by
  simp only [sound, Bool.and_eq_true, List.all_eq_true, decide_eq_true_eq] at hs
  exact fun r hr => (hs.1.1.2 r hr).2

theorem sound_begin : ∃ d ∈ c.row 0, d.rule = g.rules.length ∧ d.pos = 0 ∧ .eoi ∈ d.las := by
  simp only [sound, Bool.and_eq_true] at hs
  obtain ⟨d, h1, h2, h3, h4⟩ := has_iff.1 hs.1.2
  exact ⟨d, h1, h2, h3, h4 _ (by simp)⟩

theorem sound_item {q : Nat} {d : DItem} (h : d ∈ c.row q) : c.itemOk g q d = true := by
  simp only [sound, Bool.and_eq_true, List.all_eq_true] at hs
  exact hs.2 q (List.mem_range.2 (row_lt h)) d h

theorem sound_advance {q : Nat} {d : DItem} (h : d ∈ c.row q) {X : Sym} (hX : (rhs g d.rule)[d.pos]? = some X) :
    ∃ q', c.next q X = some q' ∧ ∃ d' ∈ c.row q', d'.rule = d.rule ∧ d'.pos = d.pos + 1 ∧ ∀ a ∈ d.las, a ∈ d'.las := by
  have := sound_item hs h
  simp only [itemOk, hX, Bool.and_eq_true] at this
  cases hn : c.next q X with
  | none => rw [hn] at this; exact absurd this.1 (by simp)
  | some q' =>
    rw [hn] at this
    exact ⟨q', rfl, has_iff.1 this.1⟩

theorem sound_expand {q : Nat} {d : DItem} (h : d ∈ c.row q) {B : Nat} (hX : (rhs g d.rule)[d.pos]? = some (.nt B)) {m : Nat} {r : PRule}
    (hr : g.rules[m]? = some r) (hB : r.lhs = B) : ∃ d' ∈ c.row q, d'.rule = m ∧ d'.pos = 0 ∧
      (∀ a ∈ c.sets.firstOf ((rhs g d.rule).drop (d.pos + 1)), a ∈ d'.las) ∧
      (c.sets.nullAll ((rhs g d.rule).drop (d.pos + 1)) = true → ∀ a ∈ d.las, a ∈ d'.las) := by
  have := sound_item hs h
  simp only [itemOk, hX, Bool.and_eq_true, List.all_eq_true] at this
  have := this.2 (r, m) (List.mem_zipIdx_iff_getElem?.2 hr)
  simp only [hB, bne_self_eq_false, Bool.false_or] at this
  obtain ⟨d', k1, k2, k3, k4⟩ := has_iff.1 this
  refine ⟨d', k1, k2, k3, fun a ha => k4 a (List.mem_append_left _ ha), fun hn a ha => k4 a (List.mem_append_right _ ?_)⟩
  rw [if_pos hn]
  exact ha

/-- A rule that is expanded is one of the grammar. -/
theorem rule_of {j k m : Nat} {r r' : PRule} (hr : g.full[j]? = some r) (hX : r.rhs[k]? = some (.nt r'.lhs)) (hm : g.full[m]? = some r') :
    g.rules[m]? = some r' := by
  refine Gram.aug_get' hm ?_
  rintro rfl
  rw [Gram.full, Gram.aug_start] at hm
  cases hm
  simp only at hX
  by_cases hj : j = g.rules.length
  · subst hj
    rw [Gram.full, Gram.aug_start] at hr
    cases hr
    have := List.mem_of_getElem? hX
    simp only [List.mem_singleton, Sym.nt.injEq] at this
    exact freshSym_ne (sound_start hs) this
  · exact freshSym_unused g ⟨r, List.mem_of_getElem? (Gram.aug_get' hr hj), .inr (List.mem_of_getElem? hX)⟩

theorem dots_in {γ : List Sym} {j k : Nat} (h : Dots g.full g.rules.length γ j k) : ∃ q, c.walkFrom 0 γ = some q ∧ In (c.row q) j k := by
  induction h with
  | start =>
    obtain ⟨d, h1, h2, h3, _⟩ := sound_begin hs
    exact ⟨0, rfl, d, h1, h2, h3⟩
  | advance γ j k r X _ h1 h2 ih =>
    obtain ⟨q, k1, d, k2, rfl, rfl⟩ := ih
    obtain ⟨q', m1, d', m2, m3, m4, _⟩ := sound_advance hs k2 (X := X) (by rw [rhs_of h1]; exact h2)
    exact ⟨q', walk_snoc.2 ⟨q, k1, m1⟩, d', m2, m3, m4⟩
  | expand γ j k r B m r' _ h1 h2 h3 h4 ih =>
    obtain ⟨q, k1, d, k2, rfl, rfl⟩ := ih
    subst h4
    obtain ⟨d', m2, m3, m4, _⟩ := sound_expand hs k2 (by rw [rhs_of h1]; exact h2) (rule_of hs h1 h2 h3) rfl
    exact ⟨q, k1, d', m2, m3, m4⟩

theorem null_of {l w : List Sym} (hg : Gen g.rules l w) (hw : w = []) : c.sets.nullAll l = true := by
  induction hg with
  | nil => rfl
  | keep => cases hw
  | expand r l u v hr _ _ ih1 ih2 =>
    obtain ⟨rfl, rfl⟩ := List.append_eq_nil_iff.1 hw
    simp only [LLSets.nullAll, Bool.and_eq_true]
    exact ⟨sound_null hs r hr (ih1 rfl), ih2 rfl⟩

theorem first_of {l w : List Sym} (hg : Gen g.rules l w) {a : Term} {ρ : List Sym} (hw : w = .tm a :: ρ) : a ∈ c.sets.firstOf l := by
  induction hg generalizing ρ with
  | nil => cases hw
  | keep X l w _ _ =>
    obtain ⟨rfl, _⟩ := List.cons.inj hw
    simp [LLSets.firstOf]
  | expand r l u v hr h1 _ ih1 ih2 =>
    simp only [LLSets.firstOf, List.mem_append]
    cases u with
    | nil =>
      right
      rw [if_pos (sound_null hs r hr (null_of hs h1 rfl))]
      exact ih2 hw
    | cons X u =>
      left
      obtain ⟨rfl, _⟩ := List.cons.inj hw
      exact sound_first hs r hr a (ih1 rfl)

theorem valid_in {γ : List Sym} {i : Item} (h : Valid g.full g.rules.length γ i) :
    ∃ q, c.walkFrom 0 γ = some q ∧ ∃ d ∈ c.row q, d.rule = i.rule ∧ d.pos = i.pos ∧ i.la ∈ d.las := by
  induction h with
  | start =>
    obtain ⟨d, h1, h2, h3, h4⟩ := sound_begin hs
    exact ⟨0, rfl, d, h1, h2, h3, h4⟩
  | advance γ i r X _ h1 h2 ih =>
    obtain ⟨q, k1, d, k2, e1, e2, k3⟩ := ih
    obtain ⟨q', m1, d', m2, m3, m4, m5⟩ := sound_advance hs k2 (X := X) (by rw [e1, e2, rhs_of h1]; exact h2)
    exact ⟨q', walk_snoc.2 ⟨q, k1, m1⟩, d', m2, m3.trans e1, by rw [m4, e2], m5 _ k3⟩
  | expand γ i r B m r' b ρ _ h1 h2 h3 h4 h5 ih =>
    obtain ⟨q, k1, d, k2, e1, e2, k3⟩ := ih
    subst h4
    obtain ⟨d', m2, m3, m4, m5, m6⟩ := sound_expand hs k2 (by rw [e1, e2, rhs_of h1]; exact h2) (rule_of hs h1 h2 h3) rfl
    refine ⟨q, k1, d', m2, m3, m4, ?_⟩
    rw [e1, e2, rhs_of h1] at m5 m6
    have hf : Sym.nt (freshSym g.rules) ∉ r.rhs.drop (i.pos + 1) := by
      intro hm
      by_cases hj : i.rule = g.rules.length
      · rw [hj, Gram.full, Gram.aug_start] at h1
        cases h1
        simp at hm
      · exact freshSym_unused g ⟨r, List.mem_of_getElem? (Gram.aug_get' h1 hj), .inr (List.mem_of_mem_drop hm)⟩
    have hg : Gen g.rules (r.rhs.drop (i.pos + 1) ++ [.tm i.la]) (.tm b :: ρ) :=
      Gen.unused_rule (r0 := ⟨freshSym g.rules, [.nt g.start]⟩) (fun r hr hm => freshSym_unused g ⟨r, hr, .inr hm⟩) (gen_iff.2 h5)
        (by simpa using hf)
    obtain ⟨u, v, n1, n2, n3⟩ := hg.split
    cases u with
    | nil =>
      obtain ⟨v', rfl, _⟩ := n3.terminal
      simp at n1
      rw [n1.1]
      exact m6 (null_of hs n2 rfl) _ k3
    | cons X u =>
      obtain ⟨rfl, _⟩ := List.cons.inj n1
      exact m5 _ (first_of hs n2 rfl)

end

/-! ## The automaton has no other items -/

theorem next_mem {q q' : Nat} {X : Sym} (h : c.next q X = some q') : (q, X, q') ∈ c.edges := by
  unfold next at h
  obtain ⟨e, h1, rfl⟩ := Option.map_eq_some_iff.1 h
  have h2 := List.mem_of_find?_eq_some h1
  have h3 := List.find?_some h1
  simp only [Bool.and_eq_true, beq_iff_eq] at h3
  obtain ⟨rfl, rfl⟩ := h3
  exact h2

theorem ordered_dots {γ : List Sym} {first : Bool} (hf : first = true → γ = []) : ∀ {before l : List DItem}, ordered g first before l = true →
    (∀ d ∈ before, Dots g.full g.rules.length γ d.rule d.pos) → (∀ d ∈ l, d.pos ≠ 0 → Dots g.full g.rules.length γ d.rule d.pos) →
    ∀ d ∈ l, Dots g.full g.rules.length γ d.rule d.pos := by
  intro before l
  induction l generalizing before with
  | nil => intro _ _ _ d hd; cases hd
  | cons i l ih =>
    intro h hb hl
    simp only [ordered, Bool.and_eq_true, Bool.or_eq_true, bne_iff_ne, beq_iff_eq, List.any_eq_true] at h
    have hi : Dots g.full g.rules.length γ i.rule i.pos := by
      by_cases hp : i.pos = 0
      · rcases h.1 with (h | ⟨h1, h2⟩) | ⟨b, h1, h2⟩
        · exact absurd hp h
        · rw [h2, hp, hf h1]
          exact .start
        · cases hr : g.rules[i.rule]? with
          | none => rw [hr] at h2; cases h2
          | some r =>
            rw [hr] at h2
            simp only [beq_iff_eq] at h2
            obtain ⟨rb, k1, k2⟩ := of_rhs h2
            rw [hp]
            exact .expand γ _ _ rb r.lhs _ r (hb b h1) k1 (by rw [k2]; exact h2) (Gram.aug_get hr).1 rfl
      · exact hl i (by simp) hp
    intro d hd
    rcases List.mem_cons.1 hd with rfl | hd
    · exact hi
    · refine ih h.2 ?_ (fun d hd => hl d (List.mem_cons_of_mem _ hd)) d hd
      intro d hd
      rcases List.mem_append.1 hd with hd | hd
      · exact hb d hd
      · rw [List.mem_singleton.1 hd]; exact hi

theorem in_dots (he : c.exact g = true) {γ : List Sym} {q : Nat} (h : c.walkFrom 0 γ = some q) :
    (γ ≠ [] → q ≠ 0) ∧ ∀ d ∈ c.row q, Dots g.full g.rules.length γ d.rule d.pos := by
  simp only [exact, Bool.and_eq_true, List.all_eq_true, List.mem_range, bne_iff_ne, Bool.or_eq_true, beq_iff_eq, List.any_eq_true] at he
  obtain ⟨⟨⟨h1, h2⟩, h3⟩, _⟩ := he
  induction γ using snoc_induction generalizing q with
  | hnil =>
    cases h
    refine ⟨fun h => absurd rfl h, fun d hd => ?_⟩
    refine ordered_dots (first := true) (fun _ => rfl) (h1 0 (row_lt hd)) (fun _ h => by cases h) (fun d hd hp => absurd (h2 d hd) hp) d hd
  | hsnoc γ X ih =>
    obtain ⟨q0, k1, k2⟩ := walk_snoc.1 h
    obtain ⟨_, ih⟩ := ih k1
    obtain ⟨m1, m2⟩ := h3 _ (next_mem k2)
    refine ⟨fun _ => m1, fun d hd => ?_⟩
    have hq : (q == 0) = false := by simpa using m1
    have ho := h1 q (row_lt hd)
    rw [hq] at ho
    refine ordered_dots (first := false) (fun h => by cases h) ho (fun _ h => by cases h) ?_ d hd
    intro d hd hp
    rcases m2 d hd with h | ⟨n1, b, n2, n3, n4⟩
    · exact absurd h hp
    · simp only at n1 n2
      obtain ⟨rb, e1, e2⟩ := of_rhs n1
      have := Dots.advance γ b.rule b.pos rb X (ih b n2) (by rw [n3]; exact e1) (by rw [e2, ← n1]; congr 1; omega)
      rw [n3, n4] at this
      exact this

theorem states_differ (hs : c.sound g = true) (he : c.exact g = true) {γ γ' : List Sym} {q q' : Nat} (h : c.walkFrom 0 γ = some q)
    (h' : c.walkFrom 0 γ' = some q') (hq : q < c.states.length) (hq' : q' < c.states.length) (hd : SameDots g.full g.rules.length γ γ') : q = q' := by
  have hi := (in_dots he h).2
  have hi' := (in_dots he h').2
  simp only [exact, Bool.and_eq_true, List.all_eq_true, List.mem_range, bne_iff_ne, Bool.or_eq_true, beq_iff_eq, List.any_eq_true] at he
  rcases he.2 q hq q' hq' with (e | ⟨i, k1, k2⟩) | ⟨i, k1, k2⟩
  · exact e
  · exfalso
    obtain ⟨q2, m1, d, m2, m3, m4⟩ := dots_in hs ((hd _ _).1 (hi i k1))
    rw [h'] at m1
    cases m1
    rcases k2 d m2 with k | k
    · exact k m3
    · exact k m4
  · exfalso
    obtain ⟨q2, m1, d, m2, m3, m4⟩ := dots_in hs ((hd _ _).2 (hi' i k1))
    rw [h] at m1
    cases m1
    rcases k2 d m2 with k | k
    · exact k m3
    · exact k m4

theorem same_dots (hs : c.sound g = true) (he : c.exact g = true) {γ γ' : List Sym} {q : Nat} (h : c.walkFrom 0 γ = some q)
    (h' : c.walkFrom 0 γ' = some q) : SameDots g.full g.rules.length γ γ' := by
  have key : ∀ {γ γ' : List Sym}, c.walkFrom 0 γ = some q → c.walkFrom 0 γ' = some q → ∀ j k, Dots g.full g.rules.length γ j k →
      Dots g.full g.rules.length γ' j k := by
    intro γ γ' h h' j k hd
    obtain ⟨q', k1, d, k2, rfl, rfl⟩ := dots_in hs hd
    rw [h] at k1; cases k1
    exact (in_dots he h').2 d k2
  exact fun j k => ⟨key h h' j k, key h' h j k⟩

/-! ## The checks -/

theorem clear_item {las : DItem → List Term} (hc : c.clear g las = true) {q : Nat} {i i' : DItem} (hi : i ∈ c.row q) (hi' : i' ∈ c.row q)
    (h1 : i.rule ≠ g.rules.length) (h2 : i.pos = (rhs g i.rule).length) {a : Term} (ha : a ∈ las i) :
    (rhs g i'.rule)[i'.pos]? ≠ some (.tm a) ∧ (i'.pos = (rhs g i'.rule).length → (i'.rule = g.rules.length → a ≠ .eoi) ∧
      (i'.rule ≠ g.rules.length → i'.rule ≠ i.rule → a ∉ las i')) := by
  simp only [clear, List.all_eq_true, List.mem_range, Bool.or_eq_true, beq_iff_eq, bne_iff_ne, Bool.and_eq_true] at hc
  rcases hc q (row_lt hi) i hi with (h | h) | h
  · exact absurd h h1
  · exact absurd h2 h
  · obtain ⟨k1, k2⟩ := h i' hi' a ha
    refine ⟨k1, fun e => ?_⟩
    rcases k2 with k2 | k2
    · exact absurd e k2
    · refine ⟨fun er => ?_, fun er hne hm => ?_⟩
      · simpa [er] using k2
      · simp [er, hne, hm] at k2

theorem checkLR1_spec (h : c.checkLR1 g = true) : g.LR1 := by
  simp only [checkLR1, Bool.and_eq_true] at h
  obtain ⟨hs, hc⟩ := h
  rintro ⟨γ, a, r, h1, ⟨rule, h2, h3⟩, h4⟩
  obtain ⟨q, k1, d, k2, e1, e2, k3⟩ := valid_in hs h3
  simp only at e1 e2 k3
  have hd : d.pos = (rhs g d.rule).length := by rw [e1, e2, rhs_of h2]
  rcases h4 with ⟨i, rule', m1, m2, m3⟩ | ⟨rfl, b, rule', m1, m2⟩ | ⟨r', m1, m2, rule', m3, m4⟩
  · obtain ⟨q', n1, d', n2, n3, n4, _⟩ := valid_in hs m1
    rw [k1] at n1; cases n1
    exact (clear_item hc k2 n2 (by rw [e1]; exact h1) hd k3).1 (by rw [n3, n4, rhs_of m2]; exact m3)
  · obtain ⟨q', n1, d', n2, n3, n4, _⟩ := valid_in hs m2
    rw [k1] at n1; cases n1
    simp only at n3 n4
    exact ((clear_item hc k2 n2 (by rw [e1]; exact h1) hd k3).2 (by rw [n3, n4, rhs_of m1])).1 n3 rfl
  · obtain ⟨q', n1, d', n2, n3, n4, n5⟩ := valid_in hs m4
    rw [k1] at n1; cases n1
    simp only at n3 n4 n5
    exact ((clear_item hc k2 n2 (by rw [e1]; exact h1) hd k3).2 (by rw [n3, n4, rhs_of m3])).2 (by rw [n3]; exact m1) (by rw [n3, e1]; exact m2) n5

/-- No doubt, if what `LA` allows is in `las`. -/
theorem no_doubt (hs : c.sound g = true) {las : DItem → List Term} (hc : c.clear g las = true) {LA : List Sym → Nat → Term → Prop}
    (hla : ∀ γ r a q, r ≠ g.rules.length → LA γ r a → Ends g.full g.rules.length γ r → c.walkFrom 0 γ = some q →
      ∃ d ∈ c.row q, d.rule = r ∧ d.pos = (rhs g r).length ∧ a ∈ las d) : ¬ Doubt g.full g.rules.length LA := by
  rintro ⟨γ, a, r, h1, h2, h3, h4⟩
  obtain ⟨rule, l1, l2⟩ := h2
  obtain ⟨q, k1, _⟩ := dots_in hs l2
  obtain ⟨d, k2, e1, e2, k3⟩ := hla γ r a q h1 h3 ⟨rule, l1, l2⟩ k1
  rcases h4 with (⟨j, k, r', m1, m2, m3⟩ | ⟨rfl, rule', m1, m2⟩) | ⟨r', m1, m2, m3, m4⟩
  · obtain ⟨q', n1, d', n2, n3, n4⟩ := dots_in hs m1
    rw [k1] at n1; cases n1
    exact (clear_item hc k2 n2 (by rw [e1]; exact h1) (by rw [e1, e2]) k3).1 (by rw [n3, n4, rhs_of m2]; exact m3)
  · obtain ⟨q', n1, d', n2, n3, n4⟩ := dots_in hs m2
    rw [k1] at n1; cases n1
    exact ((clear_item hc k2 n2 (by rw [e1]; exact h1) (by rw [e1, e2]) k3).2 (by rw [n3, n4, rhs_of m1])).1 n3 rfl
  · obtain ⟨d', n2, n3, n4, n5⟩ := hla γ r' a q m1 m4 m3 k1
    exact ((clear_item hc k2 n2 (by rw [e1]; exact h1) (by rw [e1, e2]) k3).2 (by rw [n3, n4])).2 (by rw [n3]; exact m1) (by rw [n3, e1]; exact m2) n5

theorem checkLALR1_spec (h : c.checkLALR1 g = true) : g.LALR1 := by
  simp only [checkLALR1, Bool.and_eq_true] at h
  obtain ⟨⟨hs, he⟩, hc⟩ := h
  refine no_doubt hs hc ?_
  rintro γ r a q h1 ⟨γ', h2, rule, h3, h4⟩ ⟨rule', h5, h6⟩ h7
  obtain ⟨q', k1, d, k2, e1, e2, k3⟩ := valid_in hs h4
  obtain ⟨q2, m1, d2, m2, _⟩ := dots_in hs h6
  rw [h7] at m1; cases m1
  obtain rfl := states_differ hs he h7 k1 (row_lt m2) (row_lt k2) h2
  exact ⟨d, k2, e1, by rw [e2, rhs_of h3], k3⟩

theorem checkSLR1_spec (h : c.checkSLR1 g = true) : g.SLR1 := by
  simp only [checkSLR1, Bool.and_eq_true, decide_eq_true_eq, List.all_eq_true] at h
  obtain ⟨⟨⟨hs, h1⟩, h2⟩, hc⟩ := h
  have hcl : c.sets.Closed g := ⟨sound_null hs, sound_first hs, h2, h1⟩
  refine no_doubt hs hc ?_
  rintro γ r a q k1 ⟨rule, k2, x, y, ρ, k3, k4⟩ ⟨rule', k5, k6⟩ k7
  obtain ⟨q', m1, d, m2, m3, m4⟩ := dots_in hs k6
  rw [k7] at m1; cases m1
  refine ⟨d, m2, m3, by rw [m4, rhs_of k5], ?_⟩
  rw [m3, k2]
  exact hcl.follow_of k3 rfl (gen_iff.2 k4)

theorem checkLR0_spec (h : c.checkLR0 g = true) : g.LR0 := by
  simp only [checkLR0, Bool.and_eq_true] at h
  obtain ⟨hs, hc⟩ := h
  simp only [clear0, List.all_eq_true, List.mem_range, Bool.or_eq_true, beq_iff_eq, bne_iff_ne] at hc
  rintro ⟨γ, a, r, h1, ⟨rule, l1, l2⟩, _, h4⟩
  obtain ⟨q, k1, d, k2, e1, e2⟩ := dots_in hs l2
  rcases hc q (row_lt k2) d k2 with (h | h) | h
  · exact h1 (e1 ▸ h)
  · exact h (by rw [e2, e1, rhs_of l1])
  · have done : ∀ {r' : Nat}, Ends g.full g.rules.length γ r' → r' = r := by
      rintro r' ⟨rule', m1, m2⟩
      obtain ⟨q', n1, d', n2, n3, n4⟩ := dots_in hs m2
      rw [k1] at n1; cases n1
      have := h d' n2
      rw [n3, n4, rhs_of m1] at this
      simp at this
      exact this.trans e1
    rcases h4 with (⟨j, k, r', m1, m2, m3⟩ | ⟨rfl, m1⟩) | ⟨r', m1, m2, m3, m4⟩
    · obtain ⟨q', n1, d', n2, n3, n4⟩ := dots_in hs m1
      rw [k1] at n1; cases n1
      have := h d' n2
      rw [n3, n4, rhs_of m2, m3] at this
      simp at this
    · exact h1 (done m1).symm
    · exact m2 (done m3)

end Verif.Par.Automaton
