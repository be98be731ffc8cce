import Verif.Par.Tidy
import Verif.Par.Settled
import Verif.Par.RecMain

/-!
# Grammars that pass the check are settled
-/

namespace Verif.Par

variable {g : Gram} {s : Sorts}

section
variable (h : g.tidy s = true)
include h

theorem tidy_rule {r : PRule} (hr : r ∈ g.rules) :
    (r.rhs.all (Sym.among s.empty) = true → s.empty.contains r.lhs = true) ∧ (s.begins r.rhs = true → s.first.contains r.lhs = true) ∧
    ((∃ X ∈ r.rhs, X.among s.deep = true ∨ X ∈ g.fronts s) → s.deep.contains r.lhs = true) ∧
    ∀ X ∈ r.rhs.dropLast, X.among s.deep = true → X.among s.lists = true := by
  simp only [Gram.tidy, Bool.and_eq_true] at h
  have := List.all_eq_true.1 h.1 r hr
  simp only [Bool.and_eq_true, Bool.or_eq_true, Bool.not_eq_true'] at this
  obtain ⟨⟨⟨h1, h2⟩, h3⟩, h4⟩ := this
  refine ⟨fun k => ?_, fun k => ?_, ?_, ?_⟩
  · rcases h1 with h1 | h1
    · rw [k] at h1; cases h1
    · exact h1
  · rcases h2 with h2 | h2
    · rw [k] at h2; cases h2
    · exact h2
  · rintro ⟨X, hX, k⟩
    rcases h3 with h3 | h3
    · have : (r.rhs.any fun X => X.among s.deep || (g.fronts s).contains X) = true := by
        refine List.any_eq_true.2 ⟨X, hX, ?_⟩
        simp only [Bool.or_eq_true, List.contains_iff_mem]
        exact k
      rw [this] at h3; cases h3
    · exact h3
  · intro X hX k
    have := List.all_eq_true.1 h4 X hX
    simp only [Bool.or_eq_true, Bool.not_eq_true'] at this
    rcases this with this | this
    · rw [k] at this; cases this
    · exact this

theorem tidy_empty {l w : List Sym} (hg : Gen g.rules l w) (hw : w = []) : l.all (Sym.among s.empty) = true := by
  induction hg with
  | nil => rfl
  | keep X l w _ _ => cases hw
  | expand r l u v hr _ _ ih1 ih2 =>
    obtain ⟨rfl, rfl⟩ := List.append_eq_nil_iff.1 hw
    simp only [List.all_cons, Bool.and_eq_true]
    exact ⟨(tidy_rule h hr).1 (ih1 rfl), ih2 rfl⟩

theorem tidy_first {l w : List Sym} (hg : Gen g.rules l w) {ρ : List Sym} (hw : w = .tm .err :: ρ) : s.begins l = true := by
  induction hg generalizing ρ with
  | nil => cases hw
  | keep X l w _ _ => cases hw; rfl
  | expand r l u v hr hu _ ih1 ih2 =>
    simp only [Sorts.begins, Bool.or_eq_true, Bool.and_eq_true]
    cases u with
    | nil => exact .inr ⟨(tidy_rule h hr).1 (tidy_empty h hu rfl), ih2 hw⟩
    | cons X u =>
      cases hw
      exact .inl ((tidy_rule h hr).2.1 (ih1 rfl))

theorem tidy_deep {l w : List Sym} (hg : Gen g.rules l w) {V : Sym} (hV : V ∈ w) (hf : V ∈ g.fronts s) :
    ∃ X ∈ l, X.among s.deep = true ∨ X ∈ g.fronts s := by
  induction hg with
  | nil => cases hV
  | keep X l w _ ih =>
    rcases List.mem_cons.1 hV with rfl | hV
    · exact ⟨V, List.mem_cons_self, .inr hf⟩
    · obtain ⟨Y, h1, h2⟩ := ih hV
      exact ⟨Y, List.mem_cons_of_mem _ h1, h2⟩
  | expand r l u v hr _ _ ih1 ih2 =>
    rcases List.mem_append.1 hV with hV | hV
    · exact ⟨.nt r.lhs, List.mem_cons_self, .inl ((tidy_rule h hr).2.2.1 (ih1 hV))⟩
    · obtain ⟨Y, h1, h2⟩ := ih2 hV
      exact ⟨Y, List.mem_cons_of_mem _ h1, h2⟩

end

theorem mem_fronts {s : Sorts} {α β : List Sym} {V : Sym} (hb : s.begins β = true) : V ∈ s.fronts (α ++ V :: β) := by
  induction α with
  | nil => simp [Sorts.fronts, hb]
  | cons X α ih =>
    simp only [List.cons_append, Sorts.fronts]
    split
    · exact List.mem_cons_of_mem _ ih
    · exact ih

/-- Every rule of a non-terminal that is expected begins. -/
theorem Expects.item {R : List PRule} {s0 : Nat} {r0 : PRule} (hs : R[s0]? = some r0)
    (hfr : ∀ x n y, Gen R [.nt r0.lhs, .tm .eoi] (x ++ .nt n :: y) → ∃ w, Gen R [.nt n] (tms w))
    {γ : List Sym} {j : Nat} {r : PRule} (hj : R[j]? = some r) (h : Expects R s0 γ (.nt r.lhs)) : ∃ a, Valid R s0 γ ⟨j, 0, a⟩ := by
  obtain ⟨i, r', h1, h2, h3⟩ := h
  obtain ⟨r'', ω, k1, k2⟩ := h1.sentential hs
  rw [h2] at k1
  cases k1
  have hlt : i.pos < r'.rhs.length := by rw [List.getElem?_eq_some_iff] at h3; exact h3.1
  rw [List.drop_eq_getElem_cons hlt] at k2
  obtain ⟨w, hw⟩ := complete_terms hfr (η := r'.rhs.drop (i.pos + 1) ++ .tm i.la :: ω) (γ ++ [r'.rhs[i.pos]]) (by
    simp only [List.append_assoc, List.cons_append, List.nil_append] at k2 ⊢
    exact k2)
  obtain ⟨u, v, e, g1, g2⟩ := Gen.split (l := r'.rhs.drop (i.pos + 1) ++ [.tm i.la]) (l' := ω) (by simpa using hw)
  obtain ⟨u', v', e', _, g3⟩ := Gen.split g1
  obtain ⟨v'', rfl, g4⟩ := g3.terminal
  obtain ⟨w1, w2, rfl, rfl, rfl⟩ := List.map_eq_append_iff.1 e
  cases w1 with
  | nil => simp at e'
  | cons b w1 =>
    exact ⟨b, .expand γ i r' r.lhs j r b (tms w1) h1 h2 h3 hj rfl (gen_iff.1 g1)⟩

/-- Lists are followed by a place of recovery. -/
theorem isList_place {R : List PRule} {s0 : Nat} {r0 : PRule} (hs : R[s0]? = some r0)
    (hfr : ∀ x n y, Gen R [.nt r0.lhs, .tm .eoi] (x ++ .nt n :: y) → ∃ w, Gen R [.nt n] (tms w))
    (hR : ∀ r ∈ g.rules, r ∈ R) {n : Nat} (hl : g.isList n = true) {γ : List Sym} (h : Expects R s0 γ (.nt n)) :
    ∃ r, ErrRule R s0 (γ ++ [.nt n]) r := by
  obtain ⟨r, hr, h1⟩ := List.any_eq_true.1 hl
  simp only [Bool.and_eq_true, beq_iff_eq] at h1
  obtain ⟨rfl, h2⟩ := h1
  obtain ⟨j, hj⟩ := List.getElem?_of_mem (hR r hr)
  obtain ⟨a, hv⟩ := h.item hs hfr hj
  split at h2
  · rename_i m t l hrhs
    simp only [Bool.and_eq_true, beq_iff_eq] at h2
    obtain ⟨rfl, rfl⟩ := h2
    have := Valid.advance γ ⟨j, 0, a⟩ r (.nt r.lhs) hv hj (by rw [hrhs]; rfl)
    exact ⟨j, _, r, this, rfl, hj, by rw [hrhs]; rfl⟩
  · rename_i m k l hrhs
    simp only [Bool.and_eq_true, beq_iff_eq] at h2
    obtain ⟨rfl, h2⟩ := h2
    obtain ⟨r', hr', h3⟩ := List.any_eq_true.1 h2
    simp only [Bool.and_eq_true, beq_iff_eq] at h3
    obtain ⟨rfl, h4⟩ := h3
    have hadv := Valid.advance γ ⟨j, 0, a⟩ r (.nt r.lhs) hv hj (by rw [hrhs]; rfl)
    obtain ⟨j', hj'⟩ := List.getElem?_of_mem (hR r' hr')
    obtain ⟨a', hv'⟩ := Expects.item hs hfr hj' (γ := γ ++ [.nt r.lhs]) ⟨_, r, hadv, hj, by rw [hrhs]; rfl⟩
    exact ⟨j', _, r', hv', rfl, hj', by rw [← List.head?_eq_getElem?]; exact h4⟩
  · cases h2

theorem tidy_settled {fresh : Nat} (hf : ¬ g.Used fresh) (hfr : g.Fruitful) (h : g.tidy s = true) : g.Settled := by
  have hne := hfr.fresh_ne hf
  have hdrop : ∀ {l w : List Sym}, Gen (g.aug fresh) l w → .nt fresh ∉ l → Gen g.rules l w := by
    intro l w hg hl
    exact Gen.drop_rule (r0 := ⟨fresh, [.nt g.start]⟩) (fun r hr hm => hf ⟨r, hr, .inr hm⟩) hg hl (by simpa using hne)
  -- rules that go on behind a symbol
  have hbeh : ∀ {γ : List Sym} {X Y : Sym}, Expects (g.aug fresh) g.rules.length (γ ++ [X]) Y →
      ∃ r ∈ g.rules, ∃ α β ρ, r.rhs = α ++ X :: β ∧ Gen g.rules β (Y :: ρ) := by
    rintro γ X Y ⟨i, r, k1, k2, k3⟩
    obtain ⟨r', q1, α, β, ρ, q2, q3⟩ := k1.behind γ X r Y rfl k2 k3
    rcases List.mem_append.1 q1 with q1 | q1
    · exact ⟨r', q1, α, β, ρ, q2, hdrop q3 fun hm => hf ⟨r', q1, .inr (by rw [q2]; simp [hm])⟩⟩
    · exfalso
      cases List.mem_singleton.1 q1
      cases α with
      | nil =>
        simp only [List.nil_append, List.cons.injEq] at q2
        rw [← q2.2] at q3
        cases q3.nil_left
      | cons Z α => simp at q2
  intro γ X Y δ ρ h1 h2 h3 ⟨re, h4⟩
  rw [show γ ++ [.nt X, Y] = (γ ++ [.nt X]) ++ [Y] by simp, ← Gram.expects_iff hfr hf] at h1
  left
  rcases gen_single (gen_iff.2 h2) with h5 | ⟨r, hr, h5, h6⟩
  · -- the place is behind `X`
    have : δ = [.nt X] := by
      cases δ with
      | nil => exact absurd rfl h3
      | cons Z δ =>
        simp only [List.cons_append, List.cons.injEq, List.append_eq_nil_iff] at h5
        rw [h5.1, h5.2.1]
    rw [← this]
    exact ⟨re, h4⟩
  · -- `X` is deep
    cases h5
    rcases List.eq_nil_or_concat δ with rfl | ⟨δ', V, rfl⟩
    · exact absurd rfl h3
    rw [List.concat_eq_append] at h4 h6
    rw [← List.append_assoc, ← Gram.errRule_iff hfr hf] at h4
    obtain ⟨i, rule, k1, k2, k3, k4⟩ := h4
    subst k2
    obtain ⟨r1, hr1, α, β, ρ1, k5, k6⟩ := hbeh ⟨i, rule, k1, k3, k4⟩
    have hfront : V ∈ g.fronts s := by
      refine List.mem_flatMap.2 ⟨r1, hr1, ?_⟩
      rw [k5]
      exact mem_fronts (tidy_first h k6 rfl)
    have hdeep := (tidy_rule h hr).2.2.1 (tidy_deep h h6 (V := V) (by simp) hfront)
    obtain ⟨r2, hr2, α2, β2, ρ2, k7, k8⟩ := hbeh h1
    have hlist : (Sym.nt r.lhs).among s.lists = true := by
      refine (tidy_rule h hr2).2.2.2 (.nt r.lhs) ?_ hdeep
      rw [k7]
      cases β2 with
      | nil => cases k8.nil_left
      | cons Z β2 => rw [List.dropLast_append_of_ne_nil (by simp)]; simp [List.dropLast]
    have hex : Expects (g.aug fresh) g.rules.length γ (.nt r.lhs) := by
      obtain ⟨i', r', q1, q2, q3⟩ := h1
      exact q1.expects_prefix γ _ [] rfl
    have hl2 : g.isList r.lhs = true := by
      simp only [Gram.tidy, Bool.and_eq_true] at h
      exact List.all_eq_true.1 h.2 _ (List.contains_iff_mem.1 hlist)
    obtain ⟨j, hj⟩ := isList_place (g := g) (r0 := ⟨fresh, [.nt g.start]⟩) Gram.aug_start (hfr.aug hf) (fun r hr => List.mem_append_left _ hr) hl2 hex
    exact ⟨j, (Gram.errRule_iff hfr hf).1 hj⟩

theorem tidy_apart (h : g.tidy s = true) (hs : g.spaced s = true) : g.ErrorsApart := by
  intro r hr α β hαβ ρ hd
  have : .tm .err ∈ g.fronts s := by
    refine List.mem_flatMap.2 ⟨r, hr, ?_⟩
    rw [hαβ]
    exact mem_fronts (tidy_first h (gen_iff.2 hd) rfl)
  simp [Gram.spaced, this] at hs

theorem err_split {α α' β β' : List Sym} (h : α ++ .tm .err :: β = α' ++ .tm .err :: β') (h1 : .tm .err ∉ α) (h2 : .tm .err ∉ β) : α' = α := by
  rcases List.append_eq_append_iff.1 h with ⟨l, rfl, e⟩ | ⟨l, rfl, e⟩
  · cases l with
    | nil => simp
    | cons X l =>
      exfalso
      cases e
      exact h2 (by simp)
  · cases l with
    | nil => simp
    | cons X l =>
      exfalso
      cases e
      exact h1 (by simp)

theorem same_grouped {A : Nat} {α : List Sym} (h : g.sameErrors A α = true) :
    ∀ γ γ' r r', g.ErrorAt r γ → g.ErrorAt r γ' → g.ErrorAt r' γ → g.ErrorAt r' γ' := by
  simp only [Gram.sameErrors, Bool.and_eq_true] at h
  have hα : .tm .err ∉ α := by
    intro hm
    have := h.1
    simp [hm] at this
  have key : ∀ r γ, g.ErrorAt r γ → ∃ rule x v β, g.rules[r]? = some rule ∧ g.Handle r x v ∧ rule.lhs = A ∧ rule.rhs = α ++ .tm .err :: β ∧ γ = x ++ α := by
    rintro r γ ⟨rule, x, v, α', β', k1, k2, k3, rfl⟩
    have := List.all_eq_true.1 h.2 rule (List.mem_of_getElem? k1)
    simp only [Bool.or_eq_true, Bool.and_eq_true, beq_iff_eq, Bool.not_eq_true', List.isPrefixOf_iff_prefix] at this
    rcases this with this | ⟨⟨q1, β, q2⟩, q3⟩
    · rw [k3] at this; simp at this
    · have e : rule.rhs = α ++ .tm .err :: β := by rw [← q2]; simp
      have hβ : .tm .err ∉ β := by
        intro hm
        rw [e] at q3
        simp [List.drop_append, hm] at q3
      have := err_split (e.symm.trans k3) hα hβ
      subst this
      exact ⟨rule, x, v, β, k1, k2, q1, e, rfl⟩
  intro γ γ' r r' h1 h2 h3
  obtain ⟨rule, x, v, β, a1, ⟨_, n, a2, a3⟩, a4, a5, rfl⟩ := key r γ' h2
  obtain ⟨rule', x', v', β', b1, _, b4, b5, _⟩ := key r' γ h3
  rw [a1] at a2
  cases a2
  rw [a4, ← b4] at a3
  exact ⟨rule', x, v, α, β', b1, ⟨rule', n, b1, a3⟩, b5, rfl⟩

end Verif.Par
