import Verif.Par.Rightmost
import Verif.Par.SimProof

/-!
# Valid items and rightmost derivations
-/

namespace Verif.Par

theorem Rm.gen {R : List PRule} {u ζ : List Sym} {n : Nat} (h : Rm R u n ζ) : Gen R u ζ := by
  induction h with
  | zero => exact Gen.refl _
  | step n x r w _ hr ih => exact ih.trans (Gen.mid hr _ _)

/-- Terminals can be derived from the right. -/
theorem Rm.finish {R : List PRule} {u a b : List Sym} (h : Gen R a b) :
    ∀ x v w n, b = tms v → Rm R u n (x ++ a ++ tms w) → ∃ m, Rm R u m (x ++ tms v ++ tms w) := by
  induction h with
  | nil => intro x v w n hb hr; cases v with
    | nil => exact ⟨n, hr⟩
    | cons _ _ => cases hb
  | keep X l b _ ih =>
    intro x v w n hb hr
    cases v with
    | nil => cases hb
    | cons t v =>
      simp only [List.map_cons, List.cons.injEq] at hb
      obtain ⟨rfl, rfl⟩ := hb
      obtain ⟨m, hm⟩ := ih (x ++ [.tm t]) v w n rfl (by simpa using hr)
      exact ⟨m, by simpa using hm⟩
  | expand r l b1 b2 hr _ _ ih1 ih2 =>
    intro x v w n hb hrm
    obtain ⟨v1, v2, rfl, rfl, rfl⟩ := List.append_eq_map_iff.1 hb
    obtain ⟨m, hm⟩ := ih2 (x ++ [.nt r.lhs]) v2 w n rfl (by simpa using hrm)
    have hm' := Rm.step m x r (v2 ++ w) (by simpa using hm) hr
    obtain ⟨k, hk⟩ := ih1 x v1 (v2 ++ w) (m + 1) rfl (by simpa using hm')
    exact ⟨k, by simpa using hk⟩

/-- What follows in a sentential form derives terminals. -/
theorem complete_terms {R : List PRule} {u : List Sym} (hfr : ∀ x n y, Gen R u (x ++ .nt n :: y) → ∃ w, Gen R [.nt n] (tms w))
    {η : List Sym} : ∀ x, Gen R u (x ++ η) → ∃ w, Gen R η (tms w) := by
  induction η with
  | nil => intro x _; exact ⟨[], .nil⟩
  | cons X η ih =>
    intro x h
    obtain ⟨w, hw⟩ := ih (x ++ [X]) (by simpa using h)
    cases X with
    | tm t => exact ⟨t :: w, .keep _ _ _ hw⟩
    | nt n =>
      obtain ⟨w', hw'⟩ := hfr x n η h
      exact ⟨w' ++ w, by simpa using hw'.append hw⟩

variable {R : List PRule} {s : Nat} {r0 : PRule}

/-- Every valid item comes from a rightmost derivation. -/
theorem Valid.rm (hs : R[s]? = some r0)
    (hfr : ∀ x n y, Gen R [.nt r0.lhs, .tm .eoi] (x ++ .nt n :: y) → ∃ w, Gen R [.nt n] (tms w))
    {γ : List Sym} {i : Item} (h : Valid R s γ i) :
    ∃ r δ w n, R[i.rule]? = some r ∧ i.pos ≤ r.rhs.length ∧ γ = δ ++ r.rhs.take i.pos ∧
      Rm R [.nt r0.lhs, .tm .eoi] n (δ ++ .nt r.lhs :: tms (i.la :: w)) := by
  induction h with
  | start => exact ⟨r0, [], [], 0, hs, Nat.zero_le _, rfl, .zero⟩
  | advance γ i r X _ h2 h3 ih =>
    obtain ⟨r', δ, w, n, k1, k2, k3, k4⟩ := ih
    rw [h2] at k1
    cases k1
    have hlt : i.pos < r.rhs.length := by rw [List.getElem?_eq_some_iff] at h3; exact h3.1
    refine ⟨r, δ, w, n, h2, hlt, ?_, k4⟩
    rw [List.take_add_one, h3, k3]
    simp
  | expand γ i r B j r' b ρ h1 h2 h3 h4 h5 h6 ih =>
    obtain ⟨r'', δ, w, n, k1, k2, k3, k4⟩ := ih
    rw [h2] at k1
    cases k1
    subst h5
    have hlt : i.pos < r.rhs.length := by rw [List.getElem?_eq_some_iff] at h3; exact h3.1
    have hstep := Rm.step n δ r (i.la :: w) k4 (List.mem_of_getElem? h2)
    have hsplit : r.rhs = r.rhs.take i.pos ++ .nt r'.lhs :: r.rhs.drop (i.pos + 1) := by
      have := List.take_append_drop i.pos r.rhs
      rw [List.drop_eq_getElem_cons hlt] at this
      rw [List.getElem?_eq_getElem hlt] at h3
      rw [Option.some.inj h3] at this
      exact this.symm
    have e : δ ++ r.rhs ++ tms (i.la :: w) =
        (γ ++ [.nt r'.lhs]) ++ (r.rhs.drop (i.pos + 1) ++ [.tm i.la]) ++ tms w := by
      rw [k3]
      conv => lhs; rw [hsplit]
      simp
    rw [e] at hstep
    -- complete what the look-ahead leaves open
    have hg : Gen R [.nt r0.lhs, .tm .eoi] ((γ ++ [.nt r'.lhs] ++ [.tm b]) ++ (ρ ++ tms w)) := by
      refine hstep.gen.trans ?_
      have := ((Gen.refl (γ ++ [.nt r'.lhs])).append (gen_iff.2 h6)).append (Gen.refl (R := R) (tms w))
      simpa using this
    obtain ⟨v, hv⟩ := complete_terms hfr _ hg
    obtain ⟨u1, u2, e1, hu1, _⟩ := hv.split
    obtain ⟨v1, v2, rfl, rfl, rfl⟩ := List.append_eq_map_iff.1 e1.symm
    obtain ⟨m, hm⟩ := Rm.finish (u := [.nt r0.lhs, .tm .eoi]) ((gen_iff.2 h6).trans (.keep (.tm b) ρ (tms v1) hu1))
      (γ ++ [.nt r'.lhs]) (b :: v1) w (n + 1) rfl hstep
    exact ⟨r', γ, v1 ++ w, m, h4, Nat.zero_le _, by simp, by simpa using hm⟩

/-- Where a list of symbols and terminals behind it contains a non-terminal. -/
theorem nt_before {a b : List Sym} {w : List Term} {x y : List Sym} {A : Nat} (h : a ++ b ++ tms w = x ++ .nt A :: y) :
    (∃ c, a = x ++ .nt A :: c ∧ y = c ++ b ++ tms w) ∨ ∃ c d, b = c ++ .nt A :: d ∧ x = a ++ c ∧ y = d ++ tms w := by
  rw [List.append_assoc] at h
  rcases List.append_eq_append_iff.1 h with ⟨c, h1, h2⟩ | ⟨c, h1, h2⟩
  · right
    rcases List.append_eq_append_iff.1 h2 with ⟨d, h3, h4⟩ | ⟨d, h3, h4⟩
    · exfalso
      have : Sym.nt A ∈ tms w := by rw [h4]; simp
      simp at this
    · cases d with
      | nil =>
        exfalso
        have : Sym.nt A ∈ tms w := by simp at h4; rw [← h4]; simp
        simp at this
      | cons Z d =>
        simp only [List.cons_append, List.cons.injEq] at h4
        obtain ⟨rfl, rfl⟩ := h4
        exact ⟨c, d, h3, h1, rfl⟩
  · cases c with
    | nil =>
      right
      simp only [List.nil_append] at h2
      simp only [List.append_nil] at h1
      subst h1
      cases b with
      | nil =>
        exfalso
        have : Sym.nt A ∈ tms w := by simp at h2; rw [← h2]; simp
        simp at this
      | cons Z b =>
        simp only [List.cons_append, List.cons.injEq] at h2
        obtain ⟨rfl, rfl⟩ := h2
        exact ⟨[], b, rfl, by simp, rfl⟩
    | cons Z c =>
      left
      simp only [List.cons_append, List.cons.injEq] at h2
      obtain ⟨rfl, rfl⟩ := h2
      exact ⟨c, h1, by simp⟩

/-- The first symbol derived from `β t` does not depend on what follows the terminal `t`. -/
theorem gen_first {β : List Sym} {t a : Term} {η ρ : List Sym} (h : Gen R (β ++ .tm t :: η) (.tm a :: ρ)) :
    ∃ ρ', Gen R (β ++ [.tm t]) (.tm a :: ρ') := by
  have e : β ++ .tm t :: η = (β ++ [.tm t]) ++ η := by simp
  rw [e] at h
  obtain ⟨u, v, h1, h2, h3⟩ := h.split
  cases u with
  | nil =>
    exfalso
    obtain ⟨u1, u2, k1, k2, k3⟩ := h2.split
    obtain ⟨v', rfl, _⟩ := k3.terminal
    simp at k1
  | cons Z u =>
    simp only [List.cons_append, List.cons.injEq] at h1
    obtain ⟨rfl, rfl⟩ := h1
    exact ⟨u, h2⟩

/-- Every right sentential form ends with the end marker. -/
theorem Rm.last {n : Nat} {ζ : List Sym} (h : Rm R [.nt r0.lhs, .tm .eoi] n ζ) : ∃ x, ζ = x ++ [.tm .eoi] := by
  obtain ⟨u, v, h1, h2, h3⟩ := Gen.split_cons h.gen
  obtain ⟨v', rfl, h4⟩ := h3.terminal
  have := h4.nil_left
  subst this
  exact ⟨u, h1⟩

/-- Read a part of the rule. -/
theorem Valid.advance_to {r : Nat} {γ : List Sym} {a : Term} {rule : PRule} (h : Valid R s γ ⟨r, 0, a⟩)
    (hr : R[r]? = some rule) (n : Nat) (hn : n ≤ rule.rhs.length) : Valid R s (γ ++ rule.rhs.take n) ⟨r, n, a⟩ := by
  induction n with
  | zero => simpa using h
  | succ n ih =>
    have := Valid.advance _ _ rule rule.rhs[n] (ih (by omega)) hr (List.getElem?_eq_getElem hn)
    rw [List.take_add_one, List.getElem?_eq_getElem hn]
    simpa using this

/-- Items for non-terminals in right sentential forms. -/
theorem Rm.valid (hu : ∀ j r', R[j]? = some r' → r'.lhs = r0.lhs → j = s) {n : Nat} {ζ : List Sym}
    (h : Rm R [.nt r0.lhs, .tm .eoi] n ζ) :
    ∀ x A y a ρ, ζ = x ++ .nt A :: y → Gen R y (.tm a :: ρ) → ∀ j r', R[j]? = some r' → r'.lhs = A → Valid R s x ⟨j, 0, a⟩ := by
  induction h with
  | zero =>
    intro x A y a ρ hz hg j r' hj hA
    cases x with
    | nil =>
      simp only [List.nil_append, List.cons.injEq, Sym.nt.injEq] at hz
      obtain ⟨rfl, rfl⟩ := hz
      obtain ⟨v, h1, _⟩ := hg.terminal
      cases h1
      cases hu j r' hj hA
      exact .start
    | cons Z x =>
      cases x with
      | nil => simp at hz
      | cons Z' x => simp at hz
  | step n x0 r w h0 hr ih =>
    intro x A y a ρ hz hg j r' hj hA
    rcases nt_before hz with ⟨c, h1, h2⟩ | ⟨c, d, h1, h2, h3⟩
    · subst h1 h2
      exact ih x A (c ++ .nt r.lhs :: tms w) a ρ (by simp) ((Gen.mid hr c (tms w)).trans hg) j r' hj hA
    · subst h2 h3
      obtain ⟨k, hk⟩ := List.getElem?_of_mem hr
      cases w with
      | nil =>
        exfalso
        obtain ⟨z, hz⟩ := h0.last
        rw [show x0 ++ .nt r.lhs :: tms [] = x0 ++ [.nt r.lhs] from rfl] at hz
        have := (List.append_inj' hz rfl).2
        cases this
      | cons t w =>
        have hv := ih x0 r.lhs (tms (t :: w)) t (tms w) rfl (Gen.refl _) k r hk rfl
        have hlen : c.length ≤ r.rhs.length := by rw [h1]; simp
        have hv' := hv.advance_to hk c.length hlen
        rw [show r.rhs.take c.length = c by rw [h1]; simp] at hv'
        obtain ⟨ρ', hρ⟩ := gen_first hg
        refine Valid.expand (x0 ++ c) ⟨k, c.length, t⟩ r A j r' a ρ' hv' hk (by simp only [h1]; simp) hj hA ?_
        simp only
        rw [show r.rhs.drop (c.length + 1) = d by rw [h1]; simp [List.drop_append]]
        exact gen_iff.1 hρ

/-- Items of the rule that is applied to a non-terminal in a right sentential form. -/
theorem Rm.valid_at (hu : ∀ j r', R[j]? = some r' → r'.lhs = r0.lhs → j = s) {n : Nat} {x : List Sym}
    {w : List Term} {a : Term} {j : Nat} {r : PRule} (hj : R[j]? = some r)
    (h : Rm R [.nt r0.lhs, .tm .eoi] n (x ++ .nt r.lhs :: tms (a :: w))) (k : Nat) (hk : k ≤ r.rhs.length) :
    Valid R s (x ++ r.rhs.take k) ⟨j, k, a⟩ :=
  (h.valid hu x r.lhs _ a (tms w) rfl (Gen.refl _) j r hj rfl).advance_to hj k hk

/-- A symbol in a viable prefix is expected behind what precedes it. -/
theorem Valid.expects_prefix {ζ : List Sym} {i : Item} (h : Valid R s ζ i) : ∀ γ X x, ζ = γ ++ X :: x → Expects R s γ X := by
  induction h with
  | start => intro γ X x hz; simp at hz
  | advance γ0 i r Y h1 h2 h3 ih =>
    intro γ X x hz
    rcases List.eq_nil_or_concat x with rfl | ⟨x', Z, rfl⟩
    · obtain ⟨rfl, h4⟩ := List.append_inj' hz rfl
      cases h4
      exact ⟨i, r, h1, h2, h3⟩
    · have hz' : γ0 ++ [Y] = (γ ++ X :: x') ++ [Z] := by rw [hz]; simp
      exact ih γ X x' (List.append_inj' hz' rfl).1
  | expand _ _ _ _ _ _ _ _ _ _ _ _ _ _ ih => exact ih

/-- `γ` and the terminal `a` are the beginning of a right sentential form with `n + 1` steps whose handle does not end before
the end of `γ`. -/
def RmAt (R : List PRule) (r0 : PRule) (n : Nat) (γ : List Sym) (a : Term) : Prop :=
  ∃ x, ∃ j : Nat, ∃ r : PRule, ∃ w u, R[j]? = some r ∧ Rm R [.nt r0.lhs, .tm .eoi] n (x ++ .nt r.lhs :: tms w) ∧
    x ++ r.rhs ++ tms w = γ ++ tms (a :: u) ∧ γ.length ≤ (x ++ r.rhs).length

/-- What the items say about such a prefix: the terminal is expected, or the handle is complete and reducing it leads to
such a prefix again. -/
theorem RmAt.cases (hu : ∀ j r', R[j]? = some r' → r'.lhs = r0.lhs → j = s) {n : Nat} {γ : List Sym} {a : Term} (h : RmAt R r0 n γ a) :
    Expects R s γ (.tm a) ∨ ∃ j r x, R[j]? = some r ∧ Complete R s γ j a ∧ γ = x ++ r.rhs ∧
      (j = s ∨ ∃ n', n = n' + 1 ∧ RmAt R r0 n' (x ++ [.nt r.lhs]) a) := by
  obtain ⟨x, j, r, w, u, hj, hrm, he, hle⟩ := h
  have htail : ∃ tail, x ++ r.rhs = γ ++ tail ∧ tms (a :: u) = tail ++ tms w := by
    rcases List.append_eq_append_iff.1 he with ⟨c, h1, h2⟩ | ⟨c, h1, h2⟩
    · have hc : c = [] := by
        have := congrArg List.length h1
        rw [List.length_append] at this
        exact List.eq_nil_of_length_eq_zero (by omega)
      subst hc
      exact ⟨[], by simpa using h1.symm, by simpa using h2.symm⟩
    · exact ⟨c, h1, h2⟩
  obtain ⟨tail, h1, h2⟩ := htail
  have hw : ∃ t w', w = t :: w' := by
    cases w with
    | cons t w' => exact ⟨t, w', rfl⟩
    | nil =>
      exfalso
      obtain ⟨z, hz⟩ := hrm.last
      rw [show x ++ .nt r.lhs :: tms [] = x ++ [.nt r.lhs] from rfl] at hz
      have := (List.append_inj' hz rfl).2
      cases this
  obtain ⟨t, w', rfl⟩ := hw
  have hval := fun k hk => Rm.valid_at (s := s) hu hj hrm k hk
  cases tail with
  | nil =>
    right
    simp only [List.append_nil] at h1
    simp only [List.map_cons, List.nil_append, List.cons.injEq, Sym.tm.injEq] at h2
    obtain ⟨rfl, h2⟩ := h2
    refine ⟨j, r, x, hj, ⟨r, hj, ?_⟩, h1.symm, ?_⟩
    · have := hval r.rhs.length (Nat.le_refl _)
      rw [List.take_length] at this
      rw [← h1]
      exact this
    · generalize hform : x ++ .nt r.lhs :: tms (a :: w') = ζ at hrm
      cases hrm with
      | zero =>
        left
        cases x with
        | nil =>
          simp only [List.nil_append, List.cons.injEq, Sym.nt.injEq] at hform
          exact hu j r hj hform.1
        | cons Z x =>
          cases x with
          | nil => simp at hform
          | cons Z' x => simp at hform
      | step n x1 r1 w1 h0 hr1 =>
        right
        obtain ⟨j1, hj1⟩ := List.getElem?_of_mem hr1
        refine ⟨n, rfl, x1, j1, r1, w1, w', hj1, h0, by rw [← hform]; simp, ?_⟩
        rcases nt_before hform.symm with ⟨c, k1, k2⟩ | ⟨c, d, k1, k2, k3⟩
        · rw [k1]; simp
        · rw [k1, k2]; simp
  | cons Z tail =>
    left
    simp only [List.map_cons, List.cons_append, List.cons.injEq] at h2
    obtain ⟨rfl, h2⟩ := h2
    have := hval r.rhs.length (Nat.le_refl _)
    rw [List.take_length, h1] at this
    exact this.expects_prefix γ _ _ rfl

/-- A complete rule is the handle of a right sentential form. -/
theorem Complete.rmAt (hs : R[s]? = some r0)
    (hfr : ∀ x n y, Gen R [.nt r0.lhs, .tm .eoi] (x ++ .nt n :: y) → ∃ w, Gen R [.nt n] (tms w))
    {γ : List Sym} {r : Nat} {a : Term} (h : Complete R s γ r a) : ∃ n, RmAt R r0 n γ a := by
  obtain ⟨rule, h1, h2⟩ := h
  obtain ⟨r', δ, w, n, k1, k2, k3, k4⟩ := h2.rm hs hfr
  simp only at k1 k3 k4
  rw [h1] at k1
  cases k1
  rw [List.take_length] at k3
  refine ⟨n, δ, r, rule, a :: w, w, h1, k4, by rw [k3], by rw [k3]; simp⟩

end Verif.Par
