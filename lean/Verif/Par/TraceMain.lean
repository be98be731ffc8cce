import Verif.Par.TraceProof
import Verif.Par.TidyProof

/-!
# No token gets lost: from the machine to `parse`, and the check
-/

namespace Verif.Par

variable {N T E : Type} {p : Parser N T E} {rules : List (Rule N T E)} {idx : T → Nat} {input : List T} {start fresh : Nat}

theorem Ctx.tree (hx : Ctx p rules start fresh) (hfr : (gram rules start).Fruitful) :
    TreeCtx (gram rules start) rules ((gram rules start).aug fresh) rules.length start ⟨fresh, [.nt start]⟩ := by
  have hl : (gram rules start).rules.length = rules.length := by simp [gram]
  refine ⟨Ctx.start_rule, ?_, ?_, hfr.aug hx.unused, ?_⟩
  · have := (gram rules start).aug_only hx.unused
    rw [hl] at this
    exact this
  · rintro γ a h
    obtain ⟨rule, h1, h2⟩ := h
    rw [Ctx.start_rule] at h1
    cases h1
    have := start_items (g := gram rules start) hx.unused (by rw [hl]; exact h2) (by rw [hl])
    refine ⟨?_, this.1⟩
    rcases this.2 with ⟨k1, _⟩ | ⟨_, k1⟩
    · cases k1
    · exact k1
  · intro r rule h
    have h1 : (rules.map Rule.plain)[r]? = some rule.plain := by simp [h]
    exact ⟨(aug_get h1).1, List.mem_of_getElem? h1, h1⟩

theorem Ctx.trace (hx : Ctx p rules start fresh) (hfr : (gram rules start).Fruitful) (ht : (gram rules start).Traced) :
    TraceCtx (gram rules start) rules ((gram rules start).aug fresh) rules.length start ⟨fresh, [.nt start]⟩ := by
  have hl : (gram rules start).rules.length = rules.length := by simp [gram]
  refine ⟨hx.tree hfr, ?_⟩
  intro γ X Y r h1 h2
  rw [← hl] at h1 h2 ⊢
  rw [Gram.expects_iff hfr hx.unused, List.append_assoc] at h1
  rw [Gram.errRule_iff hfr hx.unused] at h2
  simp only [Gram.errRule_iff hfr hx.unused]
  exact ht γ X Y r h1 h2

theorem covered_run (hx : Ctx p rules start fresh) (hfr : (gram rules start).Fruitful) (ht : (gram rules start).Traced) (hne : input ≠ []) (n : Nat) :
    ∀ {c c' : Cfg N T} {m : Mach N T} {es : List (Entry N T)} {v : N}, MachSim p rules idx input start fresh c m →
      TInv (gram rules start) rules ((gram rules start).aug fresh) ⟨fresh, [.nt start]⟩ idx input m es → run idx p n c = .done (.ok v) c' →
      ∃ f calls, Built (rules.map Rule.plain) idx input [.nt start] [f] ∧ Evals rules [f] calls (.ok [.nt v]) ∧
        calls.Sublist c'.log.reverse ∧ ((leaves [f]).Pairwise fun x y => x.2 < y.2) ∧ ∀ i < input.length, Covered [f] i := by
  induction n with
  | zero => intro c c' m es v _ _ h; cases h
  | succ n ih =>
    intro c c' m es v hs hi h
    obtain ⟨o, ho⟩ := hs.progress hx
    have hsim := hs.step hx ho
    simp only [run] at h
    cases hst : step idx p c with
    | panic => rw [hst] at h; cases h
    | more c1 =>
      rw [hst] at h hsim
      cases o with
      | done x m' => exact absurd hsim id
      | panic => exact absurd hsim id
      | more m' =>
        obtain ⟨es', hi'⟩ := hi.step (hx.trace hfr ht) hne ((hx.canon.walk_iff _).1 ⟨_, hs.seg.walk⟩) ho
        exact ih hsim hi' h
    | done x c1 =>
      rw [hst] at h hsim
      cases h
      cases o with
      | more m' => exact absurd hsim id
      | panic => exact absurd hsim id
      | done x m' =>
        obtain ⟨rfl, hlog, _⟩ := hsim
        cases ho with
        | accept v i h1 h2 =>
          have hp := hi.pieces
          rw [h2] at hp
          obtain ⟨e, es', rfl, he, hes⟩ := List.map_eq_cons_iff.1 hp.symm
          cases List.map_eq_nil_iff.1 hes
          obtain ⟨P, f, lg⟩ := e
          simp only at he
          subst he
          obtain ⟨k1, k2⟩ := hi.stand _ List.mem_cons_self
          have hpos : input.length ≤ m.pos := by simpa using h1
          refine ⟨f, lg, k1, k2, ?_, hi.inc, fun i hlt => hi.top i (by omega)⟩
          rw [hlog]
          simpa [madeBy, Mach.look] using hi.calls

/-- What is in the tree has been handed to a callback. -/
theorem Evals.handed {fs : List (Tree T)} {lg x} (h : Evals rules fs lg x) : ∀ as, x = .ok as →
    (∀ y ∈ leaves fs, .tok y.1 ∈ as ∨ ∃ q ∈ lg, .tok y.1 ∈ q.2) ∧ ∀ y ∈ errs fs, .err y.2 ∈ as ∨ ∃ q ∈ lg, .err y.2 ∈ q.2 := by
  induction h with
  | nil => intro as _; simp [leaves, errs]
  | leaf i t fs lg as _ ih =>
    intro as' h
    cases h
    obtain ⟨h1, h2⟩ := ih as rfl
    constructor
    · intro y hy
      simp only [leaves, Tree.leaves, List.cons_append, List.nil_append, List.mem_cons] at hy
      rcases hy with rfl | hy
      · exact .inl List.mem_cons_self
      · exact (h1 y hy).imp (List.mem_cons_of_mem _) id
    · intro y hy
      simp only [errs, Tree.errs, List.nil_append] at hy
      exact (h2 y hy).imp (List.mem_cons_of_mem _) id
  | leafE => intro as h; cases h
  | err lo l fs lg as _ ih =>
    intro as' h
    cases h
    obtain ⟨h1, h2⟩ := ih as rfl
    constructor
    · intro y hy
      simp only [leaves, Tree.leaves, List.nil_append] at hy
      exact (h1 y hy).imp (List.mem_cons_of_mem _) id
    · intro y hy
      simp only [errs, Tree.errs, List.cons_append, List.nil_append, List.mem_cons] at hy
      rcases hy with rfl | hy
      · exact .inl List.mem_cons_self
      · exact (h2 y hy).imp (List.mem_cons_of_mem _) id
  | errE => intro as h; cases h
  | node r rule cs lg1 args v fs lg2 as _ _ _ _ ih1 ih2 =>
    intro as' h
    cases h
    obtain ⟨h1, h2⟩ := ih1 args rfl
    obtain ⟨h3, h4⟩ := ih2 as rfl
    constructor
    · intro y hy
      simp only [leaves, Tree.leaves, List.mem_append] at hy
      rcases hy with hy | hy
      · right
        rcases h1 y hy with h | ⟨q, h, k⟩
        · exact ⟨(r, args), by simp, h⟩
        · exact ⟨q, by simp [h], k⟩
      · rcases h3 y hy with h | ⟨q, h, k⟩
        · exact .inl (List.mem_cons_of_mem _ h)
        · exact .inr ⟨q, by simp [h], k⟩
    · intro y hy
      simp only [errs, Tree.errs, List.mem_append] at hy
      rcases hy with hy | hy
      · right
        rcases h2 y hy with h | ⟨q, h, k⟩
        · exact ⟨(r, args), by simp, h⟩
        · exact ⟨q, by simp [h], k⟩
      · rcases h4 y hy with h | ⟨q, h, k⟩
        · exact .inl (List.mem_cons_of_mem _ h)
        · exact .inr ⟨q, by simp [h], k⟩
  | nodeE => intro as h; cases h
  | fail => intro as h; cases h
  | inner => intro as h; cases h

theorem Built.leaf_get {R : List PRule} {us : List Sym} {fs : List (Tree T)} (h : Built R idx input us fs) : ∀ y ∈ leaves fs, input[y.2]? = some y.1 := by
  induction h with
  | nil => simp [leaves]
  | leaf i t us fs h _ ih =>
    intro y hy
    simp only [leaves, Tree.leaves, List.cons_append, List.nil_append, List.mem_cons] at hy
    rcases hy with rfl | hy
    · exact h
    · exact ih y hy
  | err lo l us fs _ _ _ ih =>
    intro y hy
    simp only [leaves, Tree.leaves, List.nil_append] at hy
    exact ih y hy
  | node r rule cs us fs _ _ _ ih1 ih2 =>
    intro y hy
    simp only [leaves, Tree.leaves, List.mem_append] at hy
    exact hy.elim (ih1 y) (ih2 y)

/-! ## The check -/

theorem errorsOf_rule {g : Gram} {K : Nat} (h : g.errorsOf K = true) {r : PRule} (hr : r ∈ g.rules) (hm : Sym.tm .err ∈ r.rhs) :
    r.lhs = K ∧ ∃ β, r.rhs = .tm .err :: β := by
  have h0 := List.all_eq_true.1 h r hr
  simp only [Bool.and_eq_true, Bool.or_eq_true, Bool.not_eq_true'] at h0
  rcases h0 with h2 | ⟨⟨h2, h4⟩, _⟩
  · simp [hm] at h2
  · refine ⟨by simpa using h2, ?_⟩
    cases e : r.rhs with
    | nil => rw [e] at hm; cases hm
    | cons X β =>
      rw [e] at h4
      simp only [List.head?_cons, beq_iff_eq, Option.some.injEq] at h4
      subst h4
      exact ⟨β, rfl⟩

/-- Items behind a symbol come from an item of a rule that has just been advanced over that symbol. -/
theorem Valid.kernel {R : List PRule} {s : Nat} {ζ : List Sym} {i : Item} (h : Valid R s ζ i) : ∀ γ X r Y, ζ = γ ++ [X] → R[i.rule]? = some r →
    r.rhs[i.pos]? = some Y → ∃ i' r', Valid R s ζ i' ∧ R[i'.rule]? = some r' ∧
      ∃ α β ρ, r'.rhs = α ++ X :: β ∧ i'.pos = α.length + 1 ∧ Gen R β (Y :: ρ) := by
  induction h with
  | start => intro γ X r Y hz; simp at hz
  | advance γ0 i r0 Z h1 h2 h3 ih =>
    intro γ X r Y hz hr hY
    obtain ⟨rfl, h4⟩ := List.append_inj' hz rfl
    cases h4
    simp only [h2] at hr
    cases hr
    have hlt : i.pos + 1 < r0.rhs.length := by
      simp only at hY
      rw [List.getElem?_eq_some_iff] at hY; exact hY.1
    refine ⟨_, r0, Valid.advance _ i r0 Z h1 h2 h3, h2, r0.rhs.take i.pos, r0.rhs.drop (i.pos + 1), r0.rhs.drop (i.pos + 2), ?_, ?_, ?_⟩
    · have := List.take_append_drop i.pos r0.rhs
      rw [List.drop_eq_getElem_cons (by omega)] at this
      rw [List.getElem?_eq_getElem (by omega)] at h3
      rw [Option.some.inj h3] at this
      exact this.symm
    · simp only [List.length_take]; omega
    · rw [List.drop_eq_getElem_cons hlt]
      simp only at hY
      rw [List.getElem?_eq_getElem hlt] at hY
      rw [Option.some.inj hY]
      exact Gen.refl _
  | expand γ0 i r B j r1 b ρ h1 h2 h3 h4 h5 h6 ih =>
    intro γ X r' Y hz hr hY
    simp only at hr hY
    rw [h4] at hr
    cases hr
    obtain ⟨i2, r2, k0, k1, α, β, ρ', k2, k4, k3⟩ := ih γ X r (.nt B) hz h2 h3
    subst h5
    cases hrhs : r1.rhs with
    | nil => rw [hrhs] at hY; cases hY
    | cons Z l =>
      rw [hrhs] at hY
      cases hY
      refine ⟨i2, r2, k0, k1, α, β, l ++ ρ', k2, k4, k3.trans ?_⟩
      have := Gen.append (Gen.rule (List.mem_of_getElem? h4)) (Gen.refl ρ')
      rw [hrhs] at this
      simpa using this

theorem leads_expects {g : Gram} {K fresh : Nat} (hfr : g.Fruitful) (hf : ¬ g.Used fresh) {γ : List Sym} (k : Nat) : ∀ {n : Nat}, g.leads K k n = true →
    Expects (g.aug fresh) g.rules.length γ (.nt n) → Expects (g.aug fresh) g.rules.length γ (.nt K) := by
  induction k with
  | zero =>
    intro n h hex
    simp only [Gram.leads, beq_iff_eq] at h
    exact h ▸ hex
  | succ k ih =>
    intro n h hex
    simp only [Gram.leads, Bool.or_eq_true, beq_iff_eq] at h
    rcases h with h | h
    · exact h ▸ hex
    · obtain ⟨r, hr, h0⟩ := List.any_eq_true.1 h
      simp only [Bool.and_eq_true, beq_iff_eq] at h0
      obtain ⟨rfl, h1⟩ := h0
      split at h1
      · rename_i m β e
        obtain ⟨j, hj⟩ := List.getElem?_of_mem (show r ∈ g.aug fresh from List.mem_append_left _ hr)
        obtain ⟨a, hv⟩ := hex.item (r0 := ⟨fresh, [.nt g.start]⟩) Gram.aug_start (hfr.aug hf) hj
        exact ih h1 ⟨_, r, hv, hj, by rw [e]; rfl⟩
      · cases h1

theorem tracesIn_at {g : Gram} {firm : List Nat} {K : Nat} {l : List Sym} (h : g.tracesIn firm K l = true) : ∀ α n X β, l = α ++ .nt n :: X :: β →
    firm.contains n = true ∨ (g.errorsOf K = true ∧ ∃ r' ∈ g.rules, r'.lhs = n ∧ [.nt n, .nt K] <+: r'.rhs) ∨
      (g.errorsOf K = true ∧ ∃ t m β', X = .tm t ∧ β = .nt m :: β' ∧ g.leads K g.rules.length m = true) := by
  intro α
  induction α generalizing l with
  | nil =>
    rintro n X β rfl
    simp only [List.nil_append, Gram.tracesIn, Bool.and_eq_true, Bool.or_eq_true] at h
    rcases h.1 with (h | ⟨ke, h⟩) | ⟨ke, h⟩
    · exact .inl h
    · obtain ⟨r', hr', k⟩ := List.any_eq_true.1 h
      simp only [Bool.and_eq_true, beq_iff_eq, List.isPrefixOf_iff_prefix] at k
      exact .inr (.inl ⟨ke, r', hr', k⟩)
    · split at h
      · exact .inr (.inr ⟨ke, _, _, _, rfl, rfl, h⟩)
      · cases h
  | cons Z α ih =>
    rintro n X β rfl
    refine ih (l := α ++ .nt n :: X :: β) ?_ n X β rfl
    cases hl : α ++ .nt n :: X :: β with
    | nil => simp at hl
    | cons W l =>
      rw [List.cons_append, hl] at h
      cases Z with
      | tm t => simpa [Gram.tracesIn] using h
      | nt m =>
        simp only [Gram.tracesIn, Bool.and_eq_true] at h
        exact h.2

section
variable {g : Gram} {firm : List Nat} {K : Nat} (h : g.traces firm K = true)
include h

theorem traces_rule {r : PRule} (hr : r ∈ g.rules) :
    (firm.contains r.lhs = true → (∃ t β, r.rhs = .tm t :: β ∧ t ≠ .err) ∨ ∃ n β, r.rhs = .nt n :: β ∧ firm.contains n = true) ∧
    g.tracesIn firm K r.rhs = true := by
  have h0 := List.all_eq_true.1 h r hr
  simp only [Bool.and_eq_true, Bool.or_eq_true, Bool.not_eq_true'] at h0
  obtain ⟨h1, h3⟩ := h0
  refine ⟨?_, h3⟩
  intro hc
  rcases h1 with h1 | h1
  · rw [hc] at h1; cases h1
  · split at h1
    · rename_i t β e
      exact .inl ⟨t, β, e, by simpa using h1⟩
    · rename_i n β e
      exact .inr ⟨n, β, e, h1⟩
    · cases h1

theorem traces_firm {n : Nat} (hn : firm.contains n = true) : g.Firm n := by
  have key : ∀ {u w : List Sym}, Derives g.rules u w → u = [.nt n] →
      (∃ t β, w = .tm t :: β ∧ t ≠ .err) ∨ ∃ m β, w = .nt m :: β ∧ firm.contains m = true := by
    intro u w hd
    induction hd with
    | refl => rintro rfl; exact .inr ⟨n, [], rfl, hn⟩
    | step x y r _ hr ih =>
      intro hu
      cases x with
      | cons Z x =>
        rcases ih hu with ⟨t, β, e, k⟩ | ⟨m, β, e, k⟩
        · cases e
          exact .inl ⟨t, _, rfl, k⟩
        · cases e
          exact .inr ⟨m, _, rfl, k⟩
      | nil =>
        rcases ih hu with ⟨t, β, e, k⟩ | ⟨m, β, e, k⟩
        · cases e
        · cases e
          rcases (traces_rule h hr).1 k with ⟨t, β, e, k⟩ | ⟨m, β, e, k⟩
          · exact .inl ⟨t, β ++ y, by simp [e], k⟩
          · exact .inr ⟨m, β ++ y, by simp [e], k⟩
  intro r hr ρ hd
  rcases key hd rfl with ⟨t, β, e, _⟩ | ⟨m, β, e, k⟩
  · cases e
  · cases e
    rcases (traces_rule h hr).1 k with ⟨t, β, e, k⟩ | ⟨m, β, e, k⟩
    · refine ⟨by rw [e]; simp, fun β' e' => ?_⟩
      rw [e] at e'
      cases e'
      exact k rfl
    · refine ⟨by rw [e]; simp, fun β' e' => ?_⟩
      rw [e] at e'
      cases e'

theorem traces_traced {fresh : Nat} (hf : ¬ g.Used fresh) (hfr : g.Fruitful) : g.Traced := by
  intro γ X Y r h1 h2
  rw [show γ ++ [.nt X, Y] = (γ ++ [.nt X]) ++ [Y] by simp, ← Gram.expects_iff hfr hf] at h1
  obtain ⟨i, r1, k1, k2, k3⟩ := h1
  obtain ⟨i2, r2, q0, q1', α, β, ρ, q2, q4, q3⟩ := k1.kernel γ (.nt X) r1 Y rfl k2 k3
  have q1 := List.mem_of_getElem? q1'
  have hβ : β ≠ [] := by
    rintro rfl
    cases q3.nil_left
  have herr : ∀ ζ, g.errorsOf K = true → Expects (g.aug fresh) g.rules.length ζ (.nt K) → g.ErrorAt r ζ := by
    intro ζ ke hex
    obtain ⟨rule, x, v, α', β', e1, e2, e3, e4⟩ := h2
    obtain ⟨e5, β2, e6⟩ := errorsOf_rule ke (List.mem_of_getElem? e1) (by rw [e3]; simp)
    have e7 : (g.aug fresh)[r]? = some rule := by
      rw [Gram.aug, List.getElem?_append_left (by rw [List.getElem?_eq_some_iff] at e1; exact e1.1)]
      exact e1
    subst e5
    obtain ⟨a', hv'⟩ := hex.item (r0 := ⟨fresh, [.nt g.start]⟩) Gram.aug_start (hfr.aug hf) e7
    exact (Gram.errRule_iff hfr hf).1 ⟨_, rule, hv', rfl, e7, by rw [e6]; rfl⟩
  rcases List.mem_append.1 q1 with q1 | q1
  · obtain ⟨Z, β, rfl⟩ := List.exists_cons_of_ne_nil hβ
    rcases tracesIn_at (traces_rule h q1).2 α X Z β q2 with k | ⟨ke, r', hr', rfl, k⟩ | ⟨ke, t, m, β', rfl, rfl, k⟩
    · exact .inr (.inr (traces_firm h k))
    · left
      have hR : ∀ r ∈ g.rules, r ∈ g.aug fresh := fun r hr => List.mem_append_left _ hr
      have hex : Expects (g.aug fresh) g.rules.length γ (.nt r'.lhs) := k1.expects_prefix γ _ [] rfl
      obtain ⟨δ, hδ⟩ := k
      obtain ⟨j, hj⟩ := List.getElem?_of_mem (hR r' hr')
      obtain ⟨a, hv⟩ := hex.item (r0 := ⟨fresh, [.nt g.start]⟩) Gram.aug_start (hfr.aug hf) hj
      have hadv := Valid.advance γ ⟨j, 0, a⟩ r' (.nt r'.lhs) hv hj (by rw [← hδ]; rfl)
      exact herr _ ke ⟨_, r', hadv, hj, by rw [← hδ]; rfl⟩
    · right
      left
      have hY : Y = .tm t := by
        obtain ⟨v, e, _⟩ := q3.terminal
        cases e
        rfl
      subst hY
      have hadv := Valid.advance _ i2 r2 (.tm t) q0 q1' (by rw [q2, q4, List.getElem?_append_right (by omega)]; simp)
      have := leads_expects hfr hf _ k ⟨_, r2, hadv, q1', by
        simp only
        rw [q2, q4, List.getElem?_append_right (by omega), show α.length + 1 + 1 - α.length = 2 by omega]
        rfl⟩
      rw [show γ ++ [Sym.nt X, Sym.tm t] = (γ ++ [.nt X]) ++ [.tm t] by simp]
      exact herr _ ke this
  · exfalso
    cases List.mem_singleton.1 q1
    cases α with
    | nil =>
      simp only [List.nil_append, List.cons.injEq] at q2
      exact hβ q2.2.symm
    | cons Z α => simp at q2

end

end Verif.Par
