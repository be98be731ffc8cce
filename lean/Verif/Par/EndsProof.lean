import Verif.Par.SoundProof
import Verif.Par.ChosenProof

/-!
# Rules that are not empty and chains that end: `parse` ends
-/

namespace Verif.Par

/-- `A` becomes `B` by rules with a single non-terminal (at least one) (specification for C64). -/
inductive Gram.Chain (g : Gram) : Nat → Nat → Prop
  | one {a b : Nat} : (⟨a, [.nt b]⟩ : PRule) ∈ g.rules → g.Chain a b
  | more {a b c : Nat} : (⟨a, [.nt b]⟩ : PRule) ∈ g.rules → g.Chain b c → g.Chain a c

theorem Gram.Chain.trans {g : Gram} {a b c : Nat} (h : g.Chain a b) (h' : g.Chain b c) : g.Chain a c := by
  induction h with
  | one hr => exact .more hr h'
  | more hr _ ih => exact .more hr (ih h')

open Classical in
/-- How many left-hand sides can be reached by a chain, or are in the middle of one. -/
noncomputable def Gram.rank (g : Gram) (a : Nat) : Nat :=
  (g.rules.map PRule.lhs).countP fun b => decide (g.Chain a b)

theorem Gram.rank_le (g : Gram) (a : Nat) : g.rank a ≤ g.rules.length := by
  unfold Gram.rank
  classical
  exact Nat.le_trans List.countP_le_length (by simp)

theorem countP_lt {α : Type} {p q : α → Bool} {l : List α} (h : ∀ x ∈ l, p x = true → q x = true) {x : α} (hx : x ∈ l) (hq : q x = true) (hp : p x = false) :
    l.countP p < l.countP q := by
  induction l with
  | nil => cases hx
  | cons y l ih =>
    have h1 : l.countP p ≤ l.countP q := List.countP_mono_left fun z hz => h z (List.mem_cons_of_mem _ hz)
    rw [List.countP_cons, List.countP_cons]
    rcases List.mem_cons.1 hx with rfl | hx
    · simp [hq, hp]; omega
    · have := ih (fun z hz => h z (List.mem_cons_of_mem _ hz)) hx
      have h2 := h y (by simp)
      cases hpy : p y with
      | false => simp; omega
      | true => simp [h2 hpy]; omega

theorem Gram.rank_lt {g : Gram} (hc : ∀ a, ¬ g.Chain a a) {a b : Nat} (h : (⟨a, [.nt b]⟩ : PRule) ∈ g.rules) (hb : ∃ r ∈ g.rules, r.lhs = b) : g.rank b < g.rank a := by
  classical
  obtain ⟨r, hr, rfl⟩ := hb
  unfold Gram.rank
  refine countP_lt (x := r.lhs) ?_ (List.mem_map.2 ⟨r, hr, rfl⟩) ?_ ?_
  · intro x _ hx
    simp at hx ⊢
    exact .more h hx
  · simpa using Gram.Chain.one h
  · simpa using hc r.lhs

/-- Weights: reductions make the stack lighter. -/
noncomputable def Gram.weight (g : Gram) : Sym → Nat
  | .tm _ => 2 * g.rules.length + 3
  | .nt a => 2 * g.rules.length + 2 - g.rank a

noncomputable def Gram.weights (g : Gram) (γ : List Sym) : Nat := (γ.map g.weight).sum

theorem Gram.weights_append (g : Gram) (γ δ : List Sym) : g.weights (γ ++ δ) = g.weights γ + g.weights δ := by simp [weights]

theorem Gram.weight_bound (g : Gram) (X : Sym) : g.rules.length + 2 ≤ g.weight X := by
  cases X with
  | tm a => simp [weight]; omega
  | nt a => have := g.rank_le a; simp [weight]; omega

theorem Gram.weight_rule {g : Gram} (he : ∀ r ∈ g.rules, r.rhs ≠ []) (hc : ∀ a, ¬ g.Chain a a) {r : PRule} (hr : r ∈ g.rules)
    (hb : ∀ b, r.rhs = [.nt b] → ∃ r ∈ g.rules, r.lhs = b) : g.weight (.nt r.lhs) < g.weights r.rhs := by
  have h0 := he r hr
  have hle : g.weight (.nt r.lhs) ≤ 2 * g.rules.length + 2 := by simp [weight]
  match h : r.rhs with
  | [] => exact absurd h h0
  | [.tm a] => simp [weights]; simp [weight] at hle ⊢; omega
  | [.nt b] =>
    have hm : (⟨r.lhs, [.nt b]⟩ : PRule) ∈ g.rules := by rw [← h]; exact hr
    have := g.rank_lt hc hm (hb b h)
    have := g.rank_le r.lhs
    simp [weights, weight]
    omega
  | X :: Y :: l =>
    have h1 := g.weight_bound X
    have h2 := g.weight_bound Y
    simp only [weights, List.map_cons, List.sum_cons]
    omega

variable {N T E : Type} {p : Parser N T E} {rules : List (Rule N T E)} {start fresh : Nat} {idx : T → Nat} {input : List T}

/-- The configurations, with what is left to do. -/
def Left (p : Parser N T E) (rules : List (Rule N T E)) (idx : T → Nat) (input : List T) (start : Nat) (c : Cfg N T) (k : Nat) : Prop :=
  ∃ j γ fs lg as, Inv p rules idx input c j γ fs lg as ∧ errs fs = [] ∧
    (gram rules start).weights γ + (2 * rules.length + 4) * (input.length - j) ≤ k

theorem Left.step (hx : Ctx p rules start fresh) (hn : (gram rules start).NoError) (hem : ∀ r ∈ (gram rules start).rules, r.rhs ≠ [])
    (hch : ∀ a, ¬ (gram rules start).Chain a a) {c : Cfg N T} {k : Nat} (h : Left p rules idx input start c k) :
    (∃ c' k', Par.step idx p c = .more c' ∧ k' < k ∧ Left p rules idx input start c' k') ∨ (∃ x c', Par.step idx p c = .done x c') := by
  obtain ⟨j, γ, fs, lg, as, hi, he, hk⟩ := h
  obtain ⟨a, h1, h2, h3, h4⟩ := step_cases hx hi
  rcases h4 with ⟨t, s, _, ht, _, k1, k2⟩ | ⟨r, k1, k2⟩ | ⟨v, k1, k2, k3, k4, ⟨f, k5⟩, k6, k7⟩ | ⟨k1, k2 | ⟨c', j', γ', fs', lg', as', k2, k3, k4, k5, k6, k7, k8, k9, _⟩⟩
  · left
    have hj : j < input.length := (List.getElem?_eq_some_iff.1 ht).1
    refine ⟨_, k - 1, k1, ?_, _, _, _, _, _, k2, by simp [errs_append, he, errs, Tree.errs], ?_⟩
    all_goals
      have e : input.length - j = (input.length - (j + 1)) + 1 := by omega
      rw [e, Nat.mul_add] at hk
    · omega
    · rw [Gram.weights_append]
      have : (gram rules start).weights [.tm (.sym (idx t))] = 2 * rules.length + 3 := by simp [Gram.weights, Gram.weight, gram_length]
      omega
  · have k1' : p.tab.act (fill idx c).state a = some (.reduce r) := by rw [fill_state]; exact k1
    obtain ⟨rule, γ0, fs0, fs1, lg0, lg1, as0, as1, m1, m2, m3, m4, m5, m6⟩ := h2.reduce hx k1'
    have hez : errs fs0 = [] ∧ errs fs1 = [] := by rw [m3, errs_append, List.append_eq_nil_iff] at he; exact he
    rcases m6 with ⟨m6, m7, m8⟩ | ⟨m6, m7, m8, m9, m10⟩
    · exact absurd hez.2 m8
    · cases hg : rule.gen as1 with
      | error e =>
        right
        exact ⟨_, _, by rw [k2, m9 e hg]⟩
      | ok v =>
        left
        obtain ⟨q, q0, i, st, n1, n2⟩ := m10 v hg
        rw [k2]
        have hm : rule.plain ∈ (gram rules start).rules := List.mem_map.2 ⟨rule, List.mem_of_getElem? m1, rfl⟩
        have hw := Gram.weight_rule hem hch hm (by
          intro b hb
          have hb' : rule.rhs = [.nt b] := hb
          rw [hb'] at m6
          generalize hX : [Sym.nt b] = us at m6
          cases m6 with
          | nil => cases hX
          | leaf => cases hX
          | err => cases hX
          | node r' rule' cs us fs w1 w2 w3 =>
            cases hX
            exact ⟨rule', List.mem_of_getElem? w1, rfl⟩)
        rw [m2, Gram.weights_append] at hk
        have e1 : (gram rules start).weights rule.plain.rhs = (gram rules start).weights rule.rhs := rfl
        have e2 : (gram rules start).weights [.nt rule.lhs] = (gram rules start).weight (.nt rule.plain.lhs) := by simp [Gram.weights, Rule.plain]
        refine ⟨_, k - 1, n1, by omega, _, _, _, _, _, n2, by simp [errs_append, hez, errs, Tree.errs], ?_⟩
        rw [Gram.weights_append]
        omega
  · right
    exact ⟨_, _, k7⟩
  · right
    exact ⟨_, _, k2⟩
  · exact absurd k9 (no_err_expected hn)

theorem Left.ends (hx : Ctx p rules start fresh) (hn : (gram rules start).NoError) (hem : ∀ r ∈ (gram rules start).rules, r.rhs ≠ [])
    (hch : ∀ a, ¬ (gram rules start).Chain a a) (k : Nat) : ∀ c, Left p rules idx input start c k → ∃ n x c', n ≤ k + 1 ∧ run idx p n c = .done x c' := by
  induction k using Nat.strongRecOn with
  | ind k ih =>
    intro c hl
    rcases hl.step hx hn hem hch with ⟨c', k', h1, h2, h3⟩ | ⟨x, c', h1⟩
    · obtain ⟨n, x, c'', h4, h5⟩ := ih k' h2 c' h3
      exact ⟨n + 1, x, c'', by omega, by simp only [run, h1, h5]⟩
    · exact ⟨1, x, c', by omega, by simp only [run, h1]⟩

end Verif.Par
