import Verif.Props.ParDamage
import Verif.Props.ParLasting

/-!
# Property C91 for programs with nested blocks
-/

namespace Verif.Par

/-- Programs with damaged statements: `good n` is the statement `a + a + … + a ;` with `n` signs, `bad w` is `a w ;`, `block` is `{ … }`. -/
inductive Code where
  | done
  | good (n : Nat) (rest : Code)
  | bad (w : List Nat) (rest : Code)
  | block (body rest : Code)

/-- `+ a + a … + a` -/
def sumTail : Nat → List Nat
  | 0 => []
  | n + 1 => sumTail n ++ [4, 0]

def Code.text : Code → List Nat
  | .done => []
  | .good n c => 0 :: sumTail n ++ 1 :: c.text
  | .bad w c => 0 :: w ++ 1 :: c.text
  | .block b c => 2 :: b.text ++ 3 :: c.text

/-- What stands in place of a statement is not an expression and has no `;`, `{` and `}` in it (anything else). -/
def Code.Fair : Code → Prop
  | .done => True
  | .good _ c => c.Fair
  | .bad w c => (∀ t ∈ w, t ≠ 1 ∧ t ≠ 2 ∧ t ≠ 3) ∧ (∀ n, w ≠ sumTail n) ∧ c.Fair
  | .block b c => b.Fair ∧ c.Fair

def sumTree (j : Nat) : Nat → Tree Nat
  | 0 => .node 6 [.leaf j 0]
  | n + 1 => .node 5 [sumTree j n, .leaf (j + 2 * n + 1) 4, .leaf (j + 2 * n + 2) 0]

/-- The tree for the program at position `j`, behind the statements in `acc`: exactly the bad statements are `error ;`. -/
def Code.tree (acc : Tree Nat) (j : Nat) : Code → Tree Nat
  | .done => acc
  | .good n c => c.tree (.node 1 [acc, .node 2 [sumTree j n, .leaf (j + 2 * n + 1) 1]]) (j + 2 * n + 2)
  | .bad w c => c.tree (.node 1 [acc, .node 4 [.err j (0 :: w), .leaf (j + w.length + 1) 1]]) (j + w.length + 2)
  | .block b c => c.tree (.node 1 [acc, .node 3 [.leaf j 2, b.tree (.node 0 []) (j + 1), .leaf (j + 1 + b.text.length) 3]]) (j + b.text.length + 2)

theorem sumTail_length (n : Nat) : (sumTail n).length = 2 * n := by
  induction n with
  | zero => rfl
  | succ n ih => simp [sumTail, ih]; omega

/-- What can be seen in the table. -/
theorem stm_look : (∀ γ q X, pStm.tab.walk γ = some q → (gStm.ViablePrefix (γ ++ [X]) ↔ ∃ q', pStm.tab.goes q X = some q')) ∧
    ∀ γ q a r, pStm.tab.walk γ = some q → pStm.tab.act q a = some (.reduce r) → gStm.HandleAt r γ a := by
  obtain ⟨fresh, hx⟩ := ctx_of_makes idSeeds_fair (by decide) pStm_makes
  have hl : (gram (plainRules gStm) 0).rules.length = (plainRules gStm).length := rfl
  refine ⟨fun γ q X h => ?_, fun γ q a r h h' => ?_⟩
  · rw [hx.canon.goes γ q X h]
    exact (Gram.expects_iff (g := gStm) gStm_fruitful hx.unused).symm
  · obtain ⟨h1, h2, _⟩ := (hx.canon.reduce γ q a r h).1 h'
    exact (Gram.complete_iff (g := gStm) gStm_fruitful hx.unused h1).1 h2

theorem stm_walk {γ : List Sym} {q q' : Nat} {X : Sym} (h : pStm.tab.walk γ = some q) (h' : pStm.tab.goes q X = some q') : pStm.tab.walk (γ ++ [X]) = some q' := by
  rw [walk_snoc, h]
  exact h'

theorem viable_prefix {g : Gram} {γ δ : List Sym} (h : g.ViablePrefix (γ ++ δ)) : g.ViablePrefix γ := by
  rcases h with h | ⟨r, rule, x, v, h1, h2, h3⟩
  · exact .inl ((List.prefix_append γ δ).trans h)
  · exact .inr ⟨r, rule, x, v, h1, h2, (List.prefix_append γ δ).trans h3⟩

/-- Symbols without `;`, `{` and `}`. -/
def PlainSym (X : Sym) : Prop := X = .nt 0 ∨ X = .nt 2 ∨ ∃ t, X = .tm (.sym t) ∧ t ≠ 1 ∧ t ≠ 2 ∧ t ≠ 3

theorem plain_of_derives {u v : List Sym} (h : Derives gStm.rules u v) (hv : ∀ X ∈ v, PlainSym X) : ∀ X ∈ u, PlainSym X := by
  induction h with
  | refl => exact hv
  | step x y r _ hr ih =>
    refine ih fun X hX => ?_
    rcases List.mem_append.1 hX with hX | hX
    · exact hv X (by simp [hX])
    · rcases List.mem_cons.1 hX with rfl | hX
      · have hrhs : ∀ X ∈ r.rhs, PlainSym X := fun X hX => hv X (by simp [hX])
        simp only [gStm, List.mem_cons, List.not_mem_nil, or_false] at hr
        rcases hr with rfl | rfl | rfl | rfl | rfl | rfl | rfl
        · exact .inl rfl
        · exact .inl rfl
        · exfalso; simpa [PlainSym] using hrhs (.tm (.sym 1)) (by simp)
        · exfalso; simpa [PlainSym] using hrhs (.tm (.sym 3)) (by simp)
        · exfalso; simpa [PlainSym] using hrhs (.tm (.sym 1)) (by simp)
        · exact .inr (.inl rfl)
        · exact .inr (.inl rfl)
      · exact hv X (by simp [hX])

theorem sum_of_derives {v : List Sym} (h : Derives gStm.rules [.nt 2] v) :
    ∃ n, v = .nt 2 :: (sumTail n).map (fun t => .tm (.sym t)) ∨ v = (0 :: sumTail n).map (fun t => .tm (.sym t)) := by
  generalize hu : [Sym.nt 2] = u at h
  induction h with
  | refl => exact ⟨0, .inl hu.symm⟩
  | step x y r _ hr ih =>
    obtain ⟨n, h | h⟩ := ih
    · have hx : x = [] := by
        cases x with
        | nil => rfl
        | cons X x =>
          exfalso
          have := congrArg List.tail h
          simp only [List.cons_append, List.tail_cons] at this
          have h2 : Sym.nt r.lhs ∈ (sumTail n).map fun t => Sym.tm (.sym t) := by rw [← this]; simp
          simp at h2
      subst hx
      simp only [List.nil_append, List.cons.injEq, Sym.nt.injEq] at h
      obtain ⟨h1, rfl⟩ := h
      simp only [gStm, List.mem_cons, List.not_mem_nil, or_false] at hr
      rcases hr with rfl | rfl | rfl | rfl | rfl | rfl | rfl <;> try (exfalso; simp at h1; done)
      · refine ⟨n + 1, .inl ?_⟩
        have : ∀ n, (4 :: 0 :: sumTail n) = sumTail n ++ [4, 0] := by
          intro n
          induction n with
          | zero => rfl
          | succ n ih => rw [sumTail, ← ih]; simp [← ih]
        rw [sumTail, ← this]
        simp
      · exact ⟨n, .inr (by simp)⟩
    · exfalso
      have h2 : Sym.nt r.lhs ∈ (0 :: sumTail n).map fun t => Sym.tm (.sym t) := by rw [← h]; simp
      simp at h2

theorem gStm_not_cyclic : ¬ gStm.Cyclic := by
  have key : ∀ u v, Derives gStm.rules u v → u = [.nt 0] → v = [] ∨ v = [.nt 0] ∨ ∃ X ∈ v, X ≠ .nt 0 := by
    intro u v h hu
    induction h with
    | refl => exact .inr (.inl hu)
    | step x y r _ hr ih =>
      have hr' : r = ⟨0, []⟩ ∨ ∃ X ∈ r.rhs, X ≠ .nt 0 := by
        simp only [gStm, List.mem_cons, List.not_mem_nil, or_false] at hr
        rcases hr with rfl | rfl | rfl | rfl | rfl | rfl | rfl <;> simp
      rcases hr' with rfl | ⟨X, h1, h2⟩
      · rcases ih with h | h | ⟨X, h1, h2⟩
        · simp at h
        · left
          cases x with
          | nil => simpa using h
          | cons X x => simp at h
        · refine .inr (.inr ⟨X, ?_, h2⟩)
          rcases List.mem_append.1 h1 with h | h
          · simp [h]
          · rcases List.mem_cons.1 h with h | h
            · exact absurd h h2
            · simp [h]
      · exact .inr (.inr ⟨X, by simp [h1], h2⟩)
  rintro ⟨x, r, y, hr, hd, h⟩
  have hr' : r = ⟨0, []⟩ ∨ ∃ X ∈ r.rhs, X ≠ .nt 0 := by
    simp only [gStm, List.mem_cons, List.not_mem_nil, or_false] at hr
    rcases hr with rfl | rfl | rfl | rfl | rfl | rfl | rfl <;> simp
  rcases hr' with rfl | ⟨X, h1, h2⟩
  · have hxy : x ++ y = [.nt 0] := by simpa [gStm] using h
    have hall : ∀ X ∈ x ++ .nt 0 :: y, X = .nt 0 := by
      intro X hX
      rcases List.mem_append.1 hX with hX | hX
      · have : X ∈ x ++ y := by simp [hX]
        rw [hxy] at this; simpa using this
      · rcases List.mem_cons.1 hX with rfl | hX
        · rfl
        · have : X ∈ x ++ y := by simp [hX]
          rw [hxy] at this; simpa using this
    rcases key _ _ hd rfl with h | h | ⟨X, h1, h2⟩
    · simp at h
    · have h1 := congrArg List.length h
      have h2 := congrArg List.length hxy
      simp at h1 h2
      omega
    · exact h2 (hall X h1)
  · have : X ∈ x ++ r.rhs ++ y := by simp [h1]
    rw [h] at this
    simp [gStm] at this
    exact h2 this

/-- The states in which a list of statements begins, with the state behind the list. -/
def listState (q : Nat) : Option Nat := if q = 0 then some 1 else if q = 4 then some 9 else if q = 14 then some 18 else none

theorem listState_cases {q0 q1 : Nat} (h : listState q0 = some q1) : (q0 = 0 ∧ q1 = 1) ∨ (q0 = 4 ∧ q1 = 9) ∨ (q0 = 14 ∧ q1 = 18) := by
  unfold listState at h
  split at h
  · cases h; simp [*]
  · split at h
    · cases h; simp [*]
    · split at h
      · cases h; simp [*]
      · cases h

theorem goes_plain {q q' : Nat} {X : Sym} (hX : PlainSym X) (h : pStm.tab.goes q X = some q') :
    ((q = 1 ∨ q = 9 ∨ q = 18) → q' = 6 ∨ ((q' = 3 ∨ q' = 13) ∧ X = .nt 2)) ∧ (q = 6 → False) ∧ (q = 11 → False) ∧ (q = 8 → q' = 11) ∧ ((q = 3 ∨ q = 13) → q' = 8) := by
  rcases hX with rfl | rfl | ⟨t, rfl, h1, h2, h3⟩
  · refine ⟨?_, ?_, ?_, ?_, ?_⟩
    · rintro (rfl | rfl | rfl) <;> cases h
    · rintro rfl; cases h
    · rintro rfl; cases h
    · rintro rfl; cases h
    · rintro (rfl | rfl) <;> cases h
  · refine ⟨?_, ?_, ?_, ?_, ?_⟩
    · rintro (rfl | rfl | rfl) <;> cases h <;> simp
    · rintro rfl; cases h
    · rintro rfl; cases h
    · rintro rfl; cases h
    · rintro (rfl | rfl) <;> cases h
  · have hs : ∃ a, pStm.tab.act q (.sym t) = some a ∧ a = .shift q' := by
      unfold Tables.goes at h
      simp only at h
      split at h
      · next a hq => cases h; exact ⟨_, hq, rfl⟩
      · cases h
    obtain ⟨a, hs, rfl⟩ := hs
    by_cases e0 : t = 0
    · subst e0
      refine ⟨?_, ?_, ?_, ?_, ?_⟩
      · rintro (rfl | rfl | rfl) <;> cases hs <;> simp
      · rintro rfl; cases hs
      · rintro rfl; cases hs
      · rintro rfl; cases hs; rfl
      · rintro (rfl | rfl) <;> cases hs
    · by_cases e4 : t = 4
      · subst e4
        refine ⟨?_, ?_, ?_, ?_, ?_⟩
        · rintro (rfl | rfl | rfl) <;> cases hs
        · rintro rfl; cases hs
        · rintro rfl; cases hs
        · rintro rfl; cases hs
        · rintro (rfl | rfl) <;> cases hs <;> rfl
      · exfalso
        have : ∀ row ∈ pStm.tab.action, get (Term.sym t) row.2 = none := by
          intro row hrow
          simp only [pStm, List.mem_cons, List.not_mem_nil, or_false] at hrow
          rcases hrow with rfl | rfl | rfl | rfl | rfl | rfl | rfl | rfl | rfl | rfl | rfl | rfl | rfl | rfl | rfl | rfl | rfl | rfl | rfl | rfl | rfl <;>
            simp [get, Ne.symm h1, Ne.symm h2, Ne.symm h3, Ne.symm e0, Ne.symm e4]
        unfold Tables.act at hs
        cases hg : get q pStm.tab.action with
        | none => rw [hg] at hs; cases hs
        | some row =>
          rw [hg] at hs
          have := this (q, row) (get_mem hg)
          simp only [Option.bind_some] at hs
          rw [this] at hs
          cases hs

/-- From behind a list, symbols without `;`, `{` and `}` lead to one of these states. -/
theorem plain_walk {q0 q1 : Nat} (h0 : listState q0 = some q1) {γ : List Sym} (hγ : pStm.tab.walk γ = some q1) {ζ : List Sym} (hζ : ζ ≠ []) (hp : ∀ X ∈ ζ, PlainSym X)
    (hv : gStm.ViablePrefix (γ ++ ζ)) :
    (∃ q, pStm.tab.walk (γ ++ ζ) = some q ∧ (q = 6 ∨ q = 8 ∨ q = 11)) ∨ (∃ q, pStm.tab.walk (γ ++ ζ) = some q ∧ (q = 3 ∨ q = 13) ∧ ζ = [.nt 2]) := by
  have hq1 : q1 = 1 ∨ q1 = 9 ∨ q1 = 18 := by
    rcases listState_cases h0 with ⟨_, h⟩ | ⟨_, h⟩ | ⟨_, h⟩ <;> simp [h]
  induction ζ using snoc_induction with
  | hnil => exact absurd rfl hζ
  | hsnoc ζ X ih =>
    rw [← List.append_assoc] at hv ⊢
    have hX : PlainSym X := hp X (by simp)
    have step : ∀ q, pStm.tab.walk (γ ++ ζ) = some q → ∃ q', pStm.tab.goes q X = some q' ∧ pStm.tab.walk (γ ++ ζ ++ [X]) = some q' := fun q h => by
      obtain ⟨q', h'⟩ := (stm_look.1 _ q X h).1 hv
      exact ⟨q', h', stm_walk h h'⟩
    by_cases hn : ζ = []
    · subst hn
      obtain ⟨q', h1, h2⟩ := step q1 (by rw [List.append_nil]; exact hγ)
      rcases (goes_plain hX h1).1 hq1 with rfl | ⟨h3, rfl⟩
      · exact .inl ⟨_, h2, .inl rfl⟩
      · exact .inr ⟨_, h2, h3, rfl⟩
    · rcases ih hn (fun Y hY => hp Y (by simp [hY])) (viable_prefix hv) with ⟨q, h1, h2⟩ | ⟨q, h1, h2, rfl⟩
      · obtain ⟨q', h3, h4⟩ := step q h1
        have := goes_plain hX h3
        rcases h2 with h2 | h2 | h2
        · exact (this.2.1 h2).elim
        · exact .inl ⟨q', h4, .inr (.inr (this.2.2.2.1 h2))⟩
        · exact (this.2.2.1 h2).elim
      · obtain ⟨q', h3, h4⟩ := step q h1
        exact .inl ⟨q', h4, .inr (.inl ((goes_plain hX h3).2.2.2.2 h2))⟩

variable {input : List Nat}

theorem at_drop {j k t : Nat} {l R : List Nat} (h : input.drop j = l ++ t :: R) (hk : k = j + l.length) : input[k]? = some t ∧ tokenAt id input k = .sym t ∧ input.drop (k + 1) = R := by
  subst hk
  have h1 : input[j + l.length]? = some t := by rw [← List.getElem?_drop, h]; simp
  refine ⟨h1, by rw [tokenAt, h1]; rfl, ?_⟩
  rw [Nat.add_assoc, ← List.drop_drop, h]
  simp

theorem stm_leaf {γ us : List Sym} {j j' k t : Nat} {fs : List (Tree Nat)} (h1 : input[j]? = some t) (hj : j' = j + 1)
    (h2 : Damaged gStm id input (γ ++ [.tm (.sym t)]) us j' fs k) : Damaged gStm id input γ (.tm (.sym t) :: us) j (.leaf j t :: fs) k := by
  subst hj
  exact Damaged.leaf (idx := id) γ j t us fs k h1 h2

theorem stm_node {γ : List Sym} {j r k q : Nat} {rule : PRule} {cs : List (Tree Nat)} (h1 : gStm.rules[r]? = some rule) (h2 : pStm.tab.walk (γ ++ rule.rhs) = some q)
    (h3 : pStm.tab.act q (tokenAt id input k) = some (.reduce r)) (h4 : Damaged gStm id input γ rule.rhs j cs k) :
    Damaged gStm id input γ [.nt rule.lhs] j [.node r cs] k :=
  .node γ j r rule cs k [] [] k h1 h4 (stm_look.2 _ _ _ _ h2 h3) (.nil _ _)

theorem Damaged.extend {g : Gram} {γ us : List Sym} {n j k k' : Nat} {f : Tree Nat} {fs : List (Tree Nat)} (h : Damaged g id input γ [.nt n] j [f] k)
    (h' : Damaged g id input (γ ++ [.nt n]) us k fs k') : Damaged g id input γ (.nt n :: us) j (f :: fs) k' := by
  cases h with
  | node _ _ r rule cs k1 _ _ _ a1 a2 a3 a4 =>
    cases a4
    exact .node _ _ r rule cs _ _ _ _ a1 a2 a3 h'

/-- An expression. -/
theorem sum_damaged {q0 q1 : Nat} (h0 : listState q0 = some q1) {γ : List Sym} (hγ : pStm.tab.walk γ = some q1) (n : Nat) : ∀ {j t : Nat} {R : List Nat},
    input.drop j = 0 :: sumTail n ++ t :: R → (t = 1 ∨ t = 4) → Damaged gStm id input γ [.nt 2] j [sumTree j n] (j + 2 * n + 1) := by
  have hw : pStm.tab.walk (γ ++ [.tm (.sym 0)]) = some 6 := by
    refine stm_walk hγ ?_
    rcases listState_cases h0 with ⟨rfl, rfl⟩ | ⟨rfl, rfl⟩ | ⟨rfl, rfl⟩ <;> rfl
  have hw2 : pStm.tab.walk (γ ++ [.nt 2, .tm (.sym 4), .tm (.sym 0)]) = some 11 := by
    rw [show γ ++ [Sym.nt 2, .tm (.sym 4), .tm (.sym 0)] = γ ++ [.nt 2] ++ [.tm (.sym 4)] ++ [.tm (.sym 0)] by simp]
    have h1 : ∃ q, pStm.tab.walk (γ ++ [.nt 2]) = some q ∧ (q = 3 ∨ q = 13) := by
      rcases listState_cases h0 with ⟨rfl, rfl⟩ | ⟨rfl, rfl⟩ | ⟨rfl, rfl⟩
      · exact ⟨3, stm_walk hγ rfl, .inl rfl⟩
      · exact ⟨13, stm_walk hγ rfl, .inr rfl⟩
      · exact ⟨13, stm_walk hγ rfl, .inr rfl⟩
    obtain ⟨q, h1, rfl | rfl⟩ := h1
    · exact stm_walk (q := 8) (stm_walk h1 rfl) rfl
    · exact stm_walk (q := 8) (stm_walk h1 rfl) rfl
  induction n with
  | zero =>
    intro j t R h ht
    obtain ⟨h1, _, h2⟩ := at_drop (l := []) (k := j) (t := 0) (R := t :: R) h rfl
    obtain ⟨_, h3, _⟩ := at_drop (l := []) (k := j + 1) h2 rfl
    refine stm_node (rule := ⟨2, [.tm (.sym 0)]⟩) rfl hw ?_ (stm_leaf h1 rfl (.nil _ _))
    rw [Nat.mul_zero, Nat.add_zero, h3]
    rcases ht with rfl | rfl <;> rfl
  | succ n ih =>
    intro j t R h ht
    have hd : input.drop j = (0 :: sumTail n) ++ 4 :: 0 :: t :: R := by rw [h]; simp [sumTail]
    obtain ⟨h1, _, h2⟩ := at_drop (k := j + 2 * n + 1) hd (by simp [sumTail_length]; omega)
    obtain ⟨h3, _, h4⟩ := at_drop (l := []) (k := j + 2 * n + 2) h2 (by simp)
    obtain ⟨_, h5, _⟩ := at_drop (l := []) (k := j + 2 * n + 3) h4 (by simp)
    have := ih hd (.inr rfl)
    refine stm_node (r := 5) (rule := ⟨2, [.nt 2, .tm (.sym 4), .tm (.sym 0)]⟩) rfl hw2 ?_ ?_
    · rw [show j + 2 * (n + 1) + 1 = j + 2 * n + 3 by omega, h5]
      rcases ht with rfl | rfl <;> rfl
    · refine this.extend (stm_leaf h1 rfl (stm_leaf h3 rfl ?_))
      rw [show j + 2 * (n + 1) + 1 = j + 2 * n + 1 + 1 + 1 by omega]
      exact .nil _ _

/-- A damaged statement. -/
theorem stm_slip {q0 q1 : Nat} (h0 : listState q0 = some q1) {γ : List Sym} (hγ : pStm.tab.walk (γ ++ [.nt 0]) = some q1) {j : Nat} {w R : List Nat}
    (h : input.drop j = 0 :: w ++ 1 :: R) (hw : ∀ t ∈ w, t ≠ 1 ∧ t ≠ 2 ∧ t ≠ 3) (hs : ∀ n, w ≠ sumTail n) :
    gStm.Slip id input (γ ++ [.nt 0]) j (j + w.length + 1) := by
  have hst : ∀ k, j < k → k ≤ j + w.length + 1 → stretch id input j k = ((0 :: w).take (k - j)).map fun t => .tm (.sym t) := by
    intro k h1 h2
    rw [stretch, h, List.take_append_of_le_length (by simp; omega)]
    rfl
  have hplain : ∀ k ζ, j < k → k ≤ j + w.length + 1 → Derives gStm.rules ζ (stretch id input j k) → ζ ≠ [] ∧ ∀ X ∈ ζ, PlainSym X := by
    intro k ζ h1 h2 hd
    rw [hst k h1 h2] at hd
    refine ⟨?_, plain_of_derives hd ?_⟩
    · rintro rfl
      have : ∀ u v, Derives gStm.rules u v → u = [] → v = [] := by
        intro u v h
        induction h with
        | refl => exact id
        | step x y r _ _ ih => intro e; have := ih e; simp at this
      have := congrArg List.length (this _ _ hd rfl)
      simp at this
      omega
    · intro X hX
      obtain ⟨t, ht, rfl⟩ := List.mem_map.1 hX
      rcases List.mem_cons.1 (List.mem_of_mem_take ht) with rfl | ht
      · exact .inr (.inr ⟨0, rfl, by decide⟩)
      · exact .inr (.inr ⟨t, rfl, hw t ht⟩)
  obtain ⟨e1, e2, e3⟩ := at_drop (l := []) (k := j) (t := 0) (R := w ++ 1 :: R) h rfl
  obtain ⟨_, f2, _⟩ := at_drop (k := j + w.length + 1) (t := 1) h (by simp; omega)
  have herr : pStm.tab.walk (γ ++ [.nt 0] ++ [.tm .err]) = some 5 ∨ pStm.tab.walk (γ ++ [.nt 0] ++ [.tm .err]) = some 16 := by
    rcases listState_cases h0 with ⟨rfl, rfl⟩ | ⟨rfl, rfl⟩ | ⟨rfl, rfl⟩
    · exact .inl (stm_walk hγ rfl)
    · exact .inr (stm_walk hγ rfl)
    · exact .inr (stm_walk hγ rfl)
  refine ⟨by omega, ?_, ?_, ?_, ?_, ?_⟩
  · rw [e2]
    refine (stm_look.1 _ _ _ hγ).2 ⟨6, ?_⟩
    rcases listState_cases h0 with ⟨rfl, rfl⟩ | ⟨rfl, rfl⟩ | ⟨rfl, rfl⟩ <;> rfl
  · intro k ζ h1 h2 hd hv
    obtain ⟨p1, p2⟩ := hplain k ζ h1 h2 hd
    rcases plain_walk h0 hγ p1 p2 (viable_prefix hv) with ⟨q, h3, h4⟩ | ⟨q, h3, h4, _⟩
    · obtain ⟨q', h5⟩ := (stm_look.1 _ _ _ h3).1 hv
      rcases h4 with rfl | rfl | rfl <;> cases h5
    · obtain ⟨q', h5⟩ := (stm_look.1 _ _ _ h3).1 hv
      rcases h4 with rfl | rfl <;> cases h5
  · intro k ζ h1 h2 hd rule hrule α β hγ' hrhs
    obtain ⟨p1, p2⟩ := hplain k ζ h1 h2 hd
    rcases List.eq_nil_or_concat α with rfl | ⟨α, X, rfl⟩
    · rfl
    · exfalso
      rw [List.concat_eq_append] at hγ' hrhs
      rw [← List.append_assoc] at hγ'
      obtain ⟨_, hX⟩ := List.append_inj' hγ' rfl
      cases hX
      obtain ⟨Z, ζ, rfl⟩ : ∃ Z ζ', ζ = Z :: ζ' := by
        cases ζ with
        | nil => exact absurd rfl p1
        | cons Z ζ => exact ⟨_, _, rfl⟩
      have hZ : PlainSym Z := p2 Z (by simp)
      simp only [gStm, List.mem_cons, List.not_mem_nil, or_false] at hrule
      have hsplit : ∀ l : List Sym, l = α ++ [.nt 0] ++ Z :: ζ → ∃ i, l[i]? = some (.nt 0) ∧ l[i + 1]? = some Z := by
        rintro l rfl
        exact ⟨α.length, by simp, by simp⟩
      obtain ⟨i, i1, i2⟩ := hsplit _ hrhs
      rcases hrule with rfl | rfl | rfl | rfl | rfl | rfl | rfl
      · simp at i1
      · match i, i1, i2 with
        | 0, _, i2 => cases i2; simp [PlainSym] at hZ
        | 1, i1, _ => cases i1
        | i + 2, i1, _ => simp at i1
      · match i, i1 with
        | 0, i1 => cases i1
        | 1, i1 => cases i1
        | i + 2, i1 => simp at i1
      · match i, i1, i2 with
        | 0, i1, _ => cases i1
        | 1, _, i2 => cases i2; simp [PlainSym] at hZ
        | 2, i1, _ => cases i1
        | i + 3, i1, _ => simp at i1
      · match i, i1 with
        | 0, i1 => cases i1
        | 1, i1 => cases i1
        | i + 2, i1 => simp at i1
      · match i, i1 with
        | 0, i1 => cases i1
        | 1, i1 => cases i1
        | 2, i1 => cases i1
        | i + 3, i1 => simp at i1
      · match i, i1 with
        | 0, i1 => cases i1
        | i + 1, i1 => simp at i1
  · intro ζ hd hv
    rw [f2] at hv
    obtain ⟨p1, p2⟩ := hplain _ ζ (by omega) (Nat.le_refl _) hd
    rcases plain_walk h0 hγ p1 p2 (viable_prefix hv) with ⟨q, h3, h4⟩ | ⟨q, h3, h4, rfl⟩
    · obtain ⟨q', h5⟩ := (stm_look.1 _ _ _ h3).1 hv
      rcases h4 with rfl | rfl | rfl <;> cases h5
    · rw [hst _ (by omega) (Nat.le_refl _), show j + w.length + 1 - j = (0 :: w).length by simp; omega, List.take_length] at hd
      obtain ⟨n, h5 | h5⟩ := sum_of_derives hd
      · cases h5
      · refine hs n ?_
        simp only [List.map_cons, List.cons.injEq, true_and] at h5
        have hinj : ∀ a b : List Nat, a.map (fun t => Sym.tm (.sym t)) = b.map (fun t => Sym.tm (.sym t)) → a = b := by
          intro a b hab
          exact (List.map_inj_right (by intro x y e; cases e; rfl)).1 hab
        exact hinj _ _ h5
  · intro i t h1 h2 h3 hv
    have ht : t ≠ 1 := by
      have : t ∈ w := by
        obtain ⟨d, rfl⟩ : ∃ d, i = j + 1 + d := ⟨i - (j + 1), by omega⟩
        rw [← List.getElem?_drop, e3, List.getElem?_append_left (by omega)] at h3
        exact List.mem_of_getElem? h3
      exact (hw t this).1
    rw [Gram.StopAt, show γ ++ [Sym.nt 0] ++ [.tm .err, .tm (.sym (id t))] = γ ++ [.nt 0] ++ [.tm .err] ++ [.tm (.sym t)] by simp] at hv
    rcases herr with h5 | h5
    · obtain ⟨q', h6⟩ := (stm_look.1 _ _ _ h5).1 hv
      have : pStm.tab.goes 5 (.tm (.sym t)) = none := by simp [Tables.goes, Tables.act, pStm, get, Ne.symm ht]
      rw [this] at h6; cases h6
    · obtain ⟨q', h6⟩ := (stm_look.1 _ _ _ h5).1 hv
      have : pStm.tab.goes 16 (.tm (.sym t)) = none := by simp [Tables.goes, Tables.act, pStm, get, Ne.symm ht]
      rw [this] at h6; cases h6

/-- What can follow a statement. -/
def StartsStm (q0 : Nat) (a : Term) : Prop := a = .sym 0 ∨ a = .sym 2 ∨ (q0 = 0 ∧ a = .eoi) ∨ (q0 ≠ 0 ∧ a = .sym 3)

/-- What follows a list of statements. -/
def EndsList (q0 : Nat) (R : List Nat) : Prop := (q0 = 0 ∧ R = []) ∨ (q0 ≠ 0 ∧ ∃ R', R = 3 :: R')

theorem code_starts {q0 : Nat} (c : Code) {j : Nat} {R : List Nat} (h : input.drop j = c.text ++ R) (hR : EndsList q0 R) : StartsStm q0 (tokenAt id input j) := by
  cases c with
  | done =>
    rcases hR with ⟨e, rfl⟩ | ⟨e, R', rfl⟩
    · refine .inr (.inr (.inl ⟨e, ?_⟩))
      have hl := congrArg List.length h
      simp [Code.text] at hl
      rw [tokenAt, List.getElem?_eq_none (Nat.sub_eq_zero_iff_le.1 hl)]
    · exact .inr (.inr (.inr ⟨e, (at_drop (l := []) h rfl).2.1⟩))
  | good n c => exact .inl (at_drop (l := []) (R := sumTail n ++ 1 :: c.text ++ R) (by rw [h]; simp [Code.text]) rfl).2.1
  | bad w c => exact .inl (at_drop (l := []) (R := w ++ 1 :: c.text ++ R) (by rw [h]; simp [Code.text]) rfl).2.1
  | block b c => exact .inr (.inl (at_drop (l := []) (R := b.text ++ 3 :: c.text ++ R) (by rw [h]; simp [Code.text]) rfl).2.1)

theorem code_damaged (c : Code) : ∀ {q0 q1 : Nat} {γ : List Sym} {j0 j : Nat} {acc : Tree Nat} {R : List Nat}, listState q0 = some q1 → pStm.tab.walk γ = some q0 →
    c.Fair → input.drop j = c.text ++ R → EndsList q0 R → Damaged gStm id input γ [.nt 0] j0 [acc] j →
    Damaged gStm id input γ [.nt 0] j0 [c.tree acc j] (j + c.text.length) := by
  have hstmt : ∀ {q0 q1 : Nat} {γ : List Sym} {j0 j j' : Nat} {acc st : Tree Nat}, listState q0 = some q1 → pStm.tab.walk γ = some q0 →
      StartsStm q0 (tokenAt id input j') → Damaged gStm id input γ [.nt 0] j0 [acc] j → Damaged gStm id input (γ ++ [.nt 0]) [.nt 1] j [st] j' →
      Damaged gStm id input γ [.nt 0] j0 [.node 1 [acc, st]] j' := by
    intro q0 q1 γ j0 j j' acc st h0 hγ hs hacc hst
    have : ∃ q, pStm.tab.walk (γ ++ [.nt 0, .nt 1]) = some q ∧ pStm.tab.act q (tokenAt id input j') = some (.reduce 1) := by
      rw [show γ ++ [Sym.nt 0, .nt 1] = γ ++ [.nt 0] ++ [.nt 1] by simp]
      rcases listState_cases h0 with ⟨rfl, rfl⟩ | ⟨rfl, rfl⟩ | ⟨rfl, rfl⟩
      · refine ⟨2, stm_walk (q := 1) (stm_walk hγ rfl) rfl, ?_⟩
        rcases hs with h | h | ⟨_, h⟩ | ⟨h, _⟩
        · rw [h]; rfl
        · rw [h]; rfl
        · rw [h]; rfl
        · exact absurd rfl h
      · refine ⟨12, stm_walk (q := 9) (stm_walk hγ rfl) rfl, ?_⟩
        rcases hs with h | h | ⟨h, _⟩ | ⟨_, h⟩
        · rw [h]; rfl
        · rw [h]; rfl
        · cases h
        · rw [h]; rfl
      · refine ⟨12, stm_walk (q := 18) (stm_walk hγ rfl) rfl, ?_⟩
        rcases hs with h | h | ⟨h, _⟩ | ⟨_, h⟩
        · rw [h]; rfl
        · rw [h]; rfl
        · cases h
        · rw [h]; rfl
    obtain ⟨q, h1, h2⟩ := this
    exact stm_node (rule := ⟨0, [.nt 0, .nt 1]⟩) rfl h1 h2 (hacc.extend hst)
  have hq1 : ∀ {q0 q1 : Nat} {γ : List Sym}, listState q0 = some q1 → pStm.tab.walk γ = some q0 → pStm.tab.walk (γ ++ [.nt 0]) = some q1 := by
    intro q0 q1 γ h0 hγ
    rcases listState_cases h0 with ⟨rfl, rfl⟩ | ⟨rfl, rfl⟩ | ⟨rfl, rfl⟩ <;> exact stm_walk hγ rfl
  induction c with
  | done =>
    intro q0 q1 γ j0 j acc R h0 hγ hf h hR hacc
    exact hacc
  | good n c ih =>
    intro q0 q1 γ j0 j acc R h0 hγ hf h hR hacc
    have hd : input.drop j = (0 :: sumTail n) ++ 1 :: (c.text ++ R) := by rw [h]; simp [Code.text]
    obtain ⟨h1, _, h2⟩ := at_drop (k := j + 2 * n + 1) hd (by simp [sumTail_length]; omega)
    have hs := code_starts c h2 hR
    have hst : Damaged gStm id input (γ ++ [.nt 0]) [.nt 1] j [.node 2 [sumTree j n, .leaf (j + 2 * n + 1) 1]] (j + 2 * n + 2) := by
      have : ∃ q, pStm.tab.walk (γ ++ [.nt 0] ++ [.nt 2, .tm (.sym 1)]) = some q ∧ pStm.tab.act q (tokenAt id input (j + 2 * n + 2)) = some (.reduce 2) := by
        rw [show γ ++ [Sym.nt 0] ++ [.nt 2, .tm (.sym 1)] = γ ++ [.nt 0] ++ [.nt 2] ++ [.tm (.sym 1)] by simp]
        rcases listState_cases h0 with ⟨rfl, rfl⟩ | ⟨rfl, rfl⟩ | ⟨rfl, rfl⟩
        · refine ⟨7, stm_walk (q := 3) (stm_walk (hq1 h0 hγ) rfl) rfl, ?_⟩
          rcases hs with h | h | ⟨_, h⟩ | ⟨h, _⟩
          · rw [h]; rfl
          · rw [h]; rfl
          · rw [h]; rfl
          · exact absurd rfl h
        · refine ⟨17, stm_walk (q := 13) (stm_walk (hq1 h0 hγ) rfl) rfl, ?_⟩
          rcases hs with h | h | ⟨h, _⟩ | ⟨_, h⟩
          · rw [h]; rfl
          · rw [h]; rfl
          · cases h
          · rw [h]; rfl
        · refine ⟨17, stm_walk (q := 13) (stm_walk (hq1 h0 hγ) rfl) rfl, ?_⟩
          rcases hs with h | h | ⟨h, _⟩ | ⟨_, h⟩
          · rw [h]; rfl
          · rw [h]; rfl
          · cases h
          · rw [h]; rfl
      obtain ⟨q, h3, h4⟩ := this
      exact stm_node (rule := ⟨1, [.nt 2, .tm (.sym 1)]⟩) rfl h3 h4 ((sum_damaged h0 (hq1 h0 hγ) n hd (.inl rfl)).extend (stm_leaf h1 rfl (.nil _ _)))
    have := ih h0 hγ hf h2 hR (hstmt h0 hγ hs hacc hst)
    rw [show j + (Code.good n c).text.length = j + 2 * n + 1 + 1 + c.text.length by simp [Code.text, sumTail_length]; omega]
    exact this
  | bad w c ih =>
    intro q0 q1 γ j0 j acc R h0 hγ hf h hR hacc
    have hd : input.drop j = (0 :: w) ++ 1 :: (c.text ++ R) := by rw [h]; simp [Code.text]
    obtain ⟨h1, _, h2⟩ := at_drop (k := j + w.length + 1) hd (by simp; omega)
    have hs := code_starts c h2 hR
    have hwne : w ≠ [] := hf.2.1 0
    have hslice : slipSlice input j (j + w.length + 1) = 0 :: w := by
      have : w.length ≠ 0 := fun e => hwne (List.length_eq_zero_iff.1 e)
      rw [slipSlice, if_neg (by omega), hd, show j + w.length + 1 - j = (0 :: w).length by simp; omega, List.take_left]
    have hst : Damaged gStm id input (γ ++ [.nt 0]) [.nt 1] j [.node 4 [.err j (0 :: w), .leaf (j + w.length + 1) 1]] (j + w.length + 2) := by
      have : ∃ q, pStm.tab.walk (γ ++ [.nt 0] ++ [.tm .err, .tm (.sym 1)]) = some q ∧ pStm.tab.act q (tokenAt id input (j + w.length + 2)) = some (.reduce 4) := by
        rw [show γ ++ [Sym.nt 0] ++ [.tm .err, .tm (.sym 1)] = γ ++ [.nt 0] ++ [.tm .err] ++ [.tm (.sym 1)] by simp]
        rcases listState_cases h0 with ⟨rfl, rfl⟩ | ⟨rfl, rfl⟩ | ⟨rfl, rfl⟩
        · refine ⟨10, stm_walk (q := 5) (stm_walk (hq1 h0 hγ) rfl) rfl, ?_⟩
          rcases hs with h | h | ⟨_, h⟩ | ⟨h, _⟩
          · rw [h]; rfl
          · rw [h]; rfl
          · rw [h]; rfl
          · exact absurd rfl h
        · refine ⟨19, stm_walk (q := 16) (stm_walk (hq1 h0 hγ) rfl) rfl, ?_⟩
          rcases hs with h | h | ⟨h, _⟩ | ⟨_, h⟩
          · rw [h]; rfl
          · rw [h]; rfl
          · cases h
          · rw [h]; rfl
        · refine ⟨19, stm_walk (q := 16) (stm_walk (hq1 h0 hγ) rfl) rfl, ?_⟩
          rcases hs with h | h | ⟨h, _⟩ | ⟨_, h⟩
          · rw [h]; rfl
          · rw [h]; rfl
          · cases h
          · rw [h]; rfl
      obtain ⟨q, h3, h4⟩ := this
      refine stm_node (rule := ⟨1, [.tm .err, .tm (.sym 1)]⟩) rfl h3 h4 ?_
      refine .err _ j (j + w.length + 1) _ _ _ _ ?_ (by simp [errs, Tree.errs]) (stm_leaf h1 rfl (.nil _ _))
      rw [← hslice]
      exact .slip (stm_slip h0 (hq1 h0 hγ) hd hf.1 hf.2.1)
    have := ih h0 hγ hf.2.2 h2 hR (hstmt h0 hγ hs hacc hst)
    rw [show j + (Code.bad w c).text.length = j + w.length + 1 + 1 + c.text.length by simp [Code.text]; omega]
    exact this
  | block b c ihb ih =>
    intro q0 q1 γ j0 j acc R h0 hγ hf h hR hacc
    have hd : input.drop j = [] ++ 2 :: (b.text ++ 3 :: (c.text ++ R)) := by rw [h]; simp [Code.text]
    obtain ⟨h1, _, h2⟩ := at_drop (k := j) hd rfl
    obtain ⟨h3, _, h4⟩ := at_drop (k := j + 1 + b.text.length) h2 rfl
    have hs := code_starts c h4 hR
    have hinner : ∃ q0' q1', listState q0' = some q1' ∧ pStm.tab.walk (γ ++ [.nt 0] ++ [.tm (.sym 2)]) = some q0' ∧ q0' ≠ 0 := by
      rcases listState_cases h0 with ⟨rfl, rfl⟩ | ⟨rfl, rfl⟩ | ⟨rfl, rfl⟩
      · exact ⟨4, 9, rfl, stm_walk (hq1 h0 hγ) rfl, by decide⟩
      · exact ⟨14, 18, rfl, stm_walk (hq1 h0 hγ) rfl, by decide⟩
      · exact ⟨14, 18, rfl, stm_walk (hq1 h0 hγ) rfl, by decide⟩
    obtain ⟨q0', q1', k1, k2, k3⟩ := hinner
    have hends : EndsList q0' (3 :: (c.text ++ R)) := .inr ⟨k3, _, rfl⟩
    have hnil : Damaged gStm id input (γ ++ [.nt 0] ++ [.tm (.sym 2)]) [.nt 0] (j + 1) [.node 0 []] (j + 1) := by
      refine stm_node (rule := ⟨0, []⟩) (q := q0') rfl (by rw [List.append_nil]; exact k2) ?_ (.nil _ _)
      have hs' := code_starts b h2 hends
      rcases listState_cases k1 with ⟨rfl, rfl⟩ | ⟨rfl, rfl⟩ | ⟨rfl, rfl⟩
      · exact absurd rfl k3
      · rcases hs' with h | h | ⟨h, _⟩ | ⟨_, h⟩
        · rw [h]; rfl
        · rw [h]; rfl
        · cases h
        · rw [h]; rfl
      · rcases hs' with h | h | ⟨h, _⟩ | ⟨_, h⟩
        · rw [h]; rfl
        · rw [h]; rfl
        · cases h
        · rw [h]; rfl
    have hbody := ihb k1 k2 hf.1 h2 hends hnil
    have hst : Damaged gStm id input (γ ++ [.nt 0]) [.nt 1] j [.node 3 [.leaf j 2, b.tree (.node 0 []) (j + 1), .leaf (j + 1 + b.text.length) 3]] (j + 1 + b.text.length + 1) := by
      have : ∃ q, pStm.tab.walk (γ ++ [.nt 0] ++ [.tm (.sym 2), .nt 0, .tm (.sym 3)]) = some q ∧
          pStm.tab.act q (tokenAt id input (j + 1 + b.text.length + 1)) = some (.reduce 3) := by
        rw [show γ ++ [Sym.nt 0] ++ [.tm (.sym 2), .nt 0, .tm (.sym 3)] = γ ++ [.nt 0] ++ [.tm (.sym 2)] ++ [.nt 0] ++ [.tm (.sym 3)] by simp]
        rcases listState_cases h0 with ⟨rfl, rfl⟩ | ⟨rfl, rfl⟩ | ⟨rfl, rfl⟩
        · refine ⟨15, stm_walk (q := 9) (stm_walk (q := 4) (stm_walk (hq1 h0 hγ) rfl) rfl) rfl, ?_⟩
          rcases hs with h | h | ⟨_, h⟩ | ⟨h, _⟩
          · rw [h]; rfl
          · rw [h]; rfl
          · rw [h]; rfl
          · exact absurd rfl h
        · refine ⟨20, stm_walk (q := 18) (stm_walk (q := 14) (stm_walk (hq1 h0 hγ) rfl) rfl) rfl, ?_⟩
          rcases hs with h | h | ⟨h, _⟩ | ⟨_, h⟩
          · rw [h]; rfl
          · rw [h]; rfl
          · cases h
          · rw [h]; rfl
        · refine ⟨20, stm_walk (q := 18) (stm_walk (q := 14) (stm_walk (hq1 h0 hγ) rfl) rfl) rfl, ?_⟩
          rcases hs with h | h | ⟨h, _⟩ | ⟨_, h⟩
          · rw [h]; rfl
          · rw [h]; rfl
          · cases h
          · rw [h]; rfl
      obtain ⟨q, h5, h6⟩ := this
      exact stm_node (rule := ⟨1, [.tm (.sym 2), .nt 0, .tm (.sym 3)]⟩) rfl h5 h6 (stm_leaf h1 rfl (hbody.extend (stm_leaf h3 rfl (.nil _ _))))
    have := ih h0 hγ hf.2 h4 hR (hstmt h0 hγ hs hacc hst)
    rw [show j + (Code.block b c).text.length = j + 1 + b.text.length + 1 + c.text.length by simp [Code.text]; omega]
    rw [Code.tree, show j + b.text.length + 2 = j + 1 + b.text.length + 1 by omega]
    exact this

variable {N E : Type}

/-- C91 for statements and nested blocks: whatever stands in place of some statements, at whatever depth, if it begins with `a`, is not an expression and has no
`;`, `{` or `}` in it, `parse` returns the value of the program with exactly these statements as `error ;`. -/
theorem c91_blocks (o : Seeds) (ho : o.Fair) (rules : List (Rule N Nat E)) (hr : gram rules 0 = gStm) (hc : Unfailing rules) (p : Parser N Nat E)
    (hp : MakesParser o rules 0 p []) (code : Code) (hf : code.Fair) :
    ∃ lg v c, Evals rules [code.tree (.node 0 []) 0] lg (.ok [.nt v]) ∧ ParsesTo id p code.text (.ok v) c ∧ lg.Sublist c.log.reverse := by
  refine c91_unfailing o ho rules 0 (by rw [hr]; decide) (by rw [hr]; exact gStm_fruitful) (by rw [hr]; exact gStm_not_cyclic)
    (by rw [hr]; exact Gram.errorsStop_spec (by decide)) hc p hp id _ _ ?_
  rw [hr]
  have hd : code.text.drop 0 = code.text ++ [] := by simp
  have hs := code_starts (q0 := 0) code hd (.inl ⟨rfl, rfl⟩)
  have := code_damaged code (q0 := 0) (q1 := 1) (γ := []) (j0 := 0) (j := 0) (acc := .node 0 []) rfl rfl hf hd (.inl ⟨rfl, rfl⟩)
    (stm_node (rule := ⟨0, []⟩) (q := 0) rfl rfl (by
      rcases hs with h | h | ⟨_, h⟩ | ⟨h, _⟩
      · rw [h]; rfl
      · rw [h]; rfl
      · rw [h]; rfl
      · exact absurd rfl h) (.nil _ _))
  rw [Nat.zero_add] at this
  exact this

/-! ## Examples -/

/-- `{ a a ; a + a ; } a + ; a ;` -/
def codeOne : Code := .block (.bad [0] (.good 1 .done)) (.bad [4] (.good 0 .done))

theorem codeOne_fair : codeOne.Fair := by
  have h : ∀ t n, [t] ≠ sumTail n := by
    intro t n e
    have := congrArg List.length e
    rw [sumTail_length] at this
    simp at this
    omega
  exact ⟨⟨by decide, h 0, trivial⟩, by decide, h 4, trivial⟩

theorem pStm_unfailing : Unfailing (plainRules gStm) := by
  intro rule hrule args
  simp only [plainRules, List.mem_map] at hrule
  obtain ⟨r, _, rfl⟩ := hrule
  exact ⟨_, rfl⟩

-- the two damaged statements are the only errors, one of them inside of the block; `E → a` is called in vain for the second one
example : codeOne.text = [2, 0, 0, 1, 0, 4, 0, 1, 3, 0, 4, 1, 0, 1] ∧ errs [codeOne.tree (.node 0 []) 0] = [(1, [0, 0]), (9, [0, 4])] ∧
    (∃ lg v c, Evals (plainRules gStm) [codeOne.tree (.node 0 []) 0] lg (.ok [.nt v]) ∧ ParsesTo id pStm codeOne.text (.ok v) c ∧ lg.Sublist c.log.reverse) ∧
    ∃ c, ParsesTo id pStm codeOne.text (.ok 2) c ∧ c.log.reverse.map Prod.fst = [0, 0, 4, 1, 6, 5, 2, 1, 3, 1, 6, 4, 1, 6, 2, 1] :=
  ⟨rfl, rfl, c91_blocks _ idSeeds_fair (plainRules gStm) rfl pStm_unfailing pStm pStm_makes codeOne codeOne_fair, _, ⟨90, rfl⟩, by decide⟩

/-- C91: what follows a statement must be able to follow it: in `a ; + ; a ;` the correct first statement is lost together with the wrong second one. -/
theorem c91_needs_follow : ∃ c, ParsesTo id pStm [0, 1, 4, 1, 0, 1] (.ok 2) c ∧
    c.log.reverse.filterMap (fun q => match q.2 with | [.err l, _] => some l | _ => none) = [[0, 1, 4]] := ⟨_, ⟨60, rfl⟩, by decide⟩

/-- `S → ( a a ) | ( error )` -/
def gPar : Gram := ⟨[⟨0, [.tm (.sym 0), .tm (.sym 2), .tm (.sym 2), .tm (.sym 1)]⟩, ⟨0, [.tm (.sym 0), .tm .err, .tm (.sym 1)]⟩], 0⟩

def pPar : Parser Nat Nat Nat :=
  ⟨plainRules gPar ++ [⟨1, [.nt 0], fun _ => .error 0⟩],
   { action := [(0, [(.sym 0, .shift 1)]), (1, [(.sym 2, .shift 3), (.err, .shift 4)]), (2, [(.eoi, .accept)]), (3, [(.sym 2, .shift 5)]),
       (4, [(.sym 1, .shift 6)]), (5, [(.sym 1, .shift 7)]), (6, [(.eoi, .reduce 1)]), (7, [(.eoi, .reduce 0)])]
     goto := [(0, [(0, 2)])]
     errors := [(1, [1])]
     start := 0 }⟩

theorem pPar_makes : MakesParser idSeeds (plainRules gPar) 0 pPar [] := ⟨⟨40, by decide +kernel, by simp⟩, _, rfl⟩

theorem gPar_fruitful : gPar.Fruitful := c71_ranked _ (fun _ => 0) (by decide)

theorem par_look (γ : List Sym) (q : Nat) (X : Sym) (h : pPar.tab.walk γ = some q) : gPar.ViablePrefix (γ ++ [X]) ↔ ∃ q', pPar.tab.goes q X = some q' := by
  obtain ⟨fresh, hx⟩ := ctx_of_makes idSeeds_fair (by decide) pPar_makes
  rw [hx.canon.goes γ q X h]
  exact (Gram.expects_iff (g := gPar) gPar_fruitful hx.unused).symm

/-- `( x x )`: the first `x` is wrong -/
theorem par_stumble : gPar.Stumble id [0, 3, 3, 1] [.tm (.sym 0)] 1 3 := by
  refine ⟨by decide, ?_, ?_, ?_⟩
  · intro h
    obtain ⟨q, hq⟩ := (par_look [.tm (.sym 0)] 1 _ rfl).1 h
    cases hq
  · rintro r ⟨rule, x, v, h1, _, h2, _⟩
    have hl := congrArg List.length h2
    have hm := List.mem_of_getElem? h1
    simp only [gPar, List.mem_cons, List.not_mem_nil, or_false] at hm
    rcases hm with rfl | rfl <;> simp at hl
  · intro i t h1 h2 h3 h
    have ht : t = 3 := by
      have : i = 1 ∨ i = 2 := by omega
      rcases this with rfl | rfl <;> simpa using h3.symm
    subst ht
    obtain ⟨q, hq⟩ := (par_look [.tm (.sym 0), .tm .err] 4 _ rfl).1 h
    cases hq

example : Damaged gPar id [0, 3, 3, 1] [] [.nt 0] 0 [.node 1 [.leaf 0 0, .err 1 [3, 3], .leaf 3 1]] 4 := by
  refine .node _ _ 1 ⟨0, [.tm (.sym 0), .tm .err, .tm (.sym 1)]⟩ _ 4 _ _ _ rfl ?_ ?_ (.nil _ _)
  · exact Damaged.leaf (idx := id) _ 0 0 _ _ _ rfl (.err _ _ 3 _ _ _ _ (.stumble par_stumble) rfl (Damaged.leaf (idx := id) _ 3 1 _ _ _ rfl (.nil _ _)))
  · exact ⟨_, [], [], rfl, ⟨_, 0, rfl, .zero⟩, rfl, rfl⟩

-- the error slices of `( x x )`, of `( )` and of `( a )`, where nothing or only one token stands in the wrong place: the `)` is in the slice, and is read too
example : (∃ c, ParsesTo id pPar [0, 3, 3, 1] (.ok 3) c ∧ c.log.reverse = [(1, [.tok 0, .err [3, 3], .tok 1])]) ∧
    (∃ c, ParsesTo id pPar [0, 1] (.ok 3) c ∧ c.log.reverse = [(1, [.tok 0, .err [1], .tok 1])]) ∧
    (∃ c, ParsesTo id pPar [0, 2, 1] (.ok 3) c ∧ c.log.reverse = [(1, [.tok 0, .err [2, 1], .tok 1])]) :=
  ⟨⟨_, ⟨40, rfl⟩, rfl⟩, ⟨_, ⟨40, rfl⟩, rfl⟩, ⟨_, ⟨40, rfl⟩, rfl⟩⟩

end Verif.Par
