import Verif.Par.RmGram
import Verif.Par.Family
import Verif.Par.PartProof

/-!
# The moves of a bottom-up parser, without states

A grammar is LR(1) exactly if the next terminal decides the next move: two successful sequences of moves on different inputs do
not part while the next terminal is the same.  Rules have labels here, so that the rules need not be numbered.
-/

namespace Verif.Par

/-- A move: read a terminal, or reduce by a rule. -/
inductive Move (ι : Type) where
  | read (a : Term)
  | fold (l : ι)

/-- `Works L S γ P`: with the symbols `γ` on the stack the moves `P` lead to the symbol `S`. -/
inductive Works {ι : Type} (L : ι → PRule → Prop) (S : Nat) : List Sym → List (Move ι) → Prop
  | done : Works L S [.nt S] []
  | read (γ a P) : Works L S (γ ++ [.tm a]) P → Works L S γ (.read a :: P)
  | fold (γ l r P) : L l r → Works L S (γ ++ [.nt r.lhs]) P → Works L S (γ ++ r.rhs) (.fold l :: P)

variable {ι : Type}

/-- The terminals read. -/
def inputOf : List (Move ι) → List Term
  | [] => []
  | .read a :: P => a :: inputOf P
  | .fold _ :: P => inputOf P

@[simp] theorem inputOf_append (P Q : List (Move ι)) : inputOf (P ++ Q) = inputOf P ++ inputOf Q := by
  induction P with
  | nil => rfl
  | cons x P ih => cases x <;> simp [inputOf, ih]

/-- The next terminal decides the next move. -/
def Decided (L : ι → PRule → Prop) (S : Nat) : Prop :=
  ∀ D Q₁ Q₂, Works L S [] (D ++ Q₁) → Works L S [] (D ++ Q₂) → (inputOf Q₁).head? = (inputOf Q₂).head? → Q₁.head? = Q₂.head?

/-- The rules of a list with their numbers as labels. -/
def Numbered (R : List PRule) (j : Nat) (r : PRule) : Prop := R[j]? = some r

variable {L : ι → PRule → Prop} {S : Nat}

/-- Terminals on the stack can be read instead. -/
theorem Works.unread {w : List Term} : ∀ {γ : List Sym} {P : List (Move ι)}, Works L S (γ ++ tms w) P →
    Works L S γ (w.map Move.read ++ P) := by
  induction w with
  | nil => intro γ P h; simpa using h
  | cons a w ih =>
    intro γ P h
    have h' : Works L S (γ ++ [.tm a] ++ tms w) P := by simpa using h
    exact .read _ _ _ (ih h')

@[simp] theorem inputOf_reads (w : List Term) : inputOf (w.map (Move.read (ι := ι))) = w := by
  induction w with
  | nil => rfl
  | cons a w ih => simp [inputOf, ih]

/-- What derives terminals can be read and reduced. -/
theorem works_gen {R : List PRule} {l v : List Sym} (h : Gen R l v) : ∀ w, v = tms w →
    ∃ D : List (Move Nat), ∀ γ Q, Works (Numbered R) S (γ ++ l) Q → Works (Numbered R) S γ (D ++ Q) := by
  induction h with
  | nil => intro w _; exact ⟨[], fun γ Q h => by simpa using h⟩
  | keep X l v _ ih =>
    intro w hw
    cases w with
    | nil => simp at hw
    | cons a w =>
      simp at hw
      obtain ⟨rfl, hw⟩ := hw
      obtain ⟨D, hD⟩ := ih w hw
      refine ⟨.read a :: D, fun γ Q h => .read _ _ _ (hD _ _ ?_)⟩
      simpa using h
  | expand r l u v hr _ _ ih1 ih2 =>
    intro w hw
    have hu : ∃ w1 w2, u = tms w1 ∧ v = tms w2 := by
      obtain ⟨w1, w2, _, h1, h2⟩ := List.map_eq_append_iff.1 hw.symm
      exact ⟨w1, w2, h1.symm, h2.symm⟩
    obtain ⟨w1, w2, h1, h2⟩ := hu
    obtain ⟨D1, hD1⟩ := ih1 w1 h1
    obtain ⟨D2, hD2⟩ := ih2 w2 h2
    obtain ⟨j, hj⟩ := List.getElem?_of_mem hr
    refine ⟨D1 ++ .fold j :: D2, fun γ Q h => ?_⟩
    have h3 : Works (Numbered R) S (γ ++ [.nt r.lhs] ++ l) Q := by simpa using h
    have := hD1 γ _ (.fold γ j r _ hj (hD2 _ _ h3))
    simpa using this

/-- Moves backwards are a rightmost derivation. -/
theorem Works.rm {R : List PRule} {γ : List Sym} {P : List (Move Nat)} (h : Works (Numbered R) S γ P) :
    ∃ n, Rm R [.nt S] n (γ ++ tms (inputOf P)) := by
  induction h with
  | done => exact ⟨0, by simpa [inputOf] using Rm.zero⟩
  | read γ a P _ ih =>
    obtain ⟨n, h⟩ := ih
    exact ⟨n, by simpa [inputOf] using h⟩
  | fold γ l r P hl _ ih =>
    obtain ⟨n, h⟩ := ih
    refine ⟨n + 1, ?_⟩
    have h' : Rm R [.nt S] n (γ ++ .nt r.lhs :: tms (inputOf P)) := by simpa using h
    exact .step n γ r _ h' (List.mem_of_getElem? hl)

theorem tms_inj : ∀ {v w : List Term}, tms v = tms w → v = w
  | [], [], _ => rfl
  | [], _ :: _, h => by simp at h
  | _ :: _, [], h => by simp at h
  | a :: v, b :: w, h => by
    simp only [tms, List.map_cons, List.cons.injEq, Sym.tm.injEq] at h
    rw [h.1, tms_inj h.2]

theorem last_nt {x y : List Sym} {A : Nat} {v w : List Term} {rest : List Sym} (h : x ++ rest ++ tms w = y ++ .nt A :: tms v) :
    (∃ ρ z, rest = ρ ++ .nt A :: tms z ∧ x ++ ρ = y ∧ v = z ++ w) ∨ ∃ z₁ z₂, rest = tms z₂ ∧ x = y ++ .nt A :: tms z₁ ∧ v = z₁ ++ z₂ ++ w := by
  rw [List.append_eq_append_iff] at h
  rcases h with ⟨as, h1, h2⟩ | ⟨cs, h1, h2⟩
  · exfalso
    have : Sym.nt A ∈ tms w := by rw [h2]; simp
    simp at this
  · cases cs with
    | nil =>
      simp at h2
      have : Sym.nt A ∈ tms w := by rw [← h2]; simp
      simp at this
    | cons c cs =>
      simp at h2
      obtain ⟨rfl, h2⟩ := h2
      obtain ⟨z, w', h3, h4, h5⟩ := List.map_eq_append_iff.1 h2
      have hw : w' = w := by
        have : tms w' = tms w := h5
        exact tms_inj this
      subst hw
      rw [← h4] at h1
      rw [List.append_eq_append_iff] at h1
      rcases h1 with ⟨as, h6, h7⟩ | ⟨cs, h6, h7⟩
      · left; exact ⟨as, z, by simpa using h7, h6.symm, h3⟩
      · cases cs with
        | nil => left; exact ⟨[], z, by simpa using h7.symm, by simpa using h6, h3⟩
        | cons c cs =>
          right
          simp at h7
          obtain ⟨rfl, h7⟩ := h7
          obtain ⟨z1, z2, h8, h9, h10⟩ := List.map_eq_append_iff.1 h7
          exact ⟨z1, z2, h10.symm, by rw [h6, ← h9], by rw [h3, h8]⟩

/-- A rightmost derivation backwards is a sequence of moves. -/
theorem Rm.works {R : List PRule} {n : Nat} {ζ : List Sym} (h : Rm R [.nt S] n ζ) : ∀ x A v, ζ = x ++ .nt A :: tms v →
    ∃ P, Works (Numbered R) S (x ++ [.nt A]) P ∧ inputOf P = v := by
  induction h with
  | zero =>
    intro x A v h
    cases x with
    | nil =>
      simp at h
      obtain ⟨rfl, rfl⟩ := h
      exact ⟨[], .done, rfl⟩
    | cons _ x => simp at h
  | step n x r w _ hr ih =>
    intro y A v h
    obtain ⟨P, hP, hi⟩ := ih x r.lhs w rfl
    obtain ⟨j, hj⟩ := List.getElem?_of_mem hr
    rcases last_nt h with ⟨ρ, z, h1, h2, h3⟩ | ⟨z₁, z₂, h1, h2, h3⟩
    · have h4 := Works.fold (L := Numbered R) x j r P hj hP
      refine ⟨z.map .read ++ .fold j :: P, Works.unread (γ := y ++ [.nt A]) (w := z) ?_, by simp [inputOf, hi, h3]⟩
      rw [h1] at h4
      simpa [← h2] using h4
    · have h4 := Works.fold (L := Numbered R) x j r P hj hP
      refine ⟨(z₁ ++ z₂).map .read ++ .fold j :: P, Works.unread (γ := y ++ [.nt A]) (w := z₁ ++ z₂) ?_, by simp [inputOf, hi, h3]⟩
      rw [h1, h2] at h4
      simpa using h4

variable {g : Gram}

theorem works_handle {γ : List Sym} {j : Nat} {P : List (Move Nat)} (h : Works (Numbered g.rules) g.start γ (.fold j :: P)) :
    g.HandleAt j γ ((inputOf P).head?.getD .eoi) := by
  cases h with
  | fold γ _ r _ hl h =>
    obtain ⟨n, h⟩ := h.rm
    exact ⟨r, γ, inputOf P, hl, ⟨r, n, hl, by simpa using h⟩, rfl, rfl⟩

theorem handle_works {γ : List Sym} {j : Nat} {a : Term} (h : g.HandleAt j γ a) :
    ∃ P, Works (Numbered g.rules) g.start γ (.fold j :: P) ∧ (inputOf P).head?.getD .eoi = a := by
  obtain ⟨r, x, v, h1, ⟨r', n, h2, h3⟩, rfl, rfl⟩ := h
  rw [h1] at h2
  cases h2
  obtain ⟨P, hP, hi⟩ := h3.works x r.lhs v rfl
  exact ⟨P, .fold _ _ _ _ h1 hP, by rw [hi]⟩

/-- The stack is a viable prefix. -/
theorem Works.viable {γ : List Sym} {P : List (Move Nat)} (h : Works (Numbered g.rules) g.start γ P) : g.ViablePrefix γ := by
  induction h with
  | done => exact .inl (List.prefix_refl _)
  | read γ a P _ ih =>
    have hp : γ <+: γ ++ [Sym.tm a] := List.prefix_append _ _
    rcases ih with h | ⟨r, rule, x, v, h1, h2, h3⟩
    · exact .inl (hp.trans h)
    · exact .inr ⟨r, rule, x, v, h1, h2, hp.trans h3⟩
  | fold γ l r P hl h ih =>
    obtain ⟨n, h⟩ := h.rm
    exact .inr ⟨l, r, γ, inputOf P, hl, ⟨r, n, hl, by simpa using h⟩, List.prefix_refl _⟩

/-- In grammars in which everything derives terminals, the stack can be read. -/
theorem viable_reads (hfr : g.Fruitful) {γ : List Sym} {P : List (Move Nat)} (h : Works (Numbered g.rules) g.start γ P) :
    ∃ D : List (Move Nat), ∀ Q, Works (Numbered g.rules) g.start γ Q → Works (Numbered g.rules) g.start [] (D ++ Q) := by
  obtain ⟨n, h⟩ := h.rm
  have hg := h.gen
  have key : ∀ l x y, Gen g.rules [.nt g.start] (x ++ l ++ y) → ∃ w, Gen g.rules l (tms w) := by
    intro l
    induction l with
    | nil => intro x y _; exact ⟨[], .nil⟩
    | cons X l ih =>
      intro x y hx
      obtain ⟨w, hw⟩ := ih (x ++ [X]) y (by simpa using hx)
      cases X with
      | tm a => exact ⟨a :: w, .keep _ _ _ hw⟩
      | nt m =>
        obtain ⟨w', hw'⟩ := hfr x m (l ++ y) (gen_iff.1 (by simpa using hx))
        exact ⟨w' ++ w, by simpa using (gen_iff.2 hw').append (l' := l) hw⟩
  obtain ⟨w, hw⟩ := key γ [] _ (by simpa using hg)
  obtain ⟨D, hD⟩ := works_gen (S := g.start) hw w rfl
  exact ⟨D, fun Q hQ => hD [] Q (by simpa using hQ)⟩

/-- What is expected can be read, in some sequence of moves. -/
theorem viable_works (hfr : g.Fruitful) {γ : List Sym} (h : g.ViablePrefix γ) : ∃ P, Works (Numbered g.rules) g.start γ P := by
  have key : ∀ l x y, Gen g.rules [.nt g.start] (x ++ l ++ y) → ∃ w, Gen g.rules l (tms w) := by
    intro l
    induction l with
    | nil => intro x y _; exact ⟨[], .nil⟩
    | cons X l ih =>
      intro x y hx
      obtain ⟨w, hw⟩ := ih (x ++ [X]) y (by simpa using hx)
      cases X with
      | tm a => exact ⟨a :: w, .keep _ _ _ hw⟩
      | nt m =>
        obtain ⟨w', hw'⟩ := hfr x m (l ++ y) (gen_iff.1 (by simpa using hx))
        exact ⟨w' ++ w, by simpa using (gen_iff.2 hw').append (l' := l) hw⟩
  rcases h with h | ⟨r, rule, x, v, h1, ⟨rule', n, h2, h3⟩, h4⟩
  · obtain ⟨δ, hδ⟩ := h
    obtain ⟨w, hw⟩ := key δ γ [] (by simpa [hδ] using Gen.refl _)
    obtain ⟨D, hD⟩ := works_gen (S := g.start) hw w rfl
    exact ⟨_, hD γ [] (by rw [hδ]; exact .done)⟩
  · rw [h1] at h2
    cases h2
    obtain ⟨P, hP, _⟩ := h3.works x rule.lhs v rfl
    obtain ⟨δ, hδ⟩ := h4
    have hg : Gen g.rules [.nt g.start] (γ ++ δ ++ tms v) := by
      rw [hδ]
      exact (Rm.step _ _ _ _ h3 (List.mem_of_getElem? h1)).gen
    obtain ⟨w, hw⟩ := key δ γ (tms v) hg
    obtain ⟨D, hD⟩ := works_gen (S := g.start) hw w rfl
    exact ⟨_, hD γ _ (by rw [hδ]; exact .fold _ _ _ _ h1 hP)⟩

theorem Works.no_eoi (hok : g.Ok) {γ : List Sym} {P : List (Move Nat)} (h : Works (Numbered g.rules) g.start γ P) :
    Term.eoi ∉ inputOf P := by
  obtain ⟨n, h⟩ := h.rm
  have := hok.no_eoi h.gen (by simp)
  simp at this
  exact this.2

/-- Moves lead from a stack to a stack. -/
theorem works_split {L : ι → PRule → Prop} {D Q₁ Q₂ : List (Move ι)} : ∀ {γ : List Sym}, (∀ l r r', L l r → L l r' → r = r') →
    Works L S γ (D ++ Q₁) → Works L S γ (D ++ Q₂) → ∃ δ, Works L S δ Q₁ ∧ Works L S δ Q₂ := by
  induction D with
  | nil => intro γ _ h1 h2; exact ⟨γ, h1, h2⟩
  | cons x D ih =>
    intro γ hL h1 h2
    cases x with
    | read a =>
      cases h1 with
      | read _ _ _ h1 => cases h2 with
        | read _ _ _ h2 => exact ih hL h1 h2
    | fold l =>
      generalize hγ : γ = γ' at h1
      cases h1 with
      | fold x _ r _ hl h1 =>
        generalize hγ' : γ = γ' at h2
        cases h2 with
        | fold x' _ r' _ hl' h2 =>
          obtain rfl := hL l r r' hl hl'
          have : x = x' := List.append_cancel_right (hγ.symm.trans hγ')
          subst this
          exact ih hL h1 h2

theorem numbered_unique {R : List PRule} : ∀ l r r', Numbered R l r → Numbered R l r' → r = r' := by
  intro l r r' h h'
  unfold Numbered at h h'
  rw [h] at h'
  cases h'
  rfl

/-- In LR(1) grammars the next terminal decides the next move. -/
theorem Gram.LR1.decided (hfr : g.Fruitful) (hl : g.LR1) : Decided (Numbered g.rules) g.start := by
  intro D Q₁ Q₂ h1 h2 hi
  obtain ⟨γ, h1, h2⟩ := works_split numbered_unique h1 h2
  have hf := freshSym_unused g
  have hc : ∀ {j P}, Works (Numbered g.rules) g.start γ (.fold j :: P) →
      j ≠ g.rules.length ∧ Complete g.full g.rules.length γ j ((inputOf P).head?.getD .eoi) := by
    intro j P h
    have h := works_handle h
    exact ⟨g.handleAt_ne h, (g.complete_iff hfr hf (g.handleAt_ne h)).2 h⟩
  have he : ∀ {a P}, Works (Numbered g.rules) g.start γ (.read a :: P) → Expects g.full g.rules.length γ (.tm a) := by
    intro a P h
    cases h with
    | read _ _ _ h => exact (g.expects_iff hfr hf).2 h.viable
  have ha : Works (Numbered g.rules) g.start γ [] → Accepts g.full g.rules.length γ := by
    intro h
    cases h
    exact ⟨.eoi, _, Gram.aug_start, (Gram.valid_start hf).2 ⟨rfl, .inr ⟨rfl, rfl⟩⟩⟩
  have main : ∀ {j P Q}, Works (Numbered g.rules) g.start γ (.fold j :: P) → Works (Numbered g.rules) g.start γ Q →
      (inputOf P).head? = (inputOf Q).head? → Q.head? = some (.fold j) := by
    intro j P Q hP hQ hi
    obtain ⟨hj, hcj⟩ := hc hP
    cases Q with
    | nil =>
      exfalso
      refine hl ⟨γ, _, j, hj, hcj, .inr (.inl ⟨?_, ha hQ⟩)⟩
      rw [hi]; rfl
    | cons x Q =>
      cases x with
      | read a =>
        exfalso
        refine hl ⟨γ, _, j, hj, hcj, .inl ?_⟩
        rw [hi]
        exact he hQ
      | fold j' =>
        obtain ⟨hj', hcj'⟩ := hc hQ
        by_cases heq : j' = j
        · rw [heq]; rfl
        · exfalso
          refine hl ⟨γ, _, j, hj, hcj, .inr (.inr ⟨j', hj', heq, ?_⟩)⟩
          rw [hi]
          exact hcj'
  cases Q₁ with
  | nil =>
    cases Q₂ with
    | nil => rfl
    | cons x Q₂ => cases x with
      | read a => simp [inputOf] at hi
      | fold j => exact main h2 h1 hi.symm
  | cons x Q₁ => cases x with
    | fold j => exact (main h1 h2 hi).symm
    | read a => cases Q₂ with
      | nil => simp [inputOf] at hi
      | cons x Q₂ => cases x with
        | read b => simp [inputOf] at hi; rw [hi]; rfl
        | fold j => exact main h2 h1 hi.symm

/-- And conversely. -/
theorem Decided.lr1 (hok : g.Ok) (hfr : g.Fruitful) (hd : Decided (Numbered g.rules) g.start) : g.LR1 := by
  rintro ⟨γ, a, j, hj, hc, hx⟩
  have hf := freshSym_unused g
  obtain ⟨P, hP, hPa⟩ := handle_works ((g.complete_iff hfr hf hj).1 hc)
  obtain ⟨D, hD⟩ := viable_reads hfr hP
  have main : ∀ {Q}, Works (Numbered g.rules) g.start γ Q → (inputOf Q).head?.getD .eoi = a → Q.head? = some (.fold j) := by
    intro Q hQ hQa
    refine (hd D _ _ (hD _ hP) (hD _ hQ) ?_).symm
    have e1 := hP.no_eoi hok
    have e2 := hQ.no_eoi hok
    rw [← hQa] at hPa
    show (inputOf P).head? = _
    simp only [inputOf] at e1
    revert hPa e1 e2
    generalize inputOf P = u
    generalize inputOf Q = v
    intro hPa e1 e2
    cases u <;> cases v <;> simp_all
  rcases hx with h | ⟨rfl, b, h⟩ | ⟨j', hj', hne, h⟩
  · obtain ⟨Q, hQ⟩ := viable_works hfr ((g.expects_iff hfr hf).1 h)
    have := main (.read _ _ _ hQ) rfl
    simp at this
  · obtain ⟨rule, h1, h2⟩ := h
    have hr : rule = ⟨freshSym g.rules, [.nt g.start]⟩ := by
      have := Gram.aug_start (g := g) (fresh := freshSym g.rules)
      unfold Gram.full at h1
      rw [h1] at this
      cases this; rfl
    subst hr
    obtain ⟨_, ⟨h, _⟩ | ⟨_, rfl⟩⟩ := (Gram.valid_start hf).1 h2
    · simp at h
    · have := main .done rfl
      simp at this
  · obtain ⟨Q, hQ, hQa⟩ := handle_works ((g.complete_iff hfr hf hj').1 h)
    have := main hQ hQa
    simp at this
    exact hne this

end Verif.Par
