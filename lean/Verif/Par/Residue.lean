import Verif.Par.Moves
import Verif.Par.EmbedAug

/-!
# What can follow a beginning of an input

If a grammar has no warnings, then up to finitely many cases any beginning of a sentence can be continued such that it is known
what may follow from there.  The symbols on the stack are continued until the stack is as low as it will ever be before the end of
the input; all that counts from then on is which of the symbols that come on top can be reduced to the start symbol at the end.
-/

namespace Verif.Par

/-- The moves `P` lead from the stack `γ` to the stack `γ'`. -/
inductive Goes {ι : Type} (L : ι → PRule → Prop) : List Sym → List (Move ι) → List Sym → Prop
  | nil (γ) : Goes L γ [] γ
  | read (γ a P γ') : Goes L (γ ++ [.tm a]) P γ' → Goes L γ (.read a :: P) γ'
  | fold (γ l r P γ') : L l r → Goes L (γ ++ [.nt r.lhs]) P γ' → Goes L (γ ++ r.rhs) (.fold l :: P) γ'

section
variable {ι : Type} {L : ι → PRule → Prop} {S : Nat}

theorem Works.goes {D Q : List (Move ι)} : ∀ {γ : List Sym}, Works L S γ (D ++ Q) → ∃ γ', Goes L γ D γ' ∧ Works L S γ' Q := by
  induction D with
  | nil => intro γ h; exact ⟨γ, .nil _, h⟩
  | cons x D ih =>
    intro γ h
    cases x with
    | read a =>
      cases h with
      | read _ _ _ h =>
        obtain ⟨γ', h1, h2⟩ := ih h
        exact ⟨γ', .read _ _ _ _ h1, h2⟩
    | fold l =>
      generalize hγ : γ = γ' at h
      cases h with
      | fold x _ r _ hl h =>
        obtain ⟨γ', h1, h2⟩ := ih h
        exact ⟨γ', .fold _ _ _ _ _ hl h1, h2⟩

theorem Goes.works {γ γ' : List Sym} {D Q : List (Move ι)} (h : Goes L γ D γ') (hq : Works L S γ' Q) : Works L S γ (D ++ Q) := by
  induction h with
  | nil => exact hq
  | read γ a P γ' _ ih => exact .read _ _ _ (ih hq)
  | fold γ l r P γ' hl _ ih => exact .fold _ _ _ _ hl (ih hq)

theorem Goes.append {γ γ' γ'' : List Sym} {D D' : List (Move ι)} (h : Goes L γ D γ') (h' : Goes L γ' D' γ'') : Goes L γ (D ++ D') γ'' := by
  induction h with
  | nil => exact h'
  | read γ a P γ' _ ih => exact .read _ _ _ _ (ih h')
  | fold γ l r P γ' hl _ ih => exact .fold _ _ _ _ _ hl (ih h')

theorem Goes.unique (hL : ∀ l r r', L l r → L l r' → r = r') {γ γ₁ : List Sym} {D : List (Move ι)} (h : Goes L γ D γ₁) :
    ∀ {γ₂}, Goes L γ D γ₂ → γ₁ = γ₂ := by
  induction h with
  | nil => intro γ₂ h; cases h; rfl
  | read γ a P γ' _ ih =>
    intro γ₂ h
    cases h with
    | read _ _ _ _ h => exact ih h
  | fold γ l r P γ' hl _ ih =>
    intro γ₂ h
    generalize hγ : γ ++ r.rhs = δ at h
    cases h with
    | fold x _ r' _ _ hl' h =>
      obtain rfl := hL l r r' hl hl'
      obtain rfl := List.append_cancel_right hγ
      exact ih h

theorem Goes.gen {R : List PRule} {γ γ' : List Sym} {D : List (Move Nat)} (h : Goes (Numbered R) γ D γ') :
    Gen R γ' (γ ++ tms (inputOf D)) := by
  induction h with
  | nil γ => simpa [inputOf] using Gen.refl γ
  | read γ a P γ' _ ih => simpa [inputOf] using ih
  | fold γ l r P γ' hl _ ih =>
    refine ih.trans ?_
    have := Gen.mid (R := R) (List.mem_of_getElem? hl) γ (tms (inputOf P))
    simpa [inputOf] using this

theorem cut_moves {P : List (Move ι)} : ∀ {u z : List Term}, inputOf P = u ++ z → ∃ D Q, P = D ++ Q ∧ inputOf D = u ∧ inputOf Q = z := by
  induction P with
  | nil =>
    intro u z h
    simp [inputOf] at h
    exact ⟨[], [], rfl, by simp [inputOf, h.1], by simp [inputOf, h.2]⟩
  | cons x P ih =>
    intro u z h
    cases x with
    | read a =>
      cases u with
      | nil => exact ⟨[], _, rfl, rfl, h⟩
      | cons b u =>
        simp [inputOf] at h
        obtain ⟨D, Q, h1, h2, h3⟩ := ih h.2
        exact ⟨.read a :: D, Q, by rw [h1]; rfl, by simp [inputOf, h2, h.1], h3⟩
    | fold l =>
      obtain ⟨D, Q, h1, h2, h3⟩ := ih (u := u) (z := z) (by simpa [inputOf] using h)
      exact ⟨.fold l :: D, Q, by rw [h1]; rfl, by simpa [inputOf] using h2, h3⟩

/-- The next terminal, if there is one, decides the next move. -/
def DecidedInside (L : ι → PRule → Prop) (S : Nat) : Prop :=
  ∀ D Q₁ Q₂ a, Works L S [] (D ++ Q₁) → Works L S [] (D ++ Q₂) → (inputOf Q₁).head? = some a → (inputOf Q₂).head? = some a →
    Q₁.head? = Q₂.head?

theorem same_moves (hd : DecidedInside L S) {Q : List (Move ι)} {a : Term} {y z : List Term} (hQ : inputOf Q = a :: y) {D : List (Move ι)} :
    ∀ {C P : List (Move ι)}, Works L S [] (C ++ (D ++ Q)) → Works L S [] (C ++ P) → inputOf P = inputOf D ++ a :: z → ∃ Q', P = D ++ Q' := by
  induction D with
  | nil => intro C P _ _ _; exact ⟨P, rfl⟩
  | cons x D ih =>
    intro C P h1 h2 hi
    have hh : ∃ b, (inputOf (x :: D ++ Q)).head? = some b ∧ (inputOf P).head? = some b := by
      rw [hi, inputOf_append, hQ]
      cases inputOf (x :: D) with
      | nil => exact ⟨a, rfl, rfl⟩
      | cons b _ => exact ⟨b, rfl, rfl⟩
    obtain ⟨b, hb1, hb2⟩ := hh
    have hhd := hd C _ _ b h1 h2 hb1 hb2
    cases P with
    | nil => simp at hhd
    | cons x' P =>
      simp at hhd
      subst hhd
      have hi' : inputOf P = inputOf D ++ a :: z := by
        cases x with
        | read c => simpa [inputOf] using hi
        | fold l => simpa [inputOf] using hi
      obtain ⟨Q', hQ'⟩ := ih (C := C ++ [x]) (P := P) (by simpa using h1) (by simpa using h2) hi'
      exact ⟨Q', by rw [hQ']; rfl⟩
end

/-! ## Finitely many pieces -/

/-- All sublists. -/
def subs : List α → List (List α)
  | [] => [[]]
  | a :: l => subs l ++ (subs l).map (a :: ·)

theorem filter_subs (p : α → Bool) (l : List α) : l.filter p ∈ subs l := by
  induction l with
  | nil => simp [subs]
  | cons a l ih =>
    unfold subs
    cases h : p a
    · simp [List.filter_cons, h, ih]
    · simp [List.filter_cons, h, ih]

/-- The ends of right-hand sides and of the start symbol. -/
def rhsEnds (R : List PRule) (S : Nat) : List (List Sym) :=
  ([.nt S] :: R.map PRule.rhs).flatMap fun l => (List.range (l.length + 1)).map fun k => l.drop k

theorem mem_rhsEnds {R : List PRule} {S : Nat} {δ l : List Sym} (hl : l = [.nt S] ∨ ∃ r ∈ R, l = r.rhs) (h : δ <:+ l) : δ ∈ rhsEnds R S := by
  rw [List.suffix_iff_eq_drop] at h
  unfold rhsEnds
  rw [List.mem_flatMap]
  refine ⟨l, ?_, ?_⟩
  · rcases hl with rfl | ⟨r, hr, rfl⟩
    · simp
    · exact .tail _ (List.mem_map_of_mem hr)
  · rw [List.mem_map]
    exact ⟨l.length - δ.length, by simp; omega, h.symm⟩

/-- The symbols in use. -/
def usedSyms (R : List PRule) (S : Nat) : List Sym := .nt S :: R.flatMap PRule.rhs

theorem Gen.used {R : List PRule} {S : Nat} {l w : List Sym} (h : Gen R l w) : (∀ X ∈ l, X ∈ usedSyms R S) → ∀ X ∈ w, X ∈ usedSyms R S := by
  induction h with
  | nil => exact id
  | keep X l w _ ih =>
    intro hl Y hY
    rcases List.mem_cons.1 hY with rfl | hY
    · exact hl _ (by simp)
    · exact ih (fun Z hZ => hl Z (by simp [hZ])) _ hY
  | expand r l u v hr _ _ ih1 ih2 =>
    intro hl Y hY
    rcases List.mem_append.1 hY with hY | hY
    · exact ih1 (fun Z hZ => .tail _ (List.mem_flatMap.2 ⟨r, hr, hZ⟩)) _ hY
    · exact ih2 (fun Z hZ => hl Z (by simp [hZ])) _ hY

/-- The languages in question. -/
def residues (R : List PRule) (S : Nat) : List (List Term → Prop) :=
  ([] :: (usedSyms R S).map fun X => [X]).flatMap fun ξ => (usedSyms R S).flatMap fun X => (subs (rhsEnds R S)).map fun F =>
    fun z => ∃ δ ∈ F, Gen R δ (ξ ++ X :: tms z)

theorem exists_least {p : Nat → Prop} : ∀ n, p n → ∃ m, p m ∧ ∀ k, p k → m ≤ k := by
  intro n
  induction n using Nat.strongRecOn with
  | _ n ih =>
    intro h
    by_cases hk : ∃ k, k < n ∧ p k
    · obtain ⟨k, h1, h2⟩ := hk
      exact ih k h1 h2
    · exact ⟨n, h, fun k hp => Nat.le_of_not_lt fun hlt => hk ⟨k, hlt, hp⟩⟩

section
variable {R : List PRule} {S : Nat}

/-- What derives terminals can be read and reduced. -/
theorem goes_gen {l v : List Sym} (h : Gen R l v) : ∀ w, v = tms w → ∃ D, inputOf D = w ∧ ∀ γ, Goes (Numbered R) γ D (γ ++ l) := by
  induction h with
  | nil =>
    intro w hw
    cases w with
    | nil => exact ⟨[], rfl, fun γ => by simpa using Goes.nil γ⟩
    | cons a w => simp at hw
  | keep X l v _ ih =>
    intro w hw
    cases w with
    | nil => simp at hw
    | cons a w =>
      simp at hw
      obtain ⟨rfl, hw⟩ := hw
      obtain ⟨D, hD, hgo⟩ := ih w hw
      refine ⟨.read a :: D, by simp [inputOf, hD], fun γ => .read _ _ _ _ ?_⟩
      have h := hgo (γ ++ [.tm a])
      rw [List.append_assoc] at h
      exact h
  | expand r l u v hr _ _ ih1 ih2 =>
    intro w hw
    obtain ⟨w1, w2, rfl, h1, h2⟩ := List.map_eq_append_iff.1 hw.symm
    obtain ⟨D1, hD1, hg1⟩ := ih1 w1 h1.symm
    obtain ⟨D2, hD2, hg2⟩ := ih2 w2 h2.symm
    obtain ⟨j, hj⟩ := List.getElem?_of_mem hr
    refine ⟨D1 ++ .fold j :: D2, by simp [inputOf, hD1, hD2], fun γ => (hg1 γ).append (.fold γ j r D2 _ hj ?_)⟩
    have h := hg2 (γ ++ [.nt r.lhs])
    rw [List.append_assoc] at h
    exact h

theorem works_of_gen {w : List Term} (h : Gen R [.nt S] (tms w)) : ∃ P, Works (Numbered R) S [] P ∧ inputOf P = w := by
  obtain ⟨D, hD, hgo⟩ := goes_gen h w rfl
  exact ⟨D, by simpa using (hgo []).works .done, hD⟩

/-- Below the base nothing is touched before the end of the input. -/
theorem keeps_base {D β ξ} {h : Nat} (hβ : β.length = h - 1)
    (hmin : ∀ M γ Q, Goes (Numbered R) [] (D ++ M) γ → Works (Numbered R) S γ Q → inputOf Q ≠ [] → h ≤ γ.length) {Q : List (Move Nat)} :
    ∀ M δ y, Goes (Numbered R) [] (D ++ M) (β ++ δ) → Works (Numbered R) S (β ++ δ) Q → Gen R δ (ξ ++ tms y) →
      ∃ δ' ∈ rhsEnds R S, Gen R δ' (ξ ++ tms (y ++ inputOf Q)) ∧ ∃ Q', Works (Numbered R) S (β ++ δ') Q' ∧ inputOf Q' = [] := by
  induction Q with
  | nil =>
    intro M δ y _ hw hg
    refine ⟨δ, mem_rhsEnds (l := [.nt S]) (.inl rfl) ?_, by simpa [inputOf] using hg, [], hw, rfl⟩
    generalize he : β ++ δ = ζ at hw
    cases hw
    exact ⟨β, he⟩
  | cons x Q ih =>
    intro M δ y hgo hw hg
    cases x with
    | read b =>
      generalize he : β ++ δ = ζ at hw hgo
      cases hw with
      | read _ _ _ hw =>
        subst he
        have h1 : Gen R (δ ++ [.tm b]) (ξ ++ tms (y ++ [b])) := by simpa using hg.append (Gen.refl [.tm b])
        obtain ⟨δ', k1, k2, k3⟩ := ih (M ++ [.read b]) (δ ++ [.tm b]) (y ++ [b])
          (by simpa using hgo.append (.read _ _ _ _ (.nil _))) (by simpa using hw) h1
        exact ⟨δ', k1, by simpa [inputOf] using k2, k3⟩
    | fold l =>
      have hw0 := hw
      generalize he : β ++ δ = ζ at hw hgo
      cases hw with
      | fold x _ r _ hl hw =>
        have hgo' := hgo.append (.fold x l r [] _ hl (.nil _))
        by_cases hlen : β.length ≤ x.length
        · obtain ⟨x', rfl⟩ : ∃ x', x = β ++ x' := by
            obtain ⟨t, ht⟩ := List.prefix_of_prefix_length_le (List.prefix_append β δ) (he ▸ List.prefix_append x r.rhs) hlen
            exact ⟨t, ht.symm⟩
          have hδ : δ = x' ++ r.rhs := by simpa using he
          have h1 : Gen R (x' ++ [.nt r.lhs]) (ξ ++ tms y) := by
            refine Gen.trans ?_ (hδ ▸ hg)
            simpa using Gen.mid (R := R) (List.mem_of_getElem? hl) x' []
          obtain ⟨δ', k1, k2, k3⟩ := ih (M ++ [.fold l]) (x' ++ [.nt r.lhs]) y (by simpa using hgo') (by simpa using hw) h1
          exact ⟨δ', k1, by simpa [inputOf] using k2, k3⟩
        · have hin : inputOf Q = [] := by
            by_cases hq : inputOf Q = []
            · exact hq
            · have := hmin (M ++ [.fold l]) _ Q (by simpa using hgo') hw hq
              simp at this
              omega
          refine ⟨δ, mem_rhsEnds (l := r.rhs) (.inr ⟨r, List.mem_of_getElem? hl, rfl⟩) ?_, ?_, _, hw0, by simpa [inputOf] using hin⟩
          · rw [List.append_eq_append_iff] at he
            rcases he with ⟨as, h1, _⟩ | ⟨cs, _, h2⟩
            · rw [h1] at hlen; simp at hlen
            · exact ⟨cs, h2.symm⟩
          · simpa [inputOf, hin] using hg

/-- The main step, for rules for which the next terminal decides the next move. -/
theorem residue_exists (hd : DecidedInside (Numbered R) S) (u z : List Term) (hz : z ≠ []) (hs : Gen R [.nt S] (tms (u ++ z))) :
    ∃ v z', Gen R [.nt S] (tms (u ++ v ++ z')) ∧ ∃ K ∈ residues R S, ∀ y, Gen R [.nt S] (tms (u ++ v ++ y)) ↔ K y := by
  classical
  obtain ⟨P, hP, hi⟩ := works_of_gen hs
  obtain ⟨D, Q, rfl, hD, hQ⟩ := cut_moves hi
  obtain ⟨γ1, hg1, hw1⟩ := hP.goes
  obtain ⟨h, ⟨M, γ, Q0, hgo, hw, hq, hlen⟩, hmin⟩ := exists_least
    (p := fun n => ∃ M γ Q, Goes (Numbered R) [] (D ++ M) γ ∧ Works (Numbered R) S γ Q ∧ inputOf Q ≠ [] ∧ γ.length = n)
    γ1.length ⟨[], γ1, Q, by simpa using hg1, hw1, by rw [hQ]; exact hz, rfl⟩
  obtain ⟨a, y0, hq0⟩ : ∃ a y0, inputOf Q0 = a :: y0 := by
    cases hc : inputOf Q0 with
    | nil => exact absurd hc hq
    | cons a y0 => exact ⟨a, y0, rfl⟩
  have hγ : γ = γ.take (h - 1) ++ γ.drop (h - 1) := (List.take_append_drop _ _).symm
  generalize hβ : γ.take (h - 1) = β at hγ
  generalize hξ : γ.drop (h - 1) = ξ at hγ
  have hβl : β.length = h - 1 := by rw [← hβ]; simp; omega
  have hξl : ξ.length ≤ 1 := by rw [← hξ]; simp; omega
  have hgen0 : Gen R [.nt S] (γ ++ tms (inputOf Q0)) := by obtain ⟨_, hn⟩ := hw.rm; exact hn.gen
  have hused := hgen0.used (S := S) (by simp [usedSyms])
  have hread : Gen R γ (tms (inputOf (D ++ M))) := by simpa using hgo.gen
  have hin : inputOf (D ++ M) = u ++ inputOf M := by rw [inputOf_append, hD]
  refine ⟨inputOf M ++ [a], y0, ?_, ?_⟩
  · have := hgen0.trans (hread.append (Gen.refl (tms (inputOf Q0))))
    rw [hin, hq0] at this
    simpa using this
  let F := (rhsEnds R S).filter fun δ => decide (∃ Q', Works (Numbered R) S (β ++ δ) Q' ∧ inputOf Q' = [])
  refine ⟨fun z => ∃ δ ∈ F, Gen R δ (ξ ++ .tm a :: tms z), ?_, fun y => ⟨fun hy => ?_, ?_⟩⟩
  · unfold residues
    rw [List.mem_flatMap]
    refine ⟨ξ, ?_, ?_⟩
    · match ξ, hξl, hγ with
      | [], _, _ => simp
      | [X], _, hγ =>
        refine .tail _ (List.mem_map.2 ⟨X, hused X ?_, rfl⟩)
        rw [hγ]; simp
      | _ :: _ :: _, h, _ => simp at h
    · rw [List.mem_flatMap]
      refine ⟨.tm a, hused _ (by simp [hq0]), List.mem_map.2 ⟨F, filter_subs _ _, rfl⟩⟩
  · obtain ⟨P', hP', hi'⟩ := works_of_gen hy
    obtain ⟨Q', rfl⟩ := same_moves hd hq0 (C := []) (D := D ++ M) (z := y) (hgo.works hw) hP' (by rw [hi', hin]; simp)
    have hP'' : Works (Numbered R) S [] ((D ++ M) ++ Q') := hP'
    obtain ⟨γ', hg', hw'⟩ := hP''.goes
    obtain rfl := hgo.unique numbered_unique hg'
    have hiQ : inputOf Q' = a :: y := by
      rw [inputOf_append, hin] at hi'
      simpa using hi'
    obtain ⟨δ', k1, k2, k3⟩ := keeps_base (ξ := ξ) hβl (fun M γ Q h1 h2 h3 => hmin _ ⟨M, γ, Q, h1, h2, h3, rfl⟩) M ξ []
      (hγ ▸ hgo) (hγ ▸ hw') (by simpa using Gen.refl ξ)
    refine ⟨δ', List.mem_filter.2 ⟨k1, by simpa using k3⟩, ?_⟩
    rw [hiQ] at k2
    simpa using k2
  · rintro ⟨δ, hδ, hgδ⟩
    obtain ⟨_, h2⟩ := List.mem_filter.1 hδ
    obtain ⟨Q', hwQ, hiQ⟩ := of_decide_eq_true h2
    have h3 : Gen R [.nt S] (β ++ δ) := by
      obtain ⟨_, hn⟩ := hwQ.rm
      have := hn.gen
      rw [hiQ] at this
      simpa using this
    have h4 := h3.trans ((Gen.refl β).append hgδ)
    have h5 : Gen R [.nt S] (γ ++ tms (a :: y)) := by rw [hγ]; simpa using h4
    have h6 := h5.trans (hread.append (Gen.refl (tms (a :: y))))
    rw [hin] at h6
    simpa using h6
end

/-! ## No warnings -/

theorem Gram.Fruitful.decided_inside {g : Gram} (hfr : g.Fruitful) (hc : ¬ Clash g.full g.rules.length) :
    DecidedInside (Numbered g.rules) g.start := by
  intro D Q₁ Q₂ a h1 h2 hi1 hi2
  obtain ⟨γ, h1, h2⟩ := works_split numbered_unique h1 h2
  have hf := freshSym_unused g
  have main : ∀ {j P Q}, Works (Numbered g.rules) g.start γ (.fold j :: P) → Works (Numbered g.rules) g.start γ Q →
      (inputOf P).head? = some a → (inputOf Q).head? = some a → Q.head? = some (.fold j) := by
    intro j P Q hP hQ hiP hiQ
    have k := works_handle hP
    have kn := g.handleAt_ne k
    have kc := (g.complete_iff hfr hf kn).2 k
    rw [hiP] at kc
    cases Q with
    | nil => simp [inputOf] at hiQ
    | cons x Q =>
      cases x with
      | read b =>
        exfalso
        simp [inputOf] at hiQ
        subst hiQ
        cases hQ with
        | read _ _ _ hQ => exact hc ⟨γ, _, j, kn, kc, .inl ((g.expects_iff hfr hf).2 hQ.viable)⟩
      | fold j' =>
        have k' := works_handle hQ
        have kn' := g.handleAt_ne k'
        have kc' := (g.complete_iff hfr hf kn').2 k'
        simp only [inputOf] at hiQ
        rw [hiQ] at kc'
        by_cases heq : j' = j
        · rw [heq]; rfl
        · exact absurd ⟨γ, _, j, kn, kc, .inr ⟨j', kn', heq, kc'⟩⟩ hc
  cases Q₁ with
  | nil => simp [inputOf] at hi1
  | cons x Q₁ =>
    cases x with
    | fold j => rw [main h1 h2 (by simpa [inputOf] using hi1) hi2]; rfl
    | read b =>
      simp [inputOf] at hi1
      subst hi1
      cases Q₂ with
      | nil => simp [inputOf] at hi2
      | cons x' Q₂ =>
        cases x' with
        | fold j =>
          have := main h2 h1 (by simpa [inputOf] using hi2) (by simp [inputOf])
          simp at this
        | read c =>
          simp [inputOf] at hi2
          subst hi2
          rfl

/-! ## Only the rules that take part in sentences -/

/-- A string of tokens. -/
def syms (w : List Nat) : List Term := w.map .sym

open Classical in
/-- The rules whose right-hand side derives tokens. -/
noncomputable def Gram.slim (g : Gram) : Gram := { g with rules := g.rules.filter fun r => decide (∃ w, Gen g.rules r.rhs (tms (syms w))) }

variable {g : Gram}

theorem Gram.mem_slim {r : PRule} : r ∈ g.slim.rules ↔ r ∈ g.rules ∧ ∃ w, Gen g.rules r.rhs (tms (syms w)) := by
  unfold Gram.slim
  simp [List.mem_filter]

theorem syms_split {u v : List Sym} {w : List Nat} (h : u ++ v = tms (syms w)) : ∃ w1 w2, w = w1 ++ w2 ∧ u = tms (syms w1) ∧ v = tms (syms w2) := by
  obtain ⟨a, b, h1, h2, h3⟩ := List.map_eq_append_iff.1 h.symm
  obtain ⟨w1, w2, rfl, rfl, rfl⟩ := List.map_eq_append_iff.1 h1
  exact ⟨w1, w2, rfl, h2.symm, h3.symm⟩

theorem Gram.gen_slim {l v : List Sym} (h : Gen g.rules l v) : ∀ w, v = tms (syms w) → Gen g.slim.rules l v := by
  induction h with
  | nil => intro _ _; exact .nil
  | keep X l v _ ih =>
    intro w hw
    cases w with
    | nil => simp [syms] at hw
    | cons a w =>
      simp [syms] at hw
      exact .keep _ _ _ (ih w (by simpa [syms] using hw.2))
  | expand r l u v hr h1 _ ih1 ih2 =>
    intro w hw
    obtain ⟨w1, w2, _, e1, e2⟩ := syms_split hw
    exact .expand _ _ _ _ (Gram.mem_slim.2 ⟨hr, w1, e1 ▸ h1⟩) (ih1 w1 e1) (ih2 w2 e2)

theorem Gram.slim_gen {l v : List Sym} (h : Gen g.slim.rules l v) : Gen g.rules l v := h.mono fun _ hr => (Gram.mem_slim.1 hr).1

theorem Gram.slim_tokens {l v : List Sym} (h : Gen g.slim.rules l v) : (∃ w, Gen g.rules l (tms (syms w))) → ∀ X ∈ v, ∃ w, Gen g.rules [X] (tms (syms w)) := by
  induction h with
  | nil => intro _ X hX; cases hX
  | keep X l v _ ih =>
    rintro ⟨w, hw⟩ Y hY
    obtain ⟨u, v', e, h1, h2⟩ := hw.split_cons
    obtain ⟨w1, w2, _, e1, e2⟩ := syms_split e.symm
    rcases List.mem_cons.1 hY with rfl | hY
    · exact ⟨w1, e1 ▸ h1⟩
    · exact ih ⟨w2, e2 ▸ h2⟩ _ hY
  | expand r l u v hr _ _ ih1 ih2 =>
    rintro ⟨w, hw⟩ Y hY
    obtain ⟨u', v', e, h1, h2⟩ := hw.split_cons
    obtain ⟨w1, w2, _, e1, e2⟩ := syms_split e.symm
    rcases List.mem_append.1 hY with hY | hY
    · exact ih1 (Gram.mem_slim.1 hr).2 _ hY
    · exact ih2 ⟨w2, e2 ▸ h2⟩ _ hY

theorem Gram.slim_fruitful (hs : ∃ w, Gen g.rules [.nt g.start] (tms (syms w))) : g.slim.Fruitful := by
  intro x n y h
  obtain ⟨w, hw⟩ := Gram.slim_tokens (gen_iff.2 h) hs (.nt n) (by simp)
  exact ⟨syms w, gen_iff.1 (Gram.gen_slim hw w rfl)⟩

/-- What is derived from the start symbol are tokens. -/
theorem Gram.slim_syms (hs : ∃ w, Gen g.rules [.nt g.start] (tms (syms w))) {t : List Term} (h : Gen g.slim.rules [.nt g.start] (tms t)) :
    ∃ w, t = syms w := by
  have h' := Gram.slim_tokens h hs
  clear h
  induction t with
  | nil => exact ⟨[], rfl⟩
  | cons a t ih =>
    obtain ⟨w, hw⟩ := ih fun X hX => h' X (by simp at hX ⊢; exact .inr hX)
    obtain ⟨w1, hw1⟩ := h' (.tm a) (by simp)
    obtain ⟨v, e, hv⟩ := hw1.terminal
    have := hv.nil_left
    subst this
    cases w1 with
    | nil => simp [syms] at e
    | cons b w1 =>
      simp [syms] at e
      exact ⟨b :: w, by rw [hw, ← e.1]; rfl⟩

theorem Gram.sentence_slim {w : List Nat} : g.Sentence w ↔ Gen g.slim.rules [.nt g.slim.start] (tms (syms w)) := by
  have e : (w.map fun t => Sym.tm (.sym t)) = tms (syms w) := by simp [tms, syms]
  unfold Gram.Sentence
  rw [e, ← gen_iff]
  exact ⟨fun h => Gram.gen_slim h w rfl, Gram.slim_gen⟩

end Verif.Par
