import Verif.Par.LL1Proof

/-!
# Grammars with fewer rules or another start symbol: proofs
-/

namespace Verif.Par

variable {g g' : Gram} {fresh fresh' : Nat}

/-- The rules of `g'` are rules of `g`, each at its own place. -/
def PartOf (g' g : Gram) (σ : Nat → Nat) : Prop :=
  (∀ i r, g'.rules[i]? = some r → g.rules[σ i]? = some r) ∧
  ∀ i i', i < g'.rules.length → i' < g'.rules.length → σ i = σ i' → i = i'

theorem partOf_sublist {l l' : List α} (h : l'.Sublist l) : ∃ σ : Nat → Nat, (∀ i r, l'[i]? = some r → l[σ i]? = some r) ∧
    ∀ i i', σ i = σ i' → i = i' := by
  induction h with
  | slnil => exact ⟨id, fun _ _ h => h, fun _ _ h => h⟩
  | cons a _ ih =>
    obtain ⟨σ, h1, h2⟩ := ih
    exact ⟨fun i => σ i + 1, fun i r h => by simpa using h1 i r h, fun i i' h => h2 i i' (by simpa using h)⟩
  | cons_cons a _ ih =>
    obtain ⟨σ, h1, h2⟩ := ih
    refine ⟨fun i => match i with | 0 => 0 | i + 1 => σ i + 1, ?_, ?_⟩
    · intro i r h
      cases i with
      | zero => simpa using h
      | succ i => simpa using h1 i r (by simpa using h)
    · intro i i' h
      cases i <;> cases i' <;> simp at h
      · rfl
      · rw [h2 _ _ h]

theorem PartOf.mem {σ : Nat → Nat} (h : PartOf g' g σ) : ∀ r ∈ g'.rules, r ∈ g.rules := by
  intro r hr
  obtain ⟨i, hi⟩ := List.getElem?_of_mem hr
  exact List.mem_of_getElem? (h.1 i r hi)

/-- The end marker is not derived. -/
theorem Gram.Ok.no_eoi (hok : g.Ok) {l w : List Sym} (h : Gen g.rules l w) (hl : Sym.tm .eoi ∉ l) : Sym.tm .eoi ∉ w := by
  induction h with
  | nil => exact hl
  | keep X l w _ ih =>
    intro hm
    rcases List.mem_cons.1 hm with rfl | hm
    · exact hl List.mem_cons_self
    · exact ih (fun h => hl (List.mem_cons_of_mem _ h)) hm
  | expand r l u v hr _ _ ih1 ih2 =>
    intro hm
    rcases List.mem_append.1 hm with hm | hm
    · exact ih1 (hok r hr) hm
    · exact ih2 (fun h => hl (List.mem_cons_of_mem _ h)) hm

/-- A rule for a symbol that does not occur is not used. -/
theorem Gen.unused_rule {R : List PRule} {r0 : PRule} (hf : ∀ r ∈ R, Sym.nt r0.lhs ∉ r.rhs) {l w : List Sym} (h : Gen (R ++ [r0]) l w)
    (hl : Sym.nt r0.lhs ∉ l) : Gen R l w := by
  induction h with
  | nil => exact .nil
  | keep X l w _ ih => exact .keep X _ _ (ih (fun h => hl (List.mem_cons_of_mem _ h)))
  | expand r l u v hr _ _ ih1 ih2 =>
    rcases List.mem_append.1 hr with hr' | hr'
    · exact .expand r _ _ _ hr' (ih1 (hf r hr')) (ih2 (fun h => hl (List.mem_cons_of_mem _ h)))
    · simp at hr'
      subst hr'
      simp at hl

/-- Somewhere the non-terminal is expected, with `b` behind it. -/
def Room (R : List PRule) (s : Nat) (n : Nat) (δ : List Sym) (b : Term) : Prop :=
  ∃ i r ρ, Valid R s δ i ∧ R[i.rule]? = some r ∧ r.rhs[i.pos]? = some (.nt n) ∧ Gen R (r.rhs.drop (i.pos + 1) ++ [.tm i.la]) (.tm b :: ρ)

/-- The end marker stands for what is behind the part. -/
def Term.behind (b : Term) : Term → Term
  | .eoi => b
  | t => t

theorem behind_ne {b t : Term} (h : t ≠ .eoi) : Term.behind b t = t := by
  cases t <;> simp_all [Term.behind]

section
variable {σ : Nat → Nat} (hp : PartOf g' g σ) (hok : g.Ok) (hf : ¬ g.Used fresh) (hf' : ¬ g'.Used fresh')
variable {δ : List Sym} {b : Term} (hroom : Room (g.aug fresh) g.rules.length g'.start δ b)
include hp hok hf' hroom

theorem part_valid {γ : List Sym} {i : Item} (h : Valid (g'.aug fresh') g'.rules.length γ i) (hi : i.rule ≠ g'.rules.length) :
    Valid (g.aug fresh) g.rules.length (δ ++ γ) ⟨σ i.rule, i.pos, Term.behind b i.la⟩ := by
  induction h with
  | start => exact absurd rfl hi
  | advance γ i r X hv hr hX ih =>
    have h1 := Gram.aug_get' hr hi
    have h2 := (Gram.aug_get (fresh := fresh) (hp.1 _ _ h1)).1
    have := Valid.advance _ _ r X (ih hi) h2 hX
    simpa using this
  | expand γ i r B j r' c ρ hv hr hX hj hB hd ih =>
    simp only at hi
    have hj' := Gram.aug_get' hj hi
    have hj2 := (Gram.aug_get (fresh := fresh) (hp.1 _ _ hj')).1
    by_cases hs : i.rule = g'.rules.length
    · obtain ⟨ir, ip, la⟩ := i
      simp only at hs
      subst hs
      simp only at hr hX hd
      obtain ⟨hla, ⟨rfl, rfl⟩ | ⟨rfl, rfl⟩⟩ := start_items hf' hv rfl
      · simp only at hla
        subst hla
        rw [Gram.aug_start] at hr
        cases hr
        simp at hX
        subst hX
        obtain ⟨v, h1, _⟩ := Gen.terminal (by simpa using gen_iff.2 hd)
        cases h1
        obtain ⟨i0, r0, ρ0, k1, k2, k3, k4⟩ := hroom
        simp only [List.append_nil, Term.behind]
        exact .expand _ i0 r0 g'.start _ r' b ρ0 k1 k2 k3 hj2 hB (gen_iff.1 k4)
      · rw [Gram.aug_start] at hr
        cases hr
        simp at hX
    · have h1 := Gram.aug_get' hr hs
      have h2 := (Gram.aug_get (fresh := fresh) (hp.1 _ _ h1)).1
      have hm1 := List.mem_of_getElem? h1
      have g1 : Gen g.rules (r.rhs.drop (i.pos + 1) ++ [.tm i.la]) (.tm c :: ρ) := by
        refine Gen.mono hp.mem (Gen.unused_rule (r0 := ⟨fresh', [.nt g'.start]⟩) (fun r hr hm => hf' ⟨r, hr, .inr hm⟩) (gen_iff.2 hd) ?_)
        intro hm
        rcases List.mem_append.1 hm with hm | hm
        · exact hf' ⟨r, hm1, .inr (List.mem_of_mem_drop hm)⟩
        · simp at hm
      have g2 : ∃ ρ', Gen g.rules (r.rhs.drop (i.pos + 1) ++ [.tm (Term.behind b i.la)]) (.tm (Term.behind b c) :: ρ') := by
        obtain ⟨u, v, e1, e2, e3⟩ := g1.split
        obtain ⟨v', rfl, e4⟩ := e3.terminal
        cases u with
        | nil =>
          obtain ⟨e5, _⟩ := List.cons.inj e1
          cases e5
          exact ⟨[], e2.append (Gen.refl [.tm (Term.behind b i.la)])⟩
        | cons Z u =>
          obtain ⟨rfl, _⟩ := List.cons.inj e1
          have hne : c ≠ .eoi := by
            rintro rfl
            exact hok.no_eoi e2 (fun hm => hok r (hp.mem r hm1) (List.mem_of_mem_drop hm)) List.mem_cons_self
          rw [behind_ne (b := b) hne]
          exact ⟨_, e2.append (Gen.refl _)⟩
      obtain ⟨ρ', g2⟩ := g2
      exact .expand _ _ r B _ r' _ ρ' (ih hs) h2 hX hj2 hB (gen_iff.1 (g2.mono fun r h => List.mem_append_left _ h))

theorem part_clash (h : Clash (g'.aug fresh') g'.rules.length) : Clash (g.aug fresh) g.rules.length := by
  obtain ⟨γ, t, r, h1, ⟨rule, h2, h3⟩, h4⟩ := h
  have hr2 := Gram.aug_get' h2 h1
  have hr3 := Gram.aug_get (fresh := fresh) (hp.1 _ _ hr2)
  refine ⟨δ ++ γ, Term.behind b t, σ r, hr3.2, ⟨rule, hr3.1, part_valid hp hok hf' hroom h3 h1⟩, ?_⟩
  rcases h4 with ⟨i, rule', k1, k2, k3⟩ | ⟨r2, k1, k2, rule', k3, k4⟩
  · left
    have hi : i.rule ≠ g'.rules.length := by
      intro hi
      rw [hi, Gram.aug_start] at k2
      cases k2
      have := List.mem_of_getElem? k3
      simp at this
    have hk2 := Gram.aug_get' k2 hi
    have hne : t ≠ .eoi := by
      rintro rfl
      exact hok _ (hp.mem _ (List.mem_of_getElem? hk2)) (List.mem_of_getElem? k3)
    rw [behind_ne (b := b) hne]
    exact ⟨_, rule', part_valid hp hok hf' hroom k1 hi, (Gram.aug_get (hp.1 _ _ hk2)).1, k3⟩
  · right
    have hk := Gram.aug_get' k3 k1
    have hk3 := Gram.aug_get (fresh := fresh) (hp.1 _ _ hk)
    refine ⟨σ r2, hk3.2, fun he => k2 (hp.2 _ _ (List.getElem?_eq_some_iff.1 hk).1 (List.getElem?_eq_some_iff.1 hr2).1 he), rule', hk3.1,
      part_valid hp hok hf' hroom k4 k1⟩

end

/-- Room at the beginning. -/
theorem room_start : Room (g.aug fresh) g.rules.length g.start [] .eoi :=
  ⟨_, _, _, .start, Gram.aug_start, rfl, .refl _⟩

/-- Room at every occurrence. -/
theorem room_reach (hfr : g.Fruitful) (hf : ¬ g.Used fresh) {ζ : List Sym} (hd : Derives g.rules [.nt g.start] ζ) : ∀ {x : List Sym} {n : Nat} {y : List Sym},
    ζ = x ++ .nt n :: y → ∃ δ b, Room (g.aug fresh) g.rules.length n δ b := by
  generalize hu : [Sym.nt g.start] = u at hd
  induction hd with
  | refl =>
    subst hu
    intro x n y he
    cases x with
    | nil =>
      obtain ⟨h1, rfl⟩ := List.cons.inj he
      cases h1
      exact ⟨[], .eoi, room_start⟩
    | cons X x => simp at he
  | step x' y' r hd hr ih =>
    subst hu
    intro x n y he
    have hmem : Sym.nt n ∈ x' ++ r.rhs ++ y' := by rw [he]; simp
    simp only [List.mem_append] at hmem
    have other : ∀ z, Sym.nt n ∈ z → (∃ p q, x' ++ .nt r.lhs :: y' = p ++ z ++ q) → ∃ δ b, Room (g.aug fresh) g.rules.length n δ b := by
      rintro z hz ⟨p, q, e⟩
      obtain ⟨z1, z2, rfl⟩ := List.append_of_mem hz
      exact ih (x := p ++ z1) (n := n) (y := z2 ++ q) (by rw [e]; simp)
    rcases hmem with (hm | hm) | hm
    · exact other x' hm ⟨[], .nt r.lhs :: y', by simp⟩
    · obtain ⟨z1, z2, hz⟩ := List.append_of_mem hm
      obtain ⟨δ, b, i0, r0, ρ0, k1, k2, k3, k4⟩ := ih (x := x') (n := r.lhs) (y := y') rfl
      obtain ⟨j, hj⟩ := List.getElem?_of_mem hr
      have hj' := (Gram.aug_get (fresh := fresh) hj).1
      have h0 : Valid (g.aug fresh) g.rules.length δ ⟨j, 0, b⟩ := .expand _ i0 r0 _ _ r b ρ0 k1 k2 k3 hj' rfl (gen_iff.1 k4)
      have adv : ∀ k, k ≤ r.rhs.length → Valid (g.aug fresh) g.rules.length (δ ++ r.rhs.take k) ⟨j, k, b⟩ := by
        intro k
        induction k with
        | zero => intro _; simpa using h0
        | succ k ih =>
          intro hk
          have := Valid.advance _ _ r r.rhs[k] (ih (by omega)) hj' (by simp)
          rw [List.take_succ_eq_append_getElem (by omega)]
          simpa using this
      have h1 := adv z1.length (by rw [hz]; simp)
      obtain ⟨w, hw⟩ := gen_tms (hfr.aug hf) (r0 := ⟨fresh, [.nt g.start]⟩) (x := x' ++ z1 ++ [.nt n]) (l := z2 ++ y' ++ [.tm .eoi]) (by
        have s0 : Gen (g.aug fresh) [.nt fresh, .tm .eoi] [.nt g.start, .tm .eoi] := by
          simpa using Gen.mid (R := g.aug fresh) (r := ⟨fresh, [.nt g.start]⟩) (by simp [Gram.aug]) [] [.tm .eoi]
        have s1 : Gen (g.aug fresh) [.nt g.start] (x' ++ .nt r.lhs :: y') := (gen_iff.2 hd).mono fun r h => List.mem_append_left _ h
        have s2 := s1.trans (Gen.mid (List.mem_append_left _ hr) x' y')
        rw [hz] at s2
        have := s0.trans (s2.append (Gen.refl [.tm .eoi]))
        simpa using this)
      obtain ⟨u, v, e1, e2, _⟩ := Gen.split (l := z2) (l' := y' ++ [.tm .eoi]) (by simpa using hw)
      obtain ⟨wu, wv, _, rfl, _⟩ := List.map_eq_append_iff.1 e1
      have hnext : r.rhs[z1.length]? = some (.nt n) := by rw [hz]; simp
      have hdrop : r.rhs.drop (z1.length + 1) = z2 := by rw [hz]; simp
      have e3 := e2.append (Gen.refl [.tm b])
      cases wu with
      | nil => exact ⟨_, b, _, r, [], h1, hj', hnext, by rw [hdrop]; exact e3⟩
      | cons c wu => exact ⟨_, c, _, r, _, h1, hj', hnext, by rw [hdrop]; exact e3⟩
    · exact other y' hm ⟨x' ++ [.nt r.lhs], [], by simp⟩

end Verif.Par
