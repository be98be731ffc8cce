import Verif.Tok.NfaProof2

/-! # Correctness of NFA construction -/

namespace Verif.Tok

/-- Everything proved about the automaton of a regex. -/
structure Good (h : Hir) (x : NFA) : Prop where
  wf : x.WF
  sup : ∀ w, Lang h w → x.Accepts w
  noIn : h.freeB = true → NoIn x.node x.b
  noOut : h.freeE = true → NoOut x.node x.e
  exact : h.faithful = true → ∀ w, x.Accepts w → Lang h w

theorem eps_one_nil {a b : Node} {p q} : Eps [a, b] p q ↔ (p = 0 ∧ q ∈ a.eps) ∨ (p = 1 ∧ q ∈ b.eps) := by
  unfold Eps
  rcases p with _ | _ | p <;> simp

theorem stp_two {a b : Node} {p c q} : Stp [a, b] p c q ↔
    (p = 0 ∧ ∃ r t, (r, t) ∈ a.next ∧ r.1 ≤ c ∧ c < r.2 ∧ q ∈ t) ∨
    (p = 1 ∧ ∃ r t, (r, t) ∈ b.next ∧ r.1 ≤ c ∧ c < r.2 ∧ q ∈ t) := by
  unfold Stp
  rcases p with _ | _ | p <;> simp

theorem eps_one {a : Node} {p q} : Eps [a] p q ↔ p = 0 ∧ q ∈ a.eps := by
  unfold Eps
  rcases p with _ | p <;> simp

theorem stp_one {a : Node} {p c q} : Stp [a] p c q ↔
    p = 0 ∧ ∃ r t, (r, t) ∈ a.next ∧ r.1 ≤ c ∧ c < r.2 ∧ q ∈ t := by
  unfold Stp
  rcases p with _ | p <;> simp

/-- An automaton with a begin node, an end node and labelled edges between them only. -/
theorem two_spec {nx : List ((Nat × Nat) × List Nat)} (hn : ∀ r t, (r, t) ∈ nx → t = [1]) :
    let x : NFA := { node := [{ next := nx }, {}], b := 0, e := 1 }
    x.WF ∧ NoIn x.node x.b ∧ NoOut x.node x.e ∧
      ∀ w, x.Accepts w ↔ ∃ c, w = [c] ∧ ∃ r t, (r, t) ∈ nx ∧ r.1 ≤ c ∧ c < r.2 := by
  intro x
  have hE : ∀ p q, ¬ Eps x.node p q := by intro p q; simp [x, eps_one_nil]
  have hS : ∀ p c q, Stp x.node p c q ↔ p = 0 ∧ q = 1 ∧ ∃ r t, (r, t) ∈ nx ∧ r.1 ≤ c ∧ c < r.2 := by
    intro p c q
    simp only [x, stp_two]
    constructor
    · rintro (⟨h, r, t, h1, h2, h3, h4⟩ | ⟨_, _, _, h, _⟩)
      · rw [hn r t h1] at h4
        exact ⟨h, by simpa using h4, r, t, h1, h2, h3⟩
      · simp at h
    · rintro ⟨h, rfl, r, t, h1, h2, h3⟩
      exact Or.inl ⟨h, r, t, h1, h2, h3, by simp [hn r t h1]⟩
  refine ⟨⟨fun p q h => absurd h (hE p q), ?_, by simp [x], by simp [x]⟩, ⟨fun p h => absurd h (hE _ _), ?_⟩,
    ⟨fun p h => absurd h (hE _ _), ?_⟩, ?_⟩
  · intro p c q h
    have := (hS p c q).1 h
    simp [x]; omega
  · intro p c h
    have := (hS _ _ _).1 h
    simp [x] at this
  · intro c q h
    have := (hS _ _ _).1 h
    simp [x] at this
  · intro w
    constructor
    · intro h
      unfold NFA.Accepts at h
      cases h with
      | eps h _ => exact absurd h (hE _ _)
      | step h h' =>
        obtain ⟨_, rfl, h3⟩ := (hS _ _ _).1 h
        have := Path.stuck (fun b hb => absurd hb (hE _ _)) (fun c b hb => by have := (hS _ _ _).1 hb; simp at this) h'
        exact ⟨_, by rw [this.1], h3⟩
    · rintro ⟨c, rfl, h⟩
      exact .step ((hS _ _ _).2 ⟨rfl, rfl, h⟩) (.nil _)

theorem insertRange_new {β : Type} {r : Nat × Nat} {v : β} {m : List ((Nat × Nat) × β)} (h : ∀ k x, (k, x) ∈ m → k.1 < r.1) : insertRange r v m = m ++ [(r, v)] := by
  induction m with
  | nil => rfl
  | cons a m ih =>
    obtain ⟨k, x⟩ := a
    have hk := h k x (by simp)
    unfold insertRange
    rw [if_neg (by omega), if_pos hk, ih (fun k x hkx => h k x (List.mem_cons_of_mem _ hkx))]
    rfl

theorem class_next {rs : List (Nat × Nat)} (h : classOk rs = true) :
    rs.foldl (fun m r => insertRange (r.1, r.2 + 1) [1] m) [] = rs.map fun r => ((r.1, r.2 + 1), [1]) := by
  simp only [classOk, Bool.and_eq_true, List.all_eq_true, decide_eq_true_eq] at h
  obtain ⟨h1, h2⟩ := h
  suffices ∀ (rs pre : List (Nat × Nat)), (∀ r ∈ pre ++ rs, r.1 ≤ r.2) → (pre ++ rs).Pairwise (fun a b => a.2 < b.1) →
      rs.foldl (fun m r => insertRange (r.1, r.2 + 1) [1] m) (pre.map fun r => ((r.1, r.2 + 1), [1])) =
        (pre ++ rs).map fun r => ((r.1, r.2 + 1), [1]) by
    simpa using this rs [] (by simpa using h1) (by simpa using h2)
  intro rs
  induction rs with
  | nil => simp
  | cons r rs ih =>
    intro pre h1 h2
    rw [List.foldl_cons, insertRange_new]
    · have := ih (pre ++ [r]) (by simpa using h1) (by simpa using h2)
      simpa using this
    · intro k x hk
      simp only [List.mem_map, Prod.mk.injEq] at hk
      obtain ⟨a, ha, rfl, _⟩ := hk
      have h3 := (List.pairwise_append.1 h2).2.2 a ha r (by simp)
      have h4 := h1 a (by simp [ha])
      simp only
      omega

theorem pow_nil {L : List Nat → Prop} (h : L []) (n) : Pow L n [] := by
  induction n with
  | zero => rfl
  | succ n ih => exact ⟨[], [], rfl, h, ih⟩

theorem nullable_lang : ∀ h : Hir, h.nullable = true → Lang h [] := by
  apply Hir.ind
  case empty => intro _; simp [Lang]
  case literalU => intro c h; simp [Hir.nullable] at h
  case literalB => intro c h; simp [Hir.nullable] at h
  case classU => intro c h; simp [Hir.nullable] at h
  case classB => intro h; simp [Hir.nullable] at h
  case anchor => intro h; simp [Hir.nullable] at h
  case wordBoundary => intro h; simp [Hir.nullable] at h
  case rep =>
    intro k h ih hn
    unfold Lang
    cases k with
    | zeroOrOne => exact ⟨0, by simp [RepKind.allows], rfl⟩
    | zeroOrMore => exact ⟨0, by simp [RepKind.allows], rfl⟩
    | oneOrMore => exact ⟨1, by simp [RepKind.allows], pow_nil (ih (by simpa [Hir.nullable] using hn)) 1⟩
    | exactly n =>
      simp [Hir.nullable] at hn
      refine ⟨n, by simp [RepKind.allows], ?_⟩
      rcases hn with rfl | hn
      · rfl
      · exact pow_nil (ih hn) n
    | atLeast n =>
      simp [Hir.nullable] at hn
      refine ⟨n, by simp [RepKind.allows], ?_⟩
      rcases hn with rfl | hn
      · rfl
      · exact pow_nil (ih hn) n
    | bounded n m =>
      simp [Hir.nullable] at hn
      refine ⟨n, by simp [RepKind.allows, hn.1], ?_⟩
      rcases hn.2 with rfl | hn
      · rfl
      · exact pow_nil (ih hn) n
  case group => intro h ih hn; simp only [Lang]; exact ih (by simpa [Hir.nullable] using hn)
  case concat =>
    intro hs ih hn
    simp only [Lang, Hir.nullable] at hn ⊢
    induction hs with
    | nil => simp [LangSeq]
    | cons h t iht =>
      simp [Hir.nullableAll] at hn
      exact ⟨[], [], rfl, ih h (by simp) hn.1, iht (fun h hh => ih h (by simp [hh])) hn.2⟩
  case alt =>
    intro hs ih hn
    simp only [Lang, Hir.nullable] at hn ⊢
    induction hs with
    | nil => simp [Hir.nullableAny] at hn
    | cons h t iht =>
      simp [Hir.nullableAny] at hn
      rcases hn with hn | hn
      · exact Or.inl (ih h (by simp) hn)
      · exact Or.inr (iht (fun h hh => ih h (by simp [hh])) hn)

theorem bare_spec : nfaBare.WF ∧ NoIn nfaBare.node nfaBare.b ∧ NoOut nfaBare.node nfaBare.e ∧
    ∀ w, nfaBare.Accepts w ↔ w = [] := by
  have hE : ∀ p q, ¬ Eps nfaBare.node p q := by intro p q; simp [nfaBare, eps_one]
  have hS : ∀ p c q, ¬ Stp nfaBare.node p c q := by intro p c q; simp [nfaBare, stp_one]
  refine ⟨⟨fun p q h => absurd h (hE _ _), fun p c q h => absurd h (hS _ _ _), by simp [nfaBare], by simp [nfaBare]⟩,
    ⟨fun p h => absurd h (hE _ _), fun p c h => hS _ _ _ h⟩, ⟨fun p h => absurd h (hE _ _), fun p c h => hS _ _ _ h⟩, ?_⟩
  intro w
  constructor
  · intro h
    exact (Path.stuck (fun b h => absurd h (hE _ _)) (fun c b h => hS _ _ _ h) h).1
  · rintro rfl; exact .nil _

theorem good_opt {h x k} (g : Good h x) (hk : k = .zeroOrOne ∨ k = .bounded 0 1) : Good (.rep k h) (nfaOpt x) := by
  refine ⟨opt_wf g.wf, ?_, ?_, ?_, ?_⟩
  · intro w hw
    unfold Lang at hw
    obtain ⟨n, hn, hp⟩ := hw
    have hn : n ≤ 1 := by rcases hk with rfl | rfl <;> simpa [RepKind.allows] using hn
    obtain rfl | rfl : n = 0 ∨ n = 1 := by omega
    · obtain rfl : w = [] := hp
      exact opt_superset_nil g.wf
    · exact opt_superset (g.sup _ (pow_one.1 hp))
  · intro hb
    exact opt_noIn (g.noIn (by rcases hk with rfl | rfl <;> simpa [Hir.freeB] using hb))
  · intro hb
    exact opt_noOut (g.noOut (by rcases hk with rfl | rfl <;> simpa [Hir.freeE] using hb))
  · intro hf w hw
    have hf : h.faithful = true ∧ (h.nullable = true ∨ (h.freeB = true ∧ h.freeE = true)) := by
      rcases hk with rfl | rfl <;> simpa [Hir.faithful] using hf
    have : x.Accepts [] ∨ (NoIn x.node x.b ∧ NoOut x.node x.e) := by
      rcases hf.2 with h1 | h1
      · exact Or.inl (g.sup _ (nullable_lang _ h1))
      · exact Or.inr ⟨g.noIn h1.1, g.noOut h1.2⟩
    unfold Lang
    rcases opt_exact this hw with rfl | h2
    · exact ⟨0, by rcases hk with rfl | rfl <;> simp [RepKind.allows], rfl⟩
    · exact ⟨1, by rcases hk with rfl | rfl <;> simp [RepKind.allows], pow_one.2 (g.exact hf.1 _ h2)⟩

theorem good_star {h x k} (g : Good h x) (hk : k = .zeroOrMore ∨ k = .atLeast 0) : Good (.rep k h) (nfaStar x) := by
  refine ⟨star_wf g.wf, ?_, ?_, ?_, ?_⟩
  · intro w hw
    unfold Lang at hw
    obtain ⟨n, hn, hp⟩ := hw
    exact star_superset g.wf (pow_congr g.sup hp)
  · intro hb
    rcases hk with rfl | rfl <;> simp [Hir.freeB] at hb
  · intro hb
    rcases hk with rfl | rfl <;> simp [Hir.freeE] at hb
  · intro hf w hw
    have hf : h.faithful = true ∧ (h.nullable = true ∨ h.freeB = true) := by
      rcases hk with rfl | rfl <;> simpa [Hir.faithful] using hf
    have : x.Accepts [] ∨ NoIn x.node x.b := by
      rcases hf.2 with h1 | h1
      · exact Or.inl (g.sup _ (nullable_lang _ h1))
      · exact Or.inr (g.noIn h1)
    obtain ⟨n, hn⟩ := star_exact this hw
    unfold Lang
    exact ⟨n, by rcases hk with rfl | rfl <;> simp [RepKind.allows], pow_congr (g.exact hf.1) hn⟩

theorem good_plus {h x} (g : Good h x) : Good (.rep .oneOrMore h) (nfaPlus x) := by
  refine ⟨plus_wf g.wf, ?_, ?_, ?_, ?_⟩
  · intro w hw
    unfold Lang at hw
    obtain ⟨n, hn, hp⟩ := hw
    exact (plus_exact g.wf).2 ⟨n, by simpa [RepKind.allows] using hn, pow_congr g.sup hp⟩
  · intro hb; simp [Hir.freeB] at hb
  · intro hb; simp [Hir.freeE] at hb
  · intro hf w hw
    have hf : h.faithful = true := by simpa [Hir.faithful] using hf
    obtain ⟨n, hn, hp⟩ := (plus_exact g.wf).1 hw
    unfold Lang
    exact ⟨n, by simpa [RepKind.allows] using hn, pow_congr (g.exact hf) hp⟩

theorem good_bare {h : Hir} {k} (hk : k = .exactly 0 ∨ k = .bounded 0 0) : Good (.rep k h) nfaBare := by
  obtain ⟨h1, h2, h3, h4⟩ := bare_spec
  refine ⟨h1, ?_, fun _ => h2, fun _ => h3, ?_⟩
  · intro w hw
    unfold Lang at hw
    obtain ⟨n, hn, hp⟩ := hw
    obtain rfl : n = 0 := by rcases hk with rfl | rfl <;> simpa [RepKind.allows] using hn
    exact (h4 w).2 hp
  · intro _ w hw
    unfold Lang
    exact ⟨0, by rcases hk with rfl | rfl <;> simp [RepKind.allows], (h4 w).1 hw⟩

theorem good_chain {h x k n} (g : Good h x) (hn : 1 ≤ n) (hk : k = .exactly n ∨ k = .bounded n n) :
    Good (.rep k h) (nfaChain x n) := by
  obtain ⟨h1, h2, h3, h4⟩ := chain_spec g.wf hn
  refine ⟨h1, ?_, ?_, ?_, ?_⟩
  · intro w hw
    unfold Lang at hw
    obtain ⟨m, hm, hp⟩ := hw
    obtain rfl : m = n := by
      rcases hk with rfl | rfl
      · simpa [RepKind.allows] using hm
      · simp [RepKind.allows] at hm; omega
    exact (h2 w).2 (pow_congr g.sup hp)
  · intro hb
    have hn : n ≠ 0 := by omega
    exact h3 (g.noIn (by rcases hk with rfl | rfl <;> simpa [Hir.freeB, hn] using hb))
  · intro hb
    have hn : n ≠ 0 := by omega
    exact h4 (g.noOut (by rcases hk with rfl | rfl <;> simpa [Hir.freeE, hn] using hb))
  · intro hf w hw
    have hn : n ≠ 0 := by omega
    have hf : h.faithful = true := by rcases hk with rfl | rfl <;> simpa [Hir.faithful, hn] using hf
    unfold Lang
    exact ⟨n, by rcases hk with rfl | rfl <;> simp [RepKind.allows], pow_congr (g.exact hf) ((h2 w).1 hw)⟩

theorem good_atLeast {h x n} (g : Good h x) (hn : 1 ≤ n) : Good (.rep (.atLeast n) h) (nfaAtLeast x n) := by
  obtain ⟨h1, h2, h3⟩ := atLeast_spec g.wf hn
  have hn0 : n ≠ 0 := by omega
  refine ⟨h1, ?_, ?_, ?_, ?_⟩
  · intro w hw
    unfold Lang at hw
    obtain ⟨m, hm, hp⟩ := hw
    simp only [RepKind.allows] at hm
    obtain ⟨j, rfl⟩ : ∃ j, m = n + j := ⟨m - n, by omega⟩
    obtain ⟨u, v, rfl, hu, hv⟩ := pow_add.1 hp
    exact (h2 _).2 ⟨u, v, rfl, pow_congr g.sup hu, star_superset g.wf (pow_congr g.sup hv)⟩
  · intro hb
    exact h3 (g.noIn (by simpa [Hir.freeB, hn0] using hb))
  · intro hb; simp [Hir.freeE] at hb
  · intro hf w hw
    have hf : h.faithful = true ∧ (h.nullable = true ∨ h.freeB = true) := by simpa [Hir.faithful] using hf
    have : x.Accepts [] ∨ NoIn x.node x.b := by
      rcases hf.2 with h1 | h1
      · exact Or.inl (g.sup _ (nullable_lang _ h1))
      · exact Or.inr (g.noIn h1)
    obtain ⟨u, v, rfl, hu, hv⟩ := (h2 _).1 hw
    obtain ⟨j, hj⟩ := star_exact this hv
    unfold Lang
    exact ⟨n + j, by simp [RepKind.allows], pow_congr (g.exact hf.1) (pow_add.2 ⟨u, v, rfl, hu, hj⟩)⟩

theorem good_bounded {h x n m} (g : Good h x) (hn : 1 ≤ n) (hm : n < m) :
    Good (.rep (.bounded n m) h) (nfaBounded x n m) := by
  obtain ⟨h1, h2, h3, h4⟩ := bounded_spec g.wf hn hm
  have hn0 : n ≠ 0 := by omega
  have hm0 : m ≠ 0 := by omega
  refine ⟨h1, ?_, ?_, ?_, ?_⟩
  · intro w hw
    unfold Lang at hw
    obtain ⟨k, hk, hp⟩ := hw
    exact (h2 w).2 ⟨k, hk.1, hk.2, pow_congr g.sup hp⟩
  · intro hb
    exact h3 (g.noIn (by simpa [Hir.freeB, hm0] using hb))
  · intro hb
    exact h4 (g.noOut (by simpa [Hir.freeE, hm0] using hb))
  · intro hf w hw
    have hf : h.faithful = true := by simpa [Hir.faithful, hm0, hn0] using hf
    obtain ⟨k, k1, k2, hp⟩ := (h2 w).1 hw
    unfold Lang
    exact ⟨k, ⟨k1, k2⟩, pow_congr (g.exact hf) hp⟩

theorem good_upTo {h x m} (g : Good h x) (hm : 2 ≤ m) : Good (.rep (.bounded 0 m) h) (nfaUpTo x m) := by
  have hm0 : m ≠ 0 := by omega
  obtain ⟨h1, h2, h3, h4⟩ := bounded_spec g.wf (n := 1) (m := m) (by omega) (by omega)
  rw [upTo_eq]
  refine ⟨opt_wf h1, ?_, ?_, ?_, ?_⟩
  · intro w hw
    unfold Lang at hw
    obtain ⟨k, hk, hp⟩ := hw
    simp only [RepKind.allows] at hk
    by_cases k0 : k = 0
    · subst k0
      obtain rfl : w = [] := hp
      exact opt_superset_nil h1
    · exact opt_superset ((h2 w).2 ⟨k, by omega, hk.2, pow_congr g.sup hp⟩)
  · intro hb
    exact opt_noIn (h3 (g.noIn (by simpa [Hir.freeB, hm0] using hb)))
  · intro hb
    exact opt_noOut (h4 (g.noOut (by simpa [Hir.freeE, hm0] using hb)))
  · intro hf w hw
    have hf : h.faithful = true ∧ (h.nullable = true ∨ (h.freeB = true ∧ h.freeE = true)) := by
      simpa [Hir.faithful, hm0] using hf
    have := opt_exact (x := nfaBounded x 1 m) ?_ hw
    · unfold Lang
      rcases this with rfl | this
      · exact ⟨0, by simp [RepKind.allows], rfl⟩
      · obtain ⟨k, k1, k2, hp⟩ := (h2 w).1 this
        exact ⟨k, by simpa [RepKind.allows] using k2, pow_congr (g.exact hf.1) hp⟩
    · rcases hf.2 with h5 | h5
      · exact Or.inl ((h2 []).2 ⟨1, by omega, by omega, pow_one.2 (g.sup _ (nullable_lang _ h5))⟩)
      · exact Or.inr ⟨h3 (g.noIn h5.1), h4 (g.noOut h5.2)⟩

theorem good_group {h x} (g : Good h x) : Good (.group h) x :=
  ⟨g.wf, fun w hw => g.sup w (by simpa [Lang] using hw), fun hb => g.noIn (by simpa [Hir.freeB] using hb),
    fun hb => g.noOut (by simpa [Hir.freeE] using hb),
    fun hf w hw => by simpa [Lang] using g.exact (by simpa [Hir.faithful] using hf) w hw⟩

theorem one_of_rep {h x k} (g : Good h x) (hk : k = .exactly 1 ∨ k = .bounded 1 1) : Good (.rep k h) x :=
  good_chain g (n := 1) (by omega) hk

theorem rep_good {h x k r} (g : Good h x) (hr : nfaRep x k = .ok r) : Good (.rep k h) r := by
  unfold nfaRep at hr
  split at hr
  · cases hr; exact good_opt g (Or.inl rfl)
  · cases hr; exact good_star g (Or.inl rfl)
  · cases hr; exact good_plus g
  · cases hr; exact good_bare (Or.inl rfl)
  · cases hr; exact one_of_rep g (Or.inl rfl)
  · rename_i n h1 h2
    cases hr
    exact good_chain g (by have : n ≠ 0 := h1; omega) (Or.inl rfl)
  · cases hr; exact good_star g (Or.inr rfl)
  · rename_i n h1
    cases hr
    exact good_atLeast g (by have : n ≠ 0 := h1; omega)
  · cases hr; exact good_bare (Or.inr rfl)
  · cases hr; exact good_opt g (Or.inr rfl)
  · rename_i m h1 h2
    cases hr
    exact good_upTo g (by have : m ≠ 0 := h1; have : m ≠ 1 := h2; omega)
  · cases hr; exact one_of_rep g (Or.inr rfl)
  · rename_i n m h1 h2 h3 h4
    have hn : n ≠ 0 := by
      rintro rfl
      exact h3 rfl
    split at hr
    · rename_i e
      subst e
      cases hr; exact good_chain g (by omega) (Or.inr rfl)
    · split at hr
      · cases hr; exact good_bounded g (by omega) (by omega)
      · cases hr

theorem alt_inv_start : AltInv [{}, {}] (fun _ => False) := by
  have hE : ∀ p q, ¬ Eps [{}, {}] p q := by intro p q; simp [eps_one_nil]
  have hS : ∀ p c q, ¬ Stp [{}, {}] p c q := by intro p c q; simp [stp_two]
  refine ⟨by simp, fun p q h => absurd h (hE _ _), fun p c q h => absurd h (hS _ _ _), ?_⟩
  intro w
  simp only [iff_false]
  intro h
  have := Path.stuck (fun b h => absurd h (hE _ _)) (fun c b h => hS _ _ _ h) h
  omega

theorem bind_ok {ε α β : Type} {x : Except ε α} {f : α → Except ε β} {b} (h : x >>= f = .ok b) :
    ∃ a, x = .ok a ∧ f a = .ok b := by
  cases x with
  | error e => cases h
  | ok a => exact ⟨a, rfl, h⟩

theorem bind_error {ε α β : Type} {x : Except ε α} {f : α → Except ε β} {e} (h : x >>= f = .error e) :
    x = .error e ∨ ∃ a, x = .ok a ∧ f a = .error e := by
  cases x with
  | error e' => cases h; exact Or.inl rfl
  | ok a => exact Or.inr ⟨a, rfl, h⟩

/-- Conditions proved for a concatenation. -/
structure GoodSeq (hs : List Hir) (x : NFA) : Prop where
  wf : x.WF
  sup : ∀ w, LangSeq hs w → x.Accepts w
  noIn : Hir.freeBHead hs = true → NoIn x.node x.b
  noOut : Hir.freeELast hs = true → NoOut x.node x.e
  exact : Hir.faithfulAll hs = true → ∀ w, x.Accepts w → LangSeq hs w

theorem concat_good {hs : List Hir} (ih : ∀ h ∈ hs, ∀ x, build h = .ok x → h.ok = true → Good h x) :
    ∀ x, buildConcat hs = .ok x → Hir.okList hs = true → GoodSeq hs x := by
  induction hs with
  | nil => intro x h; simp [buildConcat] at h
  | cons h t iht =>
    intro x hx ho
    simp only [Hir.okList, Bool.and_eq_true] at ho
    cases t with
    | nil =>
      simp only [buildConcat] at hx
      have g := ih h (by simp) x hx ho.1
      refine ⟨g.wf, ?_, ?_, ?_, ?_⟩
      · rintro w ⟨u, v, rfl, hu, rfl⟩
        simpa using g.sup _ hu
      · intro hb; exact g.noIn (by simpa [Hir.freeBHead] using hb)
      · intro hb; exact g.noOut (by simpa [Hir.freeELast] using hb)
      · intro hf w hw
        exact ⟨w, [], by simp, g.exact (by simpa [Hir.faithfulAll] using hf) w hw, rfl⟩
    | cons h2 t =>
      rw [buildConcat] at hx
      · obtain ⟨acc, h1, hx⟩ := bind_ok hx
        obtain ⟨y, h3, hx⟩ := bind_ok hx
        cases hx
        have gy := ih h (by simp) y h3 ho.1
        have ga := iht (fun h hh => ih h (List.mem_cons_of_mem _ hh)) acc h1 ho.2
        obtain ⟨c1, c2, c3, c4⟩ := cat_spec gy.wf ga.wf
        refine ⟨c1, ?_, ?_, ?_, ?_⟩
        · rintro w ⟨u, v, rfl, hu, hv⟩
          exact (c2 _).2 ⟨u, v, rfl, gy.sup _ hu, ga.sup _ hv⟩
        · intro hb; exact c3 (gy.noIn (by simpa [Hir.freeBHead] using hb))
        · intro hb; exact c4 (ga.noOut (by simpa [Hir.freeELast] using hb))
        · intro hf w hw
          rw [Hir.faithfulAll, Bool.and_eq_true] at hf
          obtain ⟨u, v, rfl, hu, hv⟩ := (c2 w).1 hw
          exact ⟨u, v, rfl, gy.exact hf.1 _ hu, ga.exact hf.2 _ hv⟩
      · simp

theorem alt_good {hs : List Hir} (ih : ∀ h ∈ hs, ∀ x, build h = .ok x → h.ok = true → Good h x) :
    ∀ ns L r, AltInv ns L → buildAlt ns hs = .ok r → Hir.okList hs = true →
      ∃ L', AltInv r L' ∧ (∀ w, L w → L' w) ∧ (∀ w, LangAny hs w → L' w) ∧
        (Hir.faithfulAll hs = true → ∀ w, L' w → L w ∨ LangAny hs w) := by
  induction hs with
  | nil =>
    intro ns L r hi hr _
    simp only [buildAlt, Except.ok.injEq] at hr
    subst hr
    exact ⟨L, hi, fun _ => id, fun w h => by simp [LangAny] at h, fun _ w h => Or.inl h⟩
  | cons h t iht =>
    intro ns L r hi hr ho
    simp only [Hir.okList, Bool.and_eq_true] at ho
    rw [buildAlt] at hr
    obtain ⟨y, h1, hr⟩ := bind_ok hr
    have gy := ih h (by simp) y h1 ho.1
    obtain ⟨L', i1, i2, i3, i4⟩ := iht (fun h hh => ih h (List.mem_cons_of_mem _ hh)) _ _ _ (altStep_spec gy.wf hi) hr ho.2
    refine ⟨L', i1, fun w hw => i2 w (Or.inl hw), ?_, ?_⟩
    · rintro w (hw | hw)
      · exact i2 w (Or.inr (gy.sup _ hw))
      · exact i3 w hw
    · intro hf w hw
      rw [Hir.faithfulAll, Bool.and_eq_true] at hf
      rcases i4 hf.2 w hw with (h2 | h2) | h2
      · exact Or.inl h2
      · exact Or.inr (Or.inl (gy.exact hf.1 _ h2))
      · exact Or.inr (Or.inr h2)

/-- Every automaton that is built is good. -/
theorem build_good : ∀ (h : Hir) (x : NFA), build h = .ok x → h.ok = true → Good h x := by
  apply Hir.ind
  case empty =>
    intro x hx _
    simp only [build, Except.ok.injEq] at hx
    subst hx
    have hE : ∀ p q, Eps nfaEmpty.node p q → p = 0 ∧ q = 0 := by intro p q h; simpa [nfaEmpty, eps_one] using h
    have hS : ∀ p c q, Stp nfaEmpty.node p c q → p = 0 ∧ q = 0 := by
      intro p c q h
      simp only [nfaEmpty, stp_one] at h
      obtain ⟨h1, r, t, h2, h3, h4, h5⟩ := h
      simp at h2
      exact ⟨h1, by simpa [h2.2] using h5⟩
    refine ⟨⟨fun p q h => ?_, fun p c q h => ?_, by simp [nfaEmpty], by simp [nfaEmpty]⟩, ?_, ?_, ?_, ?_⟩
    · have := hE p q h; simp [nfaEmpty]; omega
    · have := hS p c q h; simp [nfaEmpty]; omega
    · intro w hw
      simp only [Lang] at hw
      subst hw
      exact .nil _
    · intro h; simp [Hir.freeB] at h
    · intro h; simp [Hir.freeE] at h
    · intro h; simp [Hir.faithful] at h
  case literalU =>
    intro c x hx _
    simp only [build, Except.ok.injEq] at hx
    subst hx
    obtain ⟨h1, h2, h3, h4⟩ := two_spec (nx := [((c, c + 1), [1])]) (by simp)
    refine ⟨h1, ?_, fun _ => h2, fun _ => h3, ?_⟩
    · intro w hw
      simp only [Lang] at hw
      exact (h4 w).2 ⟨c, hw, (c, c + 1), [1], by simp, by simp, by simp⟩
    · intro _ w hw
      obtain ⟨d, rfl, r, t, h5, h6, h7⟩ := (h4 w).1 hw
      simp at h5
      simp [h5.1] at h6 h7
      simp [Lang]; omega
  case literalB => intro c x hx; simp [build] at hx
  case classU =>
    intro rs x hx ho
    simp only [build, Except.ok.injEq] at hx
    subst hx
    simp only [Hir.ok] at ho
    unfold nfaClass
    rw [class_next ho]
    obtain ⟨h1, h2, h3, h4⟩ := two_spec (nx := rs.map fun r => ((r.1, r.2 + 1), [1])) (by
      intro r t h
      simp only [List.mem_map, Prod.mk.injEq] at h
      obtain ⟨_, _, _, h⟩ := h
      exact h.symm)
    refine ⟨h1, ?_, fun _ => h2, fun _ => h3, ?_⟩
    · intro w hw
      simp only [Lang] at hw
      obtain ⟨c, rfl, r, hr, h5, h6⟩ := hw
      exact (h4 _).2 ⟨c, rfl, (r.1, r.2 + 1), [1], List.mem_map.2 ⟨r, hr, rfl⟩, h5, by simp only; omega⟩
    · intro _ w hw
      obtain ⟨d, rfl, r, t, h5, h6, h7⟩ := (h4 w).1 hw
      simp only [List.mem_map, Prod.mk.injEq] at h5
      obtain ⟨r', h8, rfl, _⟩ := h5
      simp only [Lang]
      exact ⟨d, rfl, r', h8, h6, by simp only at h7; omega⟩
  case classB => intro x hx; simp [build] at hx
  case anchor => intro x hx; simp [build] at hx
  case wordBoundary => intro x hx; simp [build] at hx
  case rep =>
    intro k h ih x hx ho
    rw [build] at hx
    obtain ⟨y, h1, h2⟩ := bind_ok hx
    refine rep_good (ih y h1 ?_) h2
    cases k <;> simp_all [Hir.ok]
  case group =>
    intro h ih x hx ho
    rw [build] at hx
    exact good_group (ih x hx (by simpa [Hir.ok] using ho))
  case concat =>
    intro hs ih x hx ho
    rw [build] at hx
    simp only [Hir.ok, Bool.and_eq_true] at ho
    have g := concat_good ih x hx ho.2
    exact ⟨g.wf, fun w hw => g.sup w (by simpa [Lang] using hw), fun hb => g.noIn (by simpa [Hir.freeB] using hb),
      fun hb => g.noOut (by simpa [Hir.freeE] using hb),
      fun hf w hw => by simpa [Lang] using g.exact (by simpa [Hir.faithful] using hf) w hw⟩
  case alt =>
    intro hs ih x hx ho
    rw [build] at hx
    simp only [Hir.ok] at ho
    obtain ⟨ns, h1, h2⟩ := bind_ok hx
    cases h2
    obtain ⟨L, i1, i2, i3, i4⟩ := alt_good ih _ _ _ alt_inv_start h1 ho
    have hl := i1.len
    refine ⟨⟨fun p q h => (i1.eps p q h).1, fun p c q h => (i1.stp p c q h).1, by simp only; omega, by simp only; omega⟩, ?_, ?_, ?_, ?_⟩
    · intro w hw
      simp only [Lang] at hw
      exact (i1.lang w).2 (i3 w hw)
    · intro _
      exact ⟨fun p h => absurd rfl (i1.eps p _ h).2.1, fun p c h => absurd rfl (i1.stp p c _ h).2.1⟩
    · intro _
      exact ⟨fun q h => absurd rfl (i1.eps _ q h).2.2, fun c q h => absurd rfl (i1.stp _ c q h).2.2⟩
    · intro hf w hw
      simp only [Hir.faithful] at hf
      simp only [Lang]
      rcases i4 hf w ((i1.lang w).1 hw) with h | h
      · exact absurd h id
      · exact h

theorem build_wf {h x} (hx : build h = .ok x) (ho : h.ok = true) : x.WF := (build_good h x hx ho).wf

/-! ## Errors -/

theorem rep_ok {k : RepKind} {x : NFA} (h : ∀ n m, k = .bounded n m → n ≤ m) : ∃ r, nfaRep x k = .ok r := by
  unfold nfaRep
  split <;> try exact ⟨_, rfl⟩
  rename_i n m _ _ _ _
  have := h n m rfl
  split
  · exact ⟨_, rfl⟩
  · rw [if_pos (by omega)]; exact ⟨_, rfl⟩

/-- A result agrees with the list of unsupported constructs. -/
def Agrees {α : Type} (l : List NfaError) (r : Except NfaError α) : Prop :=
  (∃ x, l = [] ∧ r = .ok x) ∨ ∃ e t, l = e :: t ∧ r = .error e

theorem Agrees.bind {α β : Type} {l l' : List NfaError} {r : Except NfaError α} {f : α → Except NfaError β}
    (h : Agrees l r) (h' : ∀ x, r = .ok x → Agrees l' (f x)) : Agrees (l ++ l') (r >>= f) := by
  rcases h with ⟨x, rfl, rfl⟩ | ⟨e, t, rfl, rfl⟩
  · exact h' x rfl
  · exact Or.inr ⟨e, t ++ l', rfl, rfl⟩

theorem build_agrees : ∀ h : Hir, h.ok = true → Agrees h.unsupported (build h) := by
  apply Hir.ind
  case empty => intro _; exact Or.inl ⟨_, by simp [Hir.unsupported], by rw [build]⟩
  case literalU => intro c _; exact Or.inl ⟨_, by simp [Hir.unsupported], by rw [build]⟩
  case literalB => intro c _; exact Or.inr ⟨_, [], by rw [Hir.unsupported], by rw [build]⟩
  case classU => intro c _; exact Or.inl ⟨_, by simp [Hir.unsupported], by rw [build]⟩
  case classB => intro _; exact Or.inr ⟨_, [], by rw [Hir.unsupported], by rw [build]⟩
  case anchor => intro _; exact Or.inr ⟨_, [], by rw [Hir.unsupported], by rw [build]⟩
  case wordBoundary => intro _; exact Or.inr ⟨_, [], by rw [Hir.unsupported], by rw [build]⟩
  case rep =>
    intro k h ih ho
    have ho' : h.ok = true := by cases k <;> simp_all [Hir.ok]
    rw [build, Hir.unsupported, ← List.append_nil h.unsupported]
    refine (ih ho').bind ?_
    intro x _
    obtain ⟨r, hr⟩ := rep_ok (k := k) (x := x) (by rintro n m rfl; simp [Hir.ok] at ho; exact ho.1)
    exact Or.inl ⟨r, rfl, hr⟩
  case group =>
    intro h ih ho
    rw [build, Hir.unsupported]
    exact ih (by simpa [Hir.ok] using ho)
  case concat =>
    intro hs ih ho
    rw [build, Hir.unsupported]
    simp only [Hir.ok, Bool.and_eq_true] at ho
    obtain ⟨h1, h2⟩ := ho
    induction hs with
    | nil => simp at h1
    | cons h t iht =>
      simp only [Hir.okList, Bool.and_eq_true] at h2
      cases t with
      | nil =>
        simp only [buildConcat, Hir.unsupportedR, List.nil_append]
        exact ih h (by simp) h2.1
      | cons h' t =>
        rw [buildConcat, Hir.unsupportedR]
        · refine (iht (fun h hh => ih h (List.mem_cons_of_mem _ hh)) (by simp) h2.2).bind ?_
          intro x _
          rw [← List.append_nil h.unsupported]
          refine (ih h (by simp) h2.1).bind ?_
          intro y _
          exact Or.inl ⟨_, rfl, rfl⟩
        · simp
  case alt =>
    intro hs ih ho
    rw [build, Hir.unsupported, ← List.append_nil (Hir.unsupportedL hs)]
    simp only [Hir.ok] at ho
    refine Agrees.bind ?_ (fun ns _ => Or.inl ⟨_, rfl, rfl⟩)
    generalize ([{}, {}] : List Node) = ns
    induction hs generalizing ns with
    | nil => rw [buildAlt, Hir.unsupportedL]; exact Or.inl ⟨_, rfl, rfl⟩
    | cons h t iht =>
      simp only [Hir.okList, Bool.and_eq_true] at ho
      rw [buildAlt, Hir.unsupportedL]
      refine (ih h (by simp) ho.1).bind ?_
      intro x _
      exact iht (fun h hh => ih h (List.mem_cons_of_mem _ hh)) ho.2 _

theorem buildAllLoop_agrees (hs : List Hir) (ho : ∀ h ∈ hs, h.ok = true) (st) :
    Agrees (hs.flatMap Hir.unsupported) (buildAllLoop hs st) := by
  induction hs generalizing st with
  | nil => exact Or.inl ⟨_, rfl, rfl⟩
  | cons h t ih =>
    obtain ⟨ns, bs, es⟩ := st
    rw [buildAllLoop, List.flatMap_cons]
    refine (build_agrees h (ho h (by simp))).bind ?_
    intro x _
    exact ih (fun h hh => ho h (List.mem_cons_of_mem _ hh)) _

theorem buildAll_agrees (hs : List Hir) (ho : ∀ h ∈ hs, h.ok = true) :
    Agrees (hs.flatMap Hir.unsupported) (buildAll hs) := by
  unfold buildAll
  rw [← List.append_nil (hs.flatMap Hir.unsupported)]
  refine (buildAllLoop_agrees hs ho _).bind ?_
  rintro ⟨ns, bs, es⟩ _
  exact Or.inl ⟨_, rfl, rfl⟩

/-! ## The combined automaton -/

/-- State of the loop over the patterns. -/
structure AllInv (hs : List Hir) (ns : List Node) (bs es : List Nat) : Prop where
  eps : ∀ p q, Eps ns p q → q < ns.length
  stp : ∀ p c q, Stp ns p c q → q < ns.length
  bsLt : ∀ b ∈ bs, b < ns.length
  esLt : ∀ e ∈ es, e < ns.length
  len : es.length = hs.length
  lang : ∀ (i : Nat) h e, hs[i]? = some h → es[i]? = some e →
    ∃ x, build h = .ok x ∧ ∀ w, (∃ b ∈ bs, NPath ns b w e) ↔ x.Accepts w

theorem path_inside {ns : List Node} (he : ∀ p q, Eps ns p q → q < ns.length) (hs : ∀ p c q, Stp ns p c q → q < ns.length)
    {ms p w q} (hp : p < ns.length) (h : NPath (appendNodes ns ms) p w q) : NPath ns p w q ∧ q < ns.length := by
  refine h.inside (P := fun a => a < ns.length) ?_ ?_ hp
  · intro a b ha h
    rcases eps_append.1 h with h | ⟨_, _, h1, _⟩
    · exact ⟨h, he _ _ h⟩
    · omega
  · intro a c b ha h
    rcases stp_append.1 h with h | ⟨_, _, h1, _⟩
    · exact ⟨h, hs _ _ _ h⟩
    · omega

theorem path_outside {ns ms : List Node} {p w q} (h : NPath (appendNodes ns ms) (ns.length + p) w q) :
    ∃ q', q = ns.length + q' ∧ NPath ms p w q' := by
  have := h.inside (P := fun a => ns.length ≤ a) (E' := CEps ns.length ms) (S' := CStp ns.length ms) ?_ ?_ (by omega)
  · exact copy_path_inv this.1
  · intro a b ha h
    rcases eps_append.1 h with h | h
    · have := eps_lt h; omega
    · exact ⟨h, by obtain ⟨_, _, _, _, _⟩ := h; omega⟩
  · intro a c b ha h
    rcases stp_append.1 h with h | h
    · have := stp_lt h; omega
    · exact ⟨h, by obtain ⟨_, _, _, _, _⟩ := h; omega⟩

theorem path_left {ns ms : List Node} {p w q} (h : NPath ns p w q) : NPath (appendNodes ns ms) p w q :=
  h.mono (fun _ _ h => eps_append.2 (Or.inl h)) (fun _ _ _ h => stp_append.2 (Or.inl h))

theorem path_right {ns ms : List Node} {p w q} (h : NPath ms p w q) :
    NPath (appendNodes ns ms) (ns.length + p) w (ns.length + q) :=
  (copy_path h).mono (fun _ _ h => eps_append.2 (Or.inr h)) (fun _ _ _ h => stp_append.2 (Or.inr h))

theorem allInv_step {done ns bs es h x} (hi : AllInv done ns bs es) (hx : build h = .ok x) (ho : h.ok = true) :
    AllInv (done ++ [h]) (appendNodes ns x.node) (OSet.insert (ns.length + x.b) bs) (es ++ [ns.length + x.e]) := by
  have wf := build_wf hx ho
  have hb := wf.b
  have he := wf.e
  refine ⟨?_, ?_, ?_, ?_, by simp [hi.len], ?_⟩
  · intro p q h
    rw [length_appendNodes]
    rcases eps_append.1 h with h | ⟨a, b, h1, h2, h3⟩
    · have := hi.eps _ _ h; omega
    · have := wf.eps _ _ h3; omega
  · intro p c q h
    rw [length_appendNodes]
    rcases stp_append.1 h with h | ⟨a, b, h1, h2, h3⟩
    · have := hi.stp _ _ _ h; omega
    · have := wf.stp _ _ _ h3; omega
  · intro b hb'
    rw [length_appendNodes]
    rcases OSet.mem_insert.1 hb' with rfl | h
    · omega
    · have := hi.bsLt _ h; omega
  · intro e he'
    rw [length_appendNodes]
    simp at he'
    rcases he' with h | rfl
    · have := hi.esLt _ h; omega
    · omega
  · intro i h' e hh' he'
    by_cases hlt : i < done.length
    · rw [List.getElem?_append_left hlt] at hh'
      rw [List.getElem?_append_left (by rw [hi.len]; exact hlt)] at he'
      obtain ⟨y, hy, hl⟩ := hi.lang i h' e hh' he'
      refine ⟨y, hy, fun w => ?_⟩
      rw [← hl w]
      have hee := hi.esLt e (List.mem_of_getElem? he')
      constructor
      · rintro ⟨b, hb', hp⟩
        rcases OSet.mem_insert.1 hb' with rfl | h
        · obtain ⟨q', h1, _⟩ := path_outside hp
          omega
        · exact ⟨b, h, (path_inside hi.eps hi.stp (hi.bsLt _ h) hp).1⟩
      · rintro ⟨b, hb', hp⟩
        exact ⟨b, OSet.mem_insert.2 (Or.inr hb'), path_left hp⟩
    · have hlen : i < (done ++ [h]).length := (List.getElem?_eq_some_iff.1 hh').1
      simp at hlen
      obtain rfl : i = done.length := by omega
      rw [List.getElem?_append_right (by omega)] at hh'
      rw [List.getElem?_append_right (by rw [hi.len]; omega)] at he'
      simp at hh'
      simp [hi.len] at he'
      subst hh'
      subst he'
      refine ⟨x, hx, fun w => ?_⟩
      constructor
      · rintro ⟨b, hb', hp⟩
        rcases OSet.mem_insert.1 hb' with rfl | h
        · obtain ⟨q', h1, h2⟩ := path_outside hp
          obtain rfl : x.e = q' := by omega
          exact h2
        · have := (path_inside hi.eps hi.stp (hi.bsLt _ h) hp).2
          omega
      · intro hp
        exact ⟨_, OSet.mem_insert.2 (Or.inl rfl), path_right hp⟩

theorem allInv_loop {hs done ns bs es r} (hi : AllInv done ns bs es) (hr : buildAllLoop hs (ns, bs, es) = .ok r)
    (ho : ∀ h ∈ hs, h.ok = true) : AllInv (done ++ hs) r.1 r.2.1 r.2.2 := by
  induction hs generalizing done ns bs es with
  | nil =>
    simp only [buildAllLoop, Except.ok.injEq] at hr
    subst hr
    simpa using hi
  | cons h t ih =>
    rw [buildAllLoop] at hr
    obtain ⟨x, hx, hr⟩ := bind_ok hr
    have := ih (allInv_step hi hx (ho h (by simp))) hr (fun h hh => ho h (List.mem_cons_of_mem _ hh))
    simpa using this

theorem allInv_start : AllInv [] [] [] [] := by
  refine ⟨?_, ?_, by simp, by simp, rfl, by simp⟩
  · rintro p q ⟨n, h, _⟩; simp at h
  · rintro p c q ⟨n, h, _⟩; simp at h

/-- A combined automaton is well formed. -/
structure TNFA.WF (t : TNFA) : Prop where
  eps : ∀ p q, Eps t.node p q → q < t.node.length
  stp : ∀ p c q, Stp t.node p c q → q < t.node.length
  b : t.b < t.node.length
  ends : ∀ e ∈ t.ends, e < t.node.length

theorem eps_snoc {ns : List Node} {n : Node} {p q} :
    Eps (ns ++ [n]) p q ↔ Eps ns p q ∨ (p = ns.length ∧ q ∈ n.eps) := by
  unfold Eps
  rw [List.getElem?_append]
  split
  · constructor
    · exact Or.inl
    · rintro (h | h)
      · exact h
      · omega
  · rename_i hl
    constructor
    · rintro ⟨m, h1, h2⟩
      have : p - ns.length < [n].length := (List.getElem?_eq_some_iff.1 h1).1
      simp at this
      have hp : p = ns.length := by omega
      simp [hp] at h1
      exact Or.inr ⟨hp, h1 ▸ h2⟩
    · rintro (⟨m, h1, h2⟩ | ⟨h1, h2⟩)
      · have := (List.getElem?_eq_some_iff.1 h1).1; omega
      · exact ⟨n, by simp [h1], h2⟩

theorem stp_snoc {ns : List Node} {es : List Nat} {p c q} :
    Stp (ns ++ [{ eps := es }]) p c q ↔ Stp ns p c q := by
  unfold Stp
  rw [List.getElem?_append]
  split
  · rfl
  · rename_i hl
    constructor
    · rintro ⟨m, h1, r, t, h2, _⟩
      have : p - ns.length < [({ eps := es } : Node)].length := (List.getElem?_eq_some_iff.1 h1).1
      simp at this
      have hp : p = ns.length := by omega
      simp [hp] at h1
      subst h1
      simp at h2
    · rintro ⟨m, h1, _⟩
      have := (List.getElem?_eq_some_iff.1 h1).1; omega

theorem buildAll_good {hs : List Hir} {t : TNFA} (ht : buildAll hs = .ok t) (ho : ∀ h ∈ hs, h.ok = true) :
    t.WF ∧ t.ends.length = hs.length ∧
      ∀ i h, hs[i]? = some h → ∃ x, build h = .ok x ∧ ∀ w, t.Accepts i w ↔ x.Accepts w := by
  unfold buildAll at ht
  obtain ⟨⟨ns, bs, es⟩, h1, h2⟩ := bind_ok ht
  cases h2
  have hi := allInv_loop allInv_start h1 ho
  simp only [List.nil_append] at hi
  refine ⟨⟨?_, ?_, by simp, ?_⟩, hi.len, ?_⟩
  · intro p q h
    simp only [List.length_append, List.length_cons, List.length_nil]
    rcases eps_snoc.1 h with h | ⟨_, h⟩
    · have := hi.eps _ _ h; omega
    · have := hi.bsLt _ h; omega
  · intro p c q h
    simp only [List.length_append, List.length_cons, List.length_nil]
    have := hi.stp _ _ _ (stp_snoc.1 h); omega
  · intro e he
    simp only [List.length_append, List.length_cons, List.length_nil]
    have := hi.esLt _ he; omega
  · intro i h hh
    have hil : i < es.length := by rw [hi.len]; exact (List.getElem?_eq_some_iff.1 hh).1
    obtain ⟨x, hx, hl⟩ := hi.lang i h es[i] hh (List.getElem?_eq_getElem hil)
    refine ⟨x, hx, fun w => ?_⟩
    rw [← hl w]
    have hei := hi.esLt es[i] (List.getElem_mem hil)
    have inner : ∀ {p w q}, p < ns.length → NPath (ns ++ [{ eps := bs }]) p w q → NPath ns p w q := by
      intro p w q hp h
      refine (h.inside (P := fun a => a < ns.length) ?_ ?_ hp).1
      · intro a b ha h
        rcases eps_snoc.1 h with h | ⟨h, _⟩
        · exact ⟨h, hi.eps _ _ h⟩
        · omega
      · intro a c b ha h
        have h := stp_snoc.1 h
        exact ⟨h, hi.stp _ _ _ h⟩
    constructor
    · rintro ⟨e, he, hp⟩
      simp only [List.getElem?_eq_getElem hil, Option.some.injEq] at he
      rw [he] at hei ⊢
      clear he
      generalize hb : (({ node := ns ++ [{ eps := bs }], b := ns.length, ends := es } : TNFA).b) = b0 at hp
      simp only at hb
      cases hp with
      | nil => omega
      | eps h1 h2 =>
        rcases eps_snoc.1 h1 with h | ⟨_, h⟩
        · have := eps_lt h; omega
        · exact ⟨_, h, inner (hi.bsLt _ h) h2⟩
      | step h1 _ =>
        have := stp_lt (stp_snoc.1 h1); omega
    · rintro ⟨b, hb, hp⟩
      refine ⟨es[i], List.getElem?_eq_getElem hil, .eps (eps_snoc.2 (Or.inr ⟨rfl, hb⟩)) ?_⟩
      exact hp.mono (fun _ _ h => eps_snoc.2 (Or.inl h)) (fun _ _ _ h => stp_snoc.2 h)

end Verif.Tok
