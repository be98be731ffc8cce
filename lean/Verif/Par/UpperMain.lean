import Verif.Par.UpperProof

/-!
# Error recovery takes at most exponential time: the number of busy rounds
-/

namespace Verif.Par

variable {N T E : Type} {p : Parser N T E} {rules : List (Rule N T E)} {idx : T → Nat} {input : List T} {start fresh : Nat}

theorem PSeg.last {st q} {ps : List (Piece N T)} {P : Piece N T} (h : PSeg p idx input st q (ps ++ [P])) :
    ∃ q' st', st = (q', P.ssym idx) :: st' := by
  generalize hw : ps ++ [P] = w at h
  cases h with
  | nil => simp at hw
  | push st q ps' q' P h1 h2 h3 =>
    have := (List.append_inj' hw rfl).2
    cases this
    exact ⟨_, _, rfl⟩

theorem PSeg.size {st q} {ps : List (Piece N T)} (h : PSeg p idx input st q ps) : st.length = ps.length := by
  induction h with
  | nil => rfl
  | push st q ps q' P _ _ _ ih => simp [ih]

theorem MachSim.states_length {c : Cfg N T} {m : Mach N T} (h : MachSim p rules idx input start fresh c m) :
    c.states.length = m.pieces.length + 1 := by
  simp [Cfg.states, h.seg.size]

theorem sstep_two {a : Term} {I I' : List Nat} (h : sstep p a I = some I') : 2 ≤ I'.length := by
  cases I with
  | nil => cases h
  | cons q L =>
    simp only [sstep] at h
    split at h
    · split at h
      · cases h
      · split at h
        · cases h
        · obtain ⟨s, hs, rfl⟩ := Option.map_eq_some_iff.1 h
          simp
    · cases h

theorem onReduce_top {c c' : Cfg N T} {r : Nat} (h : onReduce p c r = .more c') : c'.topNt = true := by
  unfold onReduce at h
  split at h
  · cases h
  rename_i rule hrule
  split at h
  · cases h
  simp only at h
  split at h
  · cases h
  split at h
  · cases h
  split at h
  · cases h
  · cases h; rfl

/-! ## Arithmetic -/

theorem ahead_insert {B L p : Nat} (hp : p ≤ L) : (B + 1) * (2 * B + 6) ^ (L + 1 - p) + aheadWt (2 * B + 6) B L p 0 + 1 ≤ aheadWt (2 * B + 6) B L p 1 := by
  have e1 : L + 1 - p = (L - p) + 1 := by omega
  have e2 : L + 2 - p = (L - p) + 1 + 1 := by omega
  have hx : 1 ≤ (2 * B + 6) ^ (L - p) := Nat.pow_pos (by omega)
  simp only [aheadWt, if_pos, if_neg (show (1 : Nat) ≠ 0 by decide)]
  rw [e1, e2, Nat.pow_succ _ (L - p + 1), Nat.pow_succ _ (L - p)]
  generalize (2 * B + 6) ^ (L - p) = x at *
  have hxA : x ≤ x * (2 * B + 6) := Nat.le_mul_of_pos_right _ (by omega)
  generalize x * (2 * B + 6) = y at *
  have e3 : y * (2 * B + 6) = (B + 1) * y + (B + 1) * y + 4 * y := by
    rw [Nat.mul_comm, ← Nat.add_mul, ← Nat.add_mul]
    congr 1
    omega
  have := Nat.mul_le_mul_left (B + 1) hxA
  omega

theorem ahead_zero {B L p b : Nat} (hp : p ≤ L) (hb : b ≤ 1) : aheadWt (2 * B + 6) B L p 0 ≤ aheadWt (2 * B + 6) B L p b := by
  rcases (by omega : b = 0 ∨ b = 1) with rfl | rfl
  · exact Nat.le_refl _
  · have := ahead_insert (B := B) hp
    omega

theorem ahead_next {B L p : Nat} (hp : p < L) : (2 * B + 6) ^ (L + 1 - p) + (B + 1) * (2 * B + 6) ^ (L - p) + aheadWt (2 * B + 6) B L (p + 1) 1 + 1 ≤
    aheadWt (2 * B + 6) B L p 0 := by
  simp only [aheadWt, if_pos, if_neg (show (1 : Nat) ≠ 0 by decide)]
  rw [show L + 2 - (p + 1) = L + 1 - p by omega]
  omega

theorem startOf_wt {A L S d : Nat} (l : List (Piece N T)) : startOf d l = d ∨ ∃ P ∈ l, A ^ (L + 1 - startOf d l) = P.wt A L S := by
  induction l with
  | nil => exact .inl rfl
  | cons P l ih =>
    cases P with
    | nt X v i => exact .inr ⟨_, List.mem_cons_self, rfl⟩
    | tok t i => exact .inr ⟨_, List.mem_cons_self, rfl⟩
    | err lo hi =>
      rcases ih with h | ⟨P, hP, h⟩
      · exact .inl h
      · exact .inr ⟨P, List.mem_cons_of_mem _ hP, h⟩

section
variable (hx : Ctx p rules start fresh)
  (hc : Calm0 rules ((gram rules start).aug fresh) rules.length start ⟨fresh, [.nt start]⟩)
  (hap : ∀ γ, ¬ PlaceAt ((gram rules start).aug fresh) rules.length (γ ++ [.tm .err]))

include hx hc hap in
/-- One round, as far as weights are concerned. -/
theorem round_wt {c c' : Cfg N T} {m : Mach N T} {b : Nat} (hsim : MachSim p rules idx input start fresh c m)
    (hi : Inv3 ((gram rules start).aug fresh) ⟨fresh, [.nt start]⟩ idx input b m) (hs : step idx p c = .more c') :
    ∃ m', MachSim p rules idx input start fresh c' m' ∧ m'.seen = (m.look input).seen ∧
    ((c'.topNt = true ∧ ∃ ps cs X v, m.pieces = ps ++ cs ∧ m'.pieces = ps ++ [.nt X v (startOf (m.look input).seen cs)] ∧ m'.pos = m.pos ∧
        Inv3 ((gram rules start).aug fresh) ⟨fresh, [.nt start]⟩ idx input 0 m') ∨
     (c'.topNt = false ∧ ∃ t, m.pos < input.length ∧ m'.pieces = m.pieces ++ [.tok t m.pos] ∧ m'.pos = m.pos + 1 ∧
        Inv3 ((gram rules start).aug fresh) ⟨fresh, [.nt start]⟩ idx input 1 m') ∨
     (c'.topNt = false ∧ b = 1 ∧ ∃ lo hi, m'.pieces = m.pieces ++ [.err lo hi] ∧ m'.pos = m.pos ∧
        Inv3 ((gram rules start).aug fresh) ⟨fresh, [.nt start]⟩ idx input 0 m') ∨
     (c'.topNt = false ∧ ∃ keep drop lo hi, m.pos < input.length ∧ m.pieces = keep ++ drop ∧ drop ≠ [] ∧ m'.pieces = keep ++ [.err lo hi] ∧
        m'.pos = min (startOf m.pos drop) m.pos + 1 ∧ Inv3 ((gram rules start).aug fresh) ⟨fresh, [.nt start]⟩ idx input 0 m')) := by
  obtain ⟨o, ho⟩ := hsim.progress hx
  have hsim' := hsim.step hx ho
  rw [hs] at hsim'
  cases o with
  | done x m' => exact absurd hsim' id
  | panic => exact absurd hsim' id
  | more m' =>
    have hsim' : MachSim p rules idx input start fresh c' m' := hsim'
    have htop : ∀ ps P, m'.pieces = ps ++ [P] → ∃ q st, c'.stack = (q, P.ssym idx) :: st := by
      intro ps P h
      have := hsim'.seg
      rw [h] at this
      exact this.last
    obtain ⟨h1, h2⟩ := hi.step hc hap ho
    refine ⟨m', hsim', h1, ?_⟩
    rcases h2 with ⟨ps, cs, X, v, k1, k2, k3⟩ | ⟨t, k1, k2, k3⟩ | ⟨k1, lo, hi', k2, k3⟩ | ⟨keep, drop, lo, hi', k1, k2, k3, k4, k5⟩
    · obtain ⟨q, st, hst⟩ := htop _ _ k2
      exact .inl ⟨by simp [Cfg.topNt, hst, Piece.ssym], ps, cs, X, v, k1, k2, k3⟩
    · obtain ⟨q, st, hst⟩ := htop _ _ k2
      exact .inr (.inl ⟨by simp [Cfg.topNt, hst, Piece.ssym], t, k1, k2, k3⟩)
    · obtain ⟨q, st, hst⟩ := htop _ _ k2
      exact .inr (.inr (.inl ⟨by simp [Cfg.topNt, hst, Piece.ssym], k1, lo, hi', k2, k3⟩))
    · obtain ⟨q, st, hst⟩ := htop _ _ k4
      exact .inr (.inr (.inr ⟨by simp [Cfg.topNt, hst, Piece.ssym], keep, drop, lo, hi', k1, k2, k3, k4, k5⟩))

variable (hg : ∀ r ∈ p.rules, ∀ l, ∃ v, r.gen l = .ok v)

theorem look_look (m : Mach N T) (m' : Mach N T) (h1 : m'.seen = (m.look input).seen) (h2 : m'.pos = m.pos) :
    (m'.look input).seen = (m.look input).seen := by
  simp only [Mach.look] at h1 ⊢
  rw [h1, h2]
  omega

include hx hc hap hg in
/-- Rounds that stay above `low`. -/
theorem quiet_rounds {A S u : Nat} {low : List (Piece N T)} {M : List Nat} (hM : M.length = low.length) {a : Term} {i : Nat}
    {bf : List (Term × Nat)} (hu : A ^ (input.length + 1 - S) ≤ u) {I' : List Nat} : ∀ (k : Nat) (I : List Nat) (c : Cfg N T) (m : Mach N T) (b : Nat)
    (high : List (Piece N T)), MachSim p rules idx input start fresh c m → Inv3 ((gram rules start).aug fresh) ⟨fresh, [.nt start]⟩ idx input b m →
    (∀ n, run idx p n c ≠ .panic) → (fill idx c).buffer = (a, i) :: bf → c.states = I ++ M → m.pieces = low ++ high → (m.look input).seen = S →
    (∀ P ∈ high, P.wt A input.length S ≤ u) → siter p a k I = some I' →
    ∃ c' m' b' high', run idx p k c = .more c' ∧ busy idx p k c = 0 ∧ MachSim p rules idx input start fresh c' m' ∧
      Inv3 ((gram rules start).aug fresh) ⟨fresh, [.nt start]⟩ idx input b' m' ∧ b' ≤ b ∧ (fill idx c').buffer = (a, i) :: bf ∧ c'.states = I' ++ M ∧
      m'.pieces = low ++ high' ∧ (m'.look input).seen = S ∧ m'.pos = m.pos ∧ (∀ P ∈ high', P.wt A input.length S ≤ u) ∧
      heap A input.length S high' ≤ heap A input.length S high + k * A ^ (input.length + 1 - S) := by
  intro k
  induction k with
  | zero =>
    intro I c m b high h1 h2 h3 h4 h5 h6 h7 h8 h9
    cases h9
    exact ⟨c, m, b, high, rfl, rfl, h1, h2, Nat.le_refl _, h4, h5, h6, h7, rfl, h8, by omega⟩
  | succ k ih =>
    intro I c m b high h1 h2 h3 h4 h5 h6 h7 h8 h9
    simp only [siter] at h9
    obtain ⟨I1, h10, h11⟩ := Option.bind_eq_some_iff.1 h9
    have hone : siter p a 1 (fill idx c).states = some (I1 ++ M) := by
      rw [states_fill, h5]
      simp [siter, sstep_append M h10]
    have hnpf : ∀ n, run idx p n (fill idx c) ≠ .panic := by
      intro n hn
      cases n with
      | zero => cases hn
      | succ n => rw [run_fill] at hn; exact h3 _ hn
    obtain ⟨c1, k1, k2, k3, _⟩ := siter_real (idx := idx) hg hnpf h4 hone
    rw [run_fill] at k1
    have hs : step idx p c = .more c1 := by
      simp only [run] at k1
      cases hs : step idx p c <;> rw [hs] at k1 <;> simp_all
    obtain ⟨m1, l1, l2, l3⟩ := round_wt hx hc hap h1 h2 hs
    have hlen1 := l1.states_length
    rw [k2, List.length_append] at hlen1
    have h2I := sstep_two h10
    have htop : c1.topNt = true := by
      have hh : sstep p a (fill idx c).states = some (I1 ++ M) := by simpa [siter] using hone
      have hr : ∃ r, p.tab.act (fill idx c).state a = some (.reduce r) := by
        simp only [Cfg.states, sstep] at hh
        split at hh
        · exact ⟨_, by assumption⟩
        · cases hh
      obtain ⟨r, hr⟩ := hr
      rw [← step_fill'] at hs
      rcases step_states h4 hs with ⟨s, q1, _, _⟩ | ⟨r', q1, q2⟩ | ⟨s, q, L, q1, q2, q3, q4⟩
      · rw [hr] at q1; cases q1
      · exact onReduce_top q2
      · have hst : step idx p (fill idx c) = onReduce p (fill idx c) r := by
          unfold step
          rw [fill_id h4]
          simp only [h4]
          simp only [Tables.act] at hr
          obtain ⟨acts, ha1, ha2⟩ := Option.bind_eq_some_iff.1 hr
          rw [ha1]
          simp only [ha2]
        rw [hst] at hs
        exact onReduce_top hs
    rcases l3 with ⟨_, ps, cs, X, v, n1, n2, n3, n4⟩ | ⟨n0, _⟩ | ⟨n0, _⟩ | ⟨n0, _⟩
    · rw [n2, List.length_append, List.length_singleton] at hlen1
      rw [h7] at n2
      have hsplit : ∃ hs, ps = low ++ hs ∧ high = hs ++ cs := by
        rcases List.append_eq_append_iff.1 (h6.symm.trans n1) with ⟨l, q1, q2⟩ | ⟨l, q1, q2⟩
        · exact ⟨l, q1, q2⟩
        · have : l = [] := by
            have := congrArg List.length q1
            rw [List.length_append] at this
            exact List.length_eq_zero_iff.1 (by omega)
          subst this
          exact ⟨[], by simpa using q1.symm, by simpa using q2.symm⟩
      obtain ⟨hs', rfl, rfl⟩ := hsplit
      have hS : m1.seen = S := by rw [l2, h7]
      have hbf : (fill idx c1).buffer = (a, i) :: bf := by
        rw [fill_id (k3.trans h4)]; exact k3.trans h4
      have hwt : A ^ (input.length + 1 - startOf S cs) ≤ u := by
        rcases wt_startOf (A := A) (L := input.length) (S := S) cs with q | ⟨P, hP, q⟩
        · rw [q]; exact hu
        · rw [q]; exact h8 P (List.mem_append_right _ hP)
      obtain ⟨c', m', b', high', r1, r2, r3, r4, r5, r6, r7, r8, r9, r10, r11, r12⟩ := ih I1 c1 m1 0 (hs' ++ [.nt X v (startOf S cs)]) l1 n4
        (fun n hn => h3 (n + 1) (by simpa only [run, hs] using hn)) hbf k2 (by rw [n2]; simp) (by rw [look_look m m1 l2 n3]; exact h7)
        (by
          intro P hP
          rcases List.mem_append.1 hP with hP | hP
          · exact h8 P (List.mem_append_left _ hP)
          · cases List.mem_singleton.1 hP; exact hwt) h11
      refine ⟨c', m', b', high', by simpa only [run, hs] using r1, ?_, r3, r4, by omega, r6, r7, r8, r9, by rw [r10, n3], r11, ?_⟩
      · simp only [busy, hs, htop, r2]
        rfl
      · refine Nat.le_trans r12 ?_
        rw [heap_append, heap_append, heap_one, Nat.succ_mul]
        have : Piece.wt A input.length S (.nt X v (startOf S cs) : Piece N T) ≤ heap A input.length S cs + A ^ (input.length + 1 - S) := by
          simp only [Piece.wt]
          rcases wt_startOf (A := A) (L := input.length) (S := S) cs with q | ⟨P, hP, q⟩
          · omega
          · rw [q]
            have := wt_le_heap (A := A) (L := input.length) (S := S) hP
            omega
        omega
    · rw [htop] at n0; cases n0
    · rw [htop] at n0; cases n0
    · rw [htop] at n0; cases n0

variable {B : Nat}
  (hB : ∀ (I : List Nat) (a : Term), I.length ≤ 2 → (∀ q ∈ I, q ∈ allStates p) → (∃ b, siter p a b I = none) → siter p a B I = none)
  (hnp : ∀ n, run idx p n (Cfg.init p input) ≠ .panic) (hend : ∃ m, ∀ c', run idx p m (Cfg.init p input) ≠ .more c')

include hx hc hap hg hB hnp hend

/-- After a bounded number of reductions there is a reduction that makes the stack lighter, or something is pushed. -/
theorem phase_wt {A S : Nat} (hA : 1 ≤ A) {n : Nat} {c : Cfg N T} (hr : run idx p n (Cfg.init p input) = .more c) {m : Mach N T} {b : Nat}
    (hsim : MachSim p rules idx input start fresh c m) (hi : Inv3 ((gram rules start).aug fresh) ⟨fresh, [.nt start]⟩ idx input b m)
    (hS : (m.look input).seen = S) :
    ∃ k e me be, run idx p k c = .more e ∧ busy idx p k c = 0 ∧ MachSim p rules idx input start fresh e me ∧
      Inv3 ((gram rules start).aug fresh) ⟨fresh, [.nt start]⟩ idx input be me ∧ be ≤ b ∧ me.pos = m.pos ∧ (me.look input).seen = S ∧
      heap A input.length S me.pieces ≤ heap A input.length S m.pieces + B * A ^ (input.length + 1 - S) ∧
      ∀ c', step idx p e = .more c' → c'.topNt = false ∨ (c'.topNt = true ∧ ∃ m', MachSim p rules idx input start fresh c' m' ∧
        Inv3 ((gram rules start).aug fresh) ⟨fresh, [.nt start]⟩ idx input 0 m' ∧ m'.pos = m.pos ∧ m'.seen = S ∧
        heap A input.length S m'.pieces ≤ heap A input.length S m.pieces) := by
  have hrun : ∀ k, run idx p (n + k) (Cfg.init p input) = run idx p k c := by intro k; rw [run_add, hr]
  have hnpc : ∀ k, run idx p k c ≠ .panic := fun k hk => hnp (n + k) (by rw [hrun]; exact hk)
  have hmem := all_states_mem n hr
  have hsplit : c.states.take 2 ++ c.states.drop 2 = c.states := List.take_append_drop 2 _
  have hlen := hsim.states_length
  obtain ⟨low, top, u, e1, e2, e3, e4, e5⟩ : ∃ low top u, m.pieces = low ++ top ∧ (c.states.drop 2).length = low.length ∧
      (∀ P ∈ top, P.wt A input.length S ≤ u) ∧ A ^ (input.length + 1 - S) ≤ u ∧ (low ≠ [] → u ≤ heap A input.length S top) := by
    rcases List.eq_nil_or_concat m.pieces with h | ⟨q, P, h⟩
    · refine ⟨[], [], _, h, ?_, by simp, Nat.le_refl _, fun h => absurd rfl h⟩
      rw [h] at hlen
      simp at hlen ⊢
      omega
    · rw [List.concat_eq_append] at h
      refine ⟨q, [P], P.wt A input.length S, h, ?_, ?_, ?_, fun _ => by rw [heap_one]; exact Nat.le_refl _⟩
      · rw [h] at hlen
        simp at hlen ⊢
        omega
      · intro Q hQ
        cases List.mem_singleton.1 hQ; exact Nat.le_refl _
      · exact wt_ge hA ((hi.upto P (by rw [h]; simp)).mono (by rw [← hS]; exact look_seen m))
  have hfr := fill_front (idx := idx) c
  cases hb : (fill idx c).buffer with
  | nil => exact absurd hb hfr
  | cons x bf =>
    obtain ⟨a, i⟩ := x
    have hstop : ∃ k, siter p a k (c.states.take 2) = none := by
      apply Classical.byContradiction
      intro hall
      obtain ⟨m0, hm⟩ := hend
      cases hL : siter p a (m0 + 1) (c.states.take 2) with
      | none => exact hall ⟨_, hL⟩
      | some L =>
        obtain ⟨c', m', b', high', r1, _⟩ := quiet_rounds hx hc hap hg (A := A) (M := c.states.drop 2) e2 e4 (m0 + 1) _ c m b top hsim hi hnpc hb
          hsplit.symm e1 hS e3 hL
        rw [← hrun] at r1
        rw [show n + (m0 + 1) = m0 + (n + 1) by omega, run_add] at r1
        cases h5 : run idx p m0 (Cfg.init p input) with
        | more c2 => exact hm c2 h5
        | done r c2 => rw [h5] at r1; cases r1
        | panic => rw [h5] at r1; cases r1
    have hnone := hB (c.states.take 2) a (by simp; omega) (fun q hq => hmem q (List.mem_of_mem_take hq)) hstop
    obtain ⟨k, I, hk, hI, hstuck⟩ := siter_last hnone
    obtain ⟨e, me, be, high, r1, r2, r3, r4, r5, r6, r7, r8, r9, r10, r11, r12⟩ := quiet_rounds hx hc hap hg (A := A) (M := c.states.drop 2) e2 e4 k _ c m b
      top hsim hi hnpc hb hsplit.symm e1 hS e3 hI
    refine ⟨k, e, me, be, r1, r2, r3, r4, r5, r10, r9, ?_, ?_⟩
    · rw [r8, e1, heap_append, heap_append]
      have : k * A ^ (input.length + 1 - S) ≤ B * A ^ (input.length + 1 - S) := Nat.mul_le_mul_right _ (by omega)
      omega
    · intro c' hs
      obtain ⟨m', l1, l2, l3⟩ := round_wt hx hc hap r3 r4 hs
      rw [r9] at l2 l3
      rcases l3 with ⟨n0, ps, cs, X, v, n1, n2, n3, n4⟩ | ⟨n0, _⟩ | ⟨n0, _⟩ | ⟨n0, _⟩
      · refine .inr ⟨n0, m', l1, n4, by rw [n3, r10], l2, ?_⟩
        have hlow : ps.length + 1 ≤ low.length := by
          rw [← step_fill'] at hs
          have hlen1 := l1.states_length
          rw [n2, List.length_append, List.length_singleton] at hlen1
          rcases step_states r6 hs with ⟨s, q1, _, q2⟩ | ⟨r, q1, q2⟩ | ⟨s, q, L, q1, q2, q3, q4⟩
          · rw [n0] at q2; cases q2
          · obtain ⟨rule, s, q', L', m1, m2, m3, m4, m5, m6⟩ := onReduce_more q2
            have hIne : I ≠ [] := by
              intro h0
              subst h0
              exact siter_ne (L := c.states.take 2) (by simp [Cfg.states]) hI rfl
            rw [states_fill, r7] at m2
            have hge : I.length ≤ rule.rhs.length := by
              apply Classical.byContradiction
              intro hlt
              rw [List.drop_append_of_le_length (by omega)] at m2
              cases hI2 : I.drop rule.rhs.length with
              | nil =>
                have := congrArg List.length hI2
                simp at this
                omega
              | cons q1' L1 =>
                rw [hI2] at m2
                cases m2
                cases I with
                | nil => exact hIne rfl
                | cons q0 I =>
                  have hq0 : (fill idx e).state = q0 := by
                    have := r7
                    rw [← states_fill (idx := idx)] at this
                    simp only [Cfg.states, List.cons_append, List.cons.injEq] at this
                    exact this.1
                  rw [hq0] at q1
                  simp only [sstep, q1, m1, hI2, m3] at hstuck
                  cases hstuck
            have h6 := congrArg List.length m2
            rw [m4] at hlen1
            simp only [List.length_drop, List.length_append, List.length_cons] at h6 hlen1 e2
            omega
          · rw [n0] at q4; cases q4
        have hsp : ∃ l, low = ps ++ l ∧ cs = l ++ high := by
          rcases List.append_eq_append_iff.1 (r8.symm.trans n1) with ⟨l, q1, q2⟩ | ⟨l, q1, q2⟩
          · exfalso
            have := congrArg List.length q1
            rw [List.length_append] at this
            omega
          · exact ⟨l, q1, q2⟩
        obtain ⟨l, rfl, rfl⟩ := hsp
        have hu := e5 (by
          intro h0
          rw [h0] at hlow
          simp at hlow)
        rw [n2, e1, heap_append, heap_append, heap_append, heap_one]
        simp only [Piece.wt]
        rcases wt_startOf (A := A) (L := input.length) (S := S) (l ++ high) with q | ⟨P, hP, q⟩
        · omega
        · rw [q]
          rcases List.mem_append.1 hP with hP | hP
          · have := wt_le_heap (A := A) (L := input.length) (S := S) hP
            omega
          · have := r11 P hP
            omega
      · exact .inl n0
      · exact .inl n0
      · exact .inl n0

/-- The number of busy rounds. -/
theorem busy_exp (M : Nat) : ∀ (n : Nat) (c c' : Cfg N T) (m : Mach N T) (b : Nat), run idx p n (Cfg.init p input) = .more c → run idx p M c = .more c' →
    MachSim p rules idx input start fresh c m → Inv3 ((gram rules start).aug fresh) ⟨fresh, [.nt start]⟩ idx input b m →
    busy idx p M c ≤ heap (2 * B + 6) input.length m.seen m.pieces + aheadWt (2 * B + 6) B input.length m.pos b := by
  induction M using Nat.strongRecOn with
  | _ M ih =>
    intro n c c' m b hr hM hsim hi
    have hA : 1 ≤ 2 * B + 6 := by omega
    obtain ⟨k, e, me, be, k1, k2, k3, k4, k5, k6, k7, k8, k9⟩ := phase_wt hx hc hap hg hB hnp hend hA hr hsim hi rfl
    have hseen := heap_seen (L := input.length) hA (look_seen (input := input) m) m.pieces
    have hpos := hi.pos
    by_cases hlt : M ≤ k
    · obtain ⟨j, rfl⟩ : ∃ j, k = M + j := ⟨k - M, by omega⟩
      rw [busy_add M j hM] at k2
      omega
    · obtain ⟨j, rfl⟩ : ∃ j, M = k + (j + 1) := ⟨M - k - 1, by omega⟩
      rw [run_add, k1] at hM
      simp only [run] at hM
      rw [busy_add k (j + 1) k1, k2, Nat.zero_add]
      simp only [busy]
      cases hs : step idx p e with
      | panic => rw [hs] at hM; cases hM
      | done x c1 => rw [hs] at hM; cases hM
      | more c1 =>
        rw [hs] at hM
        simp only at hM ⊢
        have hr1 : run idx p (n + (k + 1)) (Cfg.init p input) = .more c1 := by
          rw [run_add, hr]
          simp only
          rw [run_add, k1]
          simp only [run, hs]
        have hIH := fun m1 b1 h1 h2 => ih j (by omega) (n + (k + 1)) c1 c' m1 b1 hr1 hM h1 h2
        have hmono := ahead_zero (B := B) (b := b) hpos hi.flag
        generalize hS : (m.look input).seen = S at *
        have hpS : m.pos ≤ S := by
          have := hsim.ple
          rw [← hsim.seen] at this
          have := look_seen (input := input) m
          omega
        rcases k9 c1 hs with h0 | ⟨h0, m1, l1, l2, l3, l4, l5⟩
        · obtain ⟨m1, l1, l2, l3⟩ := round_wt hx hc hap k3 k4 hs
          rw [k7] at l2
          have hpe : me.pos < input.length → m.pos + 1 ≤ S := by
            intro h
            rw [← hS]
            exact look_seen_pos (by omega)
          rw [k6] at l3 hpe
          rw [h0]
          rcases l3 with ⟨n0, _⟩ | ⟨_, t, n1, n2, n3, n4⟩ | ⟨_, n1, lo, hi', n2, n3, n4⟩ | ⟨_, keep, drop, lo, hi', n1, n2, n3, n4, n5, n6⟩
          · rw [h0] at n0; cases n0
          · have h1 := hIH m1 1 l1 n4
            rw [l2, n2, n3, heap_append, heap_one] at h1
            have h2 := ahead_next (B := B) n1
            have h3 : (2 * B + 6) ^ (input.length + 1 - S) ≤ (2 * B + 6) ^ (input.length - m.pos) := Nat.pow_le_pow_right hA (by have := hpe n1; omega)
            have h4 := Nat.mul_le_mul_left B h3
            have h5 : (B + 1) * (2 * B + 6) ^ (input.length - m.pos) = B * (2 * B + 6) ^ (input.length - m.pos) + (2 * B + 6) ^ (input.length - m.pos) := Nat.succ_mul _ _
            simp only [Piece.wt] at h1
            simp only [Bool.false_eq_true, if_false]
            omega
          · have hb : b = 1 := by have := hi.flag; omega
            subst hb
            have h1 := hIH m1 0 l1 n4
            rw [l2, n2, n3, heap_append, heap_one] at h1
            have h2 := ahead_insert (B := B) hpos
            have h3 : (2 * B + 6) ^ (input.length + 1 - S) ≤ (2 * B + 6) ^ (input.length + 1 - m.pos) := pow_anti hA hpS
            have h4 := Nat.mul_le_mul_left (B + 1) h3
            rw [Nat.succ_mul] at h4
            simp only [Piece.wt] at h1
            simp only [Bool.false_eq_true, if_false]
            omega
          · have h1 := hIH m1 0 l1 n6
            rw [l2, n4, n5, heap_append, heap_one] at h1
            rw [n2, heap_append] at k8
            simp only [Piece.wt] at h1
            simp only [Bool.false_eq_true, if_false]
            have hS1 := hpe n1
            have hq : min (startOf m.pos drop) m.pos + 1 ≤ input.length := by omega
            have h2 := ahead_insert (B := B) hq
            have h3 : (2 * B + 6) ^ (input.length + 1 - S) ≤ (2 * B + 6) ^ (input.length + 1 - (min (startOf m.pos drop) m.pos + 1)) := pow_anti hA (by omega)
            have h4 := Nat.mul_le_mul_left (B + 1) h3
            rw [Nat.succ_mul] at h4
            have h5 : aheadWt (2 * B + 6) B input.length (min (startOf m.pos drop) m.pos + 1) 1 = (2 * B + 6) ^ (input.length + 1 - min (startOf m.pos drop) m.pos) := by
              simp only [aheadWt, if_neg (show (1 : Nat) ≠ 0 by decide)]
              congr 1
              omega
            by_cases hlt' : startOf m.pos drop < m.pos
            · rcases startOf_wt (A := 2 * B + 6) (L := input.length) (S := S) (d := m.pos) drop with h6 | ⟨P, hP, h6⟩
              · omega
              · have h7 := wt_le_heap (A := 2 * B + 6) (L := input.length) (S := S) hP
                rw [← h6] at h7
                rw [Nat.min_eq_left (by omega)] at h1 h2 h3 h4 h5
                omega
            · rw [Nat.min_eq_right (by omega)] at h1 h2 h3 h4 h5
              have h6 := ahead_next (B := B) n1
              omega
        · have h1 := hIH m1 0 l1 l2
          rw [l4, l3] at h1
          rw [h0]
          simp only [if_true]
          omega

end

end Verif.Par
