import Verif.Par.GramProof
import Verif.Par.Residue

/-!
# Repeating parts of long sentences (specification and lemmas)
-/

namespace Verif.Par

/-- `u` written `i` times. -/
def times (u : List T) (i : Nat) : List T := (List.replicate i u).flatten

/-- The terminals `w` derived from `us`, with the number of rules used. -/
inductive Sized (R : List PRule) : Nat → List Sym → List Term → Prop
  | nil : Sized R 0 [] []
  | tm (t n us w) : Sized R n us w → Sized R n (.tm t :: us) (t :: w)
  | nt (r n m us w w') : r ∈ R → Sized R n r.rhs w → Sized R m us w' → Sized R (n + m + 1) (.nt r.lhs :: us) (w ++ w')

/-- The terminals `w` derived from `us` so that no non-terminal occurs below itself or is in `anc`. -/
inductive Spare (R : List PRule) : List Nat → List Sym → List Term → Prop
  | nil (anc) : Spare R anc [] []
  | tm (anc t us w) : Spare R anc us w → Spare R anc (.tm t :: us) (t :: w)
  | nt (anc r us w w') : r ∈ R → r.lhs ∉ anc → Spare R (r.lhs :: anc) r.rhs w → Spare R anc us w' → Spare R anc (.nt r.lhs :: us) (w ++ w')

variable {R : List PRule}

theorem Sized.gen {n us w} (h : Sized R n us w) : Gen R us (tms w) := by
  induction h with
  | nil => exact .nil
  | tm t n us w _ ih => exact .keep _ _ _ ih
  | nt r n m us w w' hr _ _ ih ih' =>
    have := Gen.expand r us _ _ hr ih ih'
    simpa [tms] using this

theorem gen_sized {us w'} (h : Gen R us w') : ∀ w, w' = tms w → ∃ n, Sized R n us w := by
  induction h with
  | nil =>
    intro w hw
    cases w with
    | nil => exact ⟨0, .nil⟩
    | cons => cases hw
  | keep X l w _ ih =>
    intro w1 hw
    cases w1 with
    | nil => cases hw
    | cons t w1 =>
      simp only [tms, List.map_cons, List.cons.injEq] at hw
      obtain ⟨rfl, hw⟩ := hw
      obtain ⟨n, h⟩ := ih w1 hw
      exact ⟨n, .tm _ _ _ _ h⟩
  | expand r l u v hr _ _ ih ih' =>
    intro w hw
    obtain ⟨a, b, rfl, h2, h3⟩ := List.map_eq_append_iff.1 hw.symm
    obtain ⟨n, h⟩ := ih a h2.symm
    obtain ⟨m, h'⟩ := ih' b h3.symm
    exact ⟨_, .nt _ _ _ _ _ _ hr h h'⟩

/-- A part of `w`, derived from `us`, can be repeated. -/
def Loops (R : List PRule) (us : List Sym) (w : List Term) : Prop :=
  ∃ n u v x y z, w = u ++ v ++ x ++ y ++ z ∧ v ++ y ≠ [] ∧ Gen R us (tms u ++ .nt n :: tms z) ∧ Gen R [.nt n] (tms v ++ .nt n :: tms y) ∧
    Gen R [.nt n] (tms x)

theorem Loops.left {us us' : List Sym} {w w' : List Term} (h : Gen R us (tms w)) (h' : Loops R us' w') : Loops R (us ++ us') (w ++ w') := by
  obtain ⟨n, u, v, x, y, z, rfl, h1, h2, h3, h4⟩ := h'
  refine ⟨n, w ++ u, v, x, y, z, by simp, h1, ?_, h3, h4⟩
  have := h.append h2
  simpa [tms] using this

theorem Loops.right {us us' : List Sym} {w w' : List Term} (h' : Loops R us w) (h : Gen R us' (tms w')) : Loops R (us ++ us') (w ++ w') := by
  obtain ⟨n, u, v, x, y, z, rfl, h1, h2, h3, h4⟩ := h'
  refine ⟨n, u, v, x, y, z ++ w', by simp, h1, ?_, h3, h4⟩
  have := h2.append h
  simpa [tms] using this

theorem Loops.trans {us us' : List Sym} {w : List Term} (h : Gen R us us') (h' : Loops R us' w) : Loops R us w := by
  obtain ⟨n, u, v, x, y, z, h0, h1, h2, h3, h4⟩ := h'
  exact ⟨n, u, v, x, y, z, h0, h1, h.trans h2, h3, h4⟩

theorem Loops.pump {us : List Sym} {w : List Term} (h : Loops R us w) :
    ∃ u v x y z, w = u ++ v ++ x ++ y ++ z ∧ v ++ y ≠ [] ∧ ∀ i, Gen R us (tms (u ++ times v i ++ x ++ times y i ++ z)) := by
  obtain ⟨n, u, v, x, y, z, h0, h1, h2, h3, h4⟩ := h
  refine ⟨u, v, x, y, z, h0, h1, fun i => ?_⟩
  have key : ∀ i, Gen R [.nt n] (tms (times v i ++ x ++ times y i)) := by
    intro i
    induction i with
    | zero => simpa [times] using h4
    | succ i ih =>
      have := h3.trans ((Gen.refl (tms v)).append (ih.append (Gen.refl (tms y))))
      have e : times y (i + 1) = times y i ++ y := by simp [times, List.replicate_succ']
      rw [e]
      simpa [times, List.replicate_succ, tms] using this
  have := h2.trans ((Gen.refl (tms u)).append ((key i).append (Gen.refl (tms z))))
  simpa [tms] using this

theorem spare_or (N : Nat) : ∀ n, n ≤ N → ∀ us w, Sized R n us w → ∀ anc, Loops R us w ∨ Spare R anc us w ∨
    ∃ b ∈ anc, ∃ p x q m, m ≤ n ∧ w = p ++ x ++ q ∧ Gen R us (tms p ++ .nt b :: tms q) ∧ Sized R m [.nt b] x := by
  induction N with
  | zero =>
    intro n hn us w h anc
    right; left
    have key : ∀ {n us w}, Sized R n us w → n = 0 → Spare R anc us w := by
      intro n us w h
      induction h with
      | nil => exact fun _ => .nil _
      | tm t n us w _ ih => exact fun h => .tm _ _ _ _ (ih h)
      | nt => intro h; omega
    exact key h (by omega)
  | succ N ih =>
    intro n hn us w h anc
    induction h with
    | nil => exact Or.inr (Or.inl (.nil _))
    | tm t n us w h ih' =>
      rcases ih' hn with h' | h' | ⟨b, hb, p, x, q, m, h1, rfl, h2, h3⟩
      · exact Or.inl (h'.left (us := [.tm t]) (w := [t]) (.refl _))
      · exact Or.inr (Or.inl (.tm _ _ _ _ h'))
      · exact Or.inr (Or.inr ⟨b, hb, t :: p, x, q, m, h1, by simp, .keep _ _ _ h2, h3⟩)
    | nt r n m us w w' hr h h' _ ih' =>
      have hw : Gen R [.nt r.lhs] (tms w) := (Gen.rule hr).trans h.gen
      have hw' := h'.gen
      have hone : Sized R (n + 1) [.nt r.lhs] w := by
        have := Sized.nt r n 0 [] w [] hr h .nil
        simpa using this
      -- the part below the first symbol
      have hfirst : Loops R [.nt r.lhs] w ∨ (r.lhs ∉ anc ∧ ∃ r' ∈ R, r'.lhs = r.lhs ∧ Spare R (r.lhs :: anc) r'.rhs w) ∨
          ∃ b ∈ anc, ∃ p x q k, k ≤ n + m + 1 ∧ w = p ++ x ++ q ∧ Gen R [.nt r.lhs] (tms p ++ .nt b :: tms q) ∧ Sized R k [.nt b] x := by
        by_cases ha : r.lhs ∈ anc
        · exact Or.inr (Or.inr ⟨r.lhs, ha, [], w, [], n + 1, by omega, by simp, .refl _, hone⟩)
        · rcases ih n (by omega) _ _ h (r.lhs :: anc) with k | k | ⟨b, hb, p, x, q, k, k1, rfl, k2, k3⟩
          · exact Or.inl (k.trans (Gen.rule hr))
          · exact Or.inr (Or.inl ⟨ha, r, hr, rfl, k⟩)
          · rcases List.mem_cons.1 hb with rfl | hb
            · by_cases hpq : p ++ q = []
              · obtain ⟨rfl, rfl⟩ := List.append_eq_nil_iff.1 hpq
                simp only [List.nil_append, List.append_nil]
                rcases ih k (by omega) _ _ k3 anc with j | j | ⟨b, hb, p, x', q, k', j1, j2, j3, j4⟩
                · exact Or.inl j
                · have key : ∀ {us' : List Sym}, Spare R anc us' x → us' = [.nt r.lhs] →
                      r.lhs ∉ anc ∧ ∃ r' ∈ R, r'.lhs = r.lhs ∧ Spare R (r.lhs :: anc) r'.rhs x := by
                    intro us' j hu
                    cases j with
                    | nil => cases hu
                    | tm => cases hu
                    | nt _ r' us2 w1 w2 i1 i2 i3 i4 =>
                      simp only [List.cons.injEq, Sym.nt.injEq] at hu
                      obtain ⟨hu, rfl⟩ := hu
                      cases i4
                      rw [hu] at i2 i3
                      exact ⟨i2, r', i1, hu, by simpa using i3⟩
                  exact Or.inr (Or.inl (key j rfl))
                · exact Or.inr (Or.inr ⟨b, hb, p, x', q, k', by omega, j2, j3, j4⟩)
              · exact Or.inl ⟨r.lhs, [], p, x, q, [], by simp, hpq, .refl _, (Gen.rule hr).trans k2, k3.gen⟩
            · exact Or.inr (Or.inr ⟨b, hb, p, x, q, k, by omega, rfl, (Gen.rule hr).trans k2, k3⟩)
      rcases hfirst with k | ⟨ha, r', hr', he, k⟩ | ⟨b, hb, p, x, q, k, k1, rfl, k2, k3⟩
      · exact Or.inl (k.right hw')
      · rcases ih' (by omega) with j | j | ⟨b, hb, p, x, q, k', j1, rfl, j2, j3⟩
        · exact Or.inl (j.left (us := [.nt r.lhs]) hw)
        · right; left
          rw [← he] at ha k ⊢
          exact .nt _ _ _ _ _ hr' ha k j
        · refine Or.inr (Or.inr ⟨b, hb, w ++ p, x, q, k', by omega, by simp, ?_, j3⟩)
          have := hw.append j2
          simpa [tms] using this
      · refine Or.inr (Or.inr ⟨b, hb, p, x, q ++ w', k, k1, by simp, ?_, k3⟩)
        have := k2.append hw'
        simpa [tms] using this

/-- The non-terminals with rules. -/
def heads (R : List PRule) : List Nat := (R.map PRule.lhs).eraseDups

theorem Spare.length {anc us w} (h : Spare R anc us w) (k : Nat) (hk : 1 ≤ k) (hR : ∀ r ∈ R, r.rhs.length ≤ k) (ha : anc.Nodup)
    (hs : ∀ a ∈ anc, a ∈ heads R) : w.length ≤ us.length * k ^ ((heads R).length - anc.length) := by
  induction h with
  | nil => simp
  | tm anc t us w _ ih =>
    have := ih ha hs
    have h1 : 1 ≤ k ^ ((heads R).length - anc.length) := Nat.pow_pos hk
    simp only [List.length_cons, Nat.add_mul]
    omega
  | nt anc r us w w' hr hn _ _ ih ih' =>
    have hin : r.lhs ∈ heads R := by
      unfold heads
      rw [List.mem_eraseDups]
      exact List.mem_map_of_mem hr
    have hnd : (r.lhs :: anc).Nodup := List.nodup_cons.2 ⟨hn, ha⟩
    have hsub : ∀ a ∈ r.lhs :: anc, a ∈ heads R := by
      intro a h
      rcases List.mem_cons.1 h with rfl | h
      · exact hin
      · exact hs a h
    have hlen := length_le_of_nodup_subset hnd hsub
    have h1 := ih hnd hsub
    have h2 := ih' ha hs
    simp only [List.length_cons] at h1 hlen
    have e : (heads R).length - anc.length = ((heads R).length - (anc.length + 1)) + 1 := by omega
    have h3 : r.rhs.length * k ^ ((heads R).length - (anc.length + 1)) ≤ k ^ ((heads R).length - anc.length) := by
      rw [e, Nat.pow_succ, Nat.mul_comm]
      exact Nat.mul_le_mul_left _ (hR r hr)
    simp only [List.length_cons, List.length_append, Nat.add_mul]
    omega

theorem long_loops {n : Nat} {w : List Term} (k : Nat) (hk : 1 ≤ k) (hR : ∀ r ∈ R, r.rhs.length ≤ k) (h : Gen R [.nt n] (tms w))
    (hl : k ^ (heads R).length < w.length) : Loops R [.nt n] w := by
  obtain ⟨m, hm⟩ := gen_sized h w rfl
  rcases spare_or m m (Nat.le_refl _) _ _ hm [] with h | h | ⟨b, hb, _⟩
  · exact h
  · have := h.length k hk hR List.nodup_nil (by simp)
    simp at this
    omega
  · cases hb

end Verif.Par
