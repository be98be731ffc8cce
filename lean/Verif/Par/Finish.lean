import Verif.Par.Pump

/-!
# Short ends of sentences (lemmas)
-/

namespace Verif.Par

variable {R : List PRule}

theorem short_gen (k : Nat) (hk : 1 ≤ k) (hR : ∀ r ∈ R, r.rhs.length ≤ k) {us : List Sym} {w : List Term} (h : Gen R us (tms w)) :
    ∃ w' : List Term, w'.Sublist w ∧ w'.length ≤ us.length * k ^ (heads R).length ∧ Gen R us (tms w') := by
  generalize hL : w.length = L
  induction L using Nat.strongRecOn generalizing w with
  | _ L ih =>
    obtain ⟨n, hn⟩ := gen_sized h w rfl
    rcases spare_or n n (Nat.le_refl _) _ _ hn [] with hl | hs | ⟨b, hb, _⟩
    · obtain ⟨u, v, x, y, z, rfl, hne, hp⟩ := hl.pump
      have h0 := hp 0
      simp only [times, List.replicate_zero, List.flatten_nil, List.append_nil] at h0
      have hlen : 0 < (v ++ y).length := List.length_pos_iff.2 hne
      obtain ⟨w', h1, h2, h3⟩ := ih (u ++ x ++ z).length (by simp at hlen hL ⊢; omega) h0 rfl
      refine ⟨w', h1.trans ?_, h2, h3⟩
      have a1 : (u ++ x).Sublist (u ++ v ++ x) := (List.sublist_append_left u v).append (List.Sublist.refl x)
      exact (a1.trans (List.sublist_append_left _ y)).append (List.Sublist.refl z)
    · have := hs.length k hk hR List.nodup_nil (by simp)
      exact ⟨w, List.Sublist.refl _, by simpa using this, h⟩
    · cases hb

/-- Where a place in what is derived comes from: between two symbols, or within a non-terminal. -/
theorem Sized.place {n : Nat} {us : List Sym} {w : List Term} (h : Sized R n us w) : ∀ u z, w = u ++ z →
    (∃ α β, us = α ++ β ∧ Gen R α (tms u) ∧ Gen R β (tms z)) ∨
    ∃ α b β u1 u2 z1 z2 j, us = α ++ .nt b :: β ∧ u = u1 ++ u2 ∧ z = z1 ++ z2 ∧ Gen R α (tms u1) ∧ j ≤ n ∧ Sized R j [.nt b] (u2 ++ z1) ∧
      Gen R β (tms z2) := by
  induction h with
  | nil =>
    intro u z h
    obtain ⟨rfl, rfl⟩ := List.append_eq_nil_iff.1 h.symm
    exact Or.inl ⟨[], [], rfl, .nil, .nil⟩
  | tm t n us w h ih =>
    intro u z e
    cases u with
    | nil =>
      simp only [List.nil_append] at e
      subst e
      exact Or.inl ⟨[], _, rfl, .nil, (Sized.tm t n us w h).gen⟩
    | cons t' u =>
      simp only [List.cons_append, List.cons.injEq] at e
      obtain ⟨rfl, e⟩ := e
      rcases ih u z e with ⟨α, β, rfl, h1, h2⟩ | ⟨α, b, β, u1, u2, z1, z2, j, rfl, rfl, rfl, h1, h2, h3, h4⟩
      · exact Or.inl ⟨.tm t :: α, β, rfl, .keep _ _ _ h1, h2⟩
      · exact Or.inr ⟨.tm t :: α, b, β, t :: u1, u2, z1, z2, j, rfl, rfl, rfl, .keep _ _ _ h1, h2, h3, h4⟩
  | nt r n m us w w' hr h h' _ ih =>
    intro u z e
    rcases List.append_eq_append_iff.1 e with ⟨a, rfl, e2⟩ | ⟨a, rfl, e2⟩
    · have hw : Gen R [.nt r.lhs] (tms w) := (Gen.rule hr).trans h.gen
      rcases ih a z e2 with ⟨α, β, rfl, h1, h2⟩ | ⟨α, b, β, u1, u2, z1, z2, j, rfl, rfl, rfl, h1, h2, h3, h4⟩
      · refine Or.inl ⟨.nt r.lhs :: α, β, rfl, ?_, h2⟩
        have := hw.append h1
        simpa [tms] using this
      · refine Or.inr ⟨.nt r.lhs :: α, b, β, w ++ u1, u2, z1, z2, j, rfl, by simp, rfl, ?_, by omega, h3, h4⟩
        have := hw.append h1
        simpa [tms] using this
    · refine Or.inr ⟨[], r.lhs, us, [], u, a, w', n + 1, rfl, rfl, e2, .nil, by omega, ?_, h'.gen⟩
      have := Sized.nt r n 0 [] _ [] hr h .nil
      simpa using this

theorem Sized.one {n b : Nat} {w : List Term} (h : Sized R n [.nt b] w) : ∃ r m, r ∈ R ∧ r.lhs = b ∧ n = m + 1 ∧ Sized R m r.rhs w := by
  generalize hu : [Sym.nt b] = us at h
  cases h with
  | nil => cases hu
  | tm => cases hu
  | nt r n m us w w' hr h h' =>
    simp only [List.cons.injEq, Sym.nt.injEq] at hu
    obtain ⟨rfl, rfl⟩ := hu
    cases h'
    exact ⟨r, n, hr, rfl, rfl, by simpa using h⟩

theorem finish_or (k : Nat) (hk : 1 ≤ k) (hR : ∀ r ∈ R, r.rhs.length ≤ k) (N : Nat) : ∀ n, n ≤ N → ∀ a (u z : List Term), Sized R n [.nt a] (u ++ z) →
    ∀ anc : List Nat, anc.Nodup → (∀ b ∈ anc, b ∈ heads R) →
    (∃ z' : List Term, z'.Sublist z ∧ z'.length + k ^ ((heads R).length + 1) * anc.length ≤
        k ^ ((heads R).length + 1) * ((heads R).length + (heads R).length * u.length) ∧ Gen R [.nt a] (tms (u ++ z'))) ∨
    ∃ b ∈ anc, ∃ j z', j ≤ n ∧ z'.Sublist z ∧ Sized R j [.nt b] (u ++ z') := by
  generalize hm : (heads R).length = m
  generalize hK : k ^ (m + 1) = K
  induction N with
  | zero =>
    intro n hn a u z h
    obtain ⟨r, n', _, _, rfl, _⟩ := h.one
    omega
  | succ N ih =>
    intro n hn a u z h anc ha hs
    by_cases hin : a ∈ anc
    · exact Or.inr ⟨a, hin, n, z, Nat.le_refl _, List.Sublist.refl _, h⟩
    obtain ⟨r, n', hr, rfl, rfl, h0⟩ := h.one
    have hhead : r.lhs ∈ heads R := by
      unfold heads
      rw [List.mem_eraseDups]
      exact List.mem_map_of_mem hr
    have hnd : (r.lhs :: anc).Nodup := List.nodup_cons.2 ⟨hin, ha⟩
    have hsub : ∀ b ∈ r.lhs :: anc, b ∈ heads R := by
      intro b h
      rcases List.mem_cons.1 h with rfl | h
      · exact hhead
      · exact hs b h
    have hlen := length_le_of_nodup_subset hnd hsub
    simp only [List.length_cons, hm] at hlen
    have hbound : K * (anc.length + 1) ≤ K * m := Nat.mul_le_mul_left _ hlen
    have hrest : ∀ {β : List Sym} {z : List Term}, β.length ≤ r.rhs.length → Gen R β (tms z) →
        ∃ z' : List Term, z'.Sublist z ∧ z'.length ≤ K ∧ Gen R β (tms z') := by
      intro β z hβ hg
      obtain ⟨z', h1, h2, h3⟩ := short_gen k hk hR hg
      refine ⟨z', h1, Nat.le_trans h2 ?_, h3⟩
      rw [← hK, hm, Nat.pow_succ, Nat.mul_comm]
      exact Nat.mul_le_mul_left _ (Nat.le_trans hβ (hR r hr))
    simp only [Nat.mul_add, Nat.mul_one] at hbound ⊢
    rcases h0.place u z rfl with ⟨α, β, e, h1, h2⟩ | ⟨α, b, β, u1, u2, z1, z2, j, e, rfl, rfl, h1, h2, h3, h4⟩
    · obtain ⟨z', g1, g2, g3⟩ := hrest (by rw [e]; simp) h2
      refine Or.inl ⟨z', g1, by omega, ?_⟩
      have := (Gen.rule hr).trans (e ▸ h1.append g3)
      simpa [tms] using this
    · obtain ⟨z2', g1, g2, g3⟩ := hrest (β := β) (by rw [e]; simp; omega) h4
      have hgen : ∀ z1' : List Term, Gen R [.nt b] (tms (u2 ++ z1')) → Gen R [.nt r.lhs] (tms (u1 ++ u2 ++ (z1' ++ z2'))) := by
        intro z1' hg
        have := (Gen.rule hr).trans (e ▸ h1.append (hg.append g3))
        simpa [tms] using this
      by_cases hu : u1 = []
      · subst hu
        rcases ih j (by omega) b u2 z1 h3 (r.lhs :: anc) hnd hsub with ⟨z1', f1, f2, f3⟩ | ⟨b', hb', j', z1', f1, f2, f3⟩
        · refine Or.inl ⟨z1' ++ z2', f1.append g1, ?_, hgen z1' f3⟩
          simp only [List.length_cons, Nat.mul_add, Nat.mul_one, List.length_append, List.nil_append] at f2 ⊢
          omega
        · have hsl : z1'.Sublist (z1 ++ z2) := f2.trans (List.sublist_append_left _ _)
          rcases List.mem_cons.1 hb' with rfl | hb'
          · rcases ih j' (by omega) r.lhs u2 z1' f3 anc ha hs with ⟨z', e1, e2, e3⟩ | ⟨b', hb', i, z', e1, e2, e3⟩
            · refine Or.inl ⟨z', e1.trans hsl, ?_, e3⟩
              simp only [Nat.mul_add, List.nil_append] at e2 ⊢
              omega
            · exact Or.inr ⟨b', hb', i, z', by omega, e2.trans hsl, e3⟩
          · exact Or.inr ⟨b', hb', j', z1', by omega, hsl, f3⟩
      · have hpos : 0 < u1.length := List.length_pos_iff.2 hu
        rcases ih j (by omega) b u2 z1 h3 [] List.nodup_nil (by simp) with ⟨z1', f1, f2, f3⟩ | ⟨b', hb', _⟩
        · refine Or.inl ⟨z1' ++ z2', f1.append g1, ?_, hgen z1' f3⟩
          have hmul : K * (m * u2.length) + K * m ≤ K * (m * (u1 ++ u2).length) := by
            rw [← Nat.mul_add]
            apply Nat.mul_le_mul_left
            rw [← Nat.mul_succ]
            apply Nat.mul_le_mul_left
            simp
            omega
          simp only [List.length_nil, Nat.mul_zero, Nat.add_zero, Nat.mul_add] at f2
          simp only [List.length_append (as := z1')]
          omega
        · cases hb'

theorem gen_finish (k : Nat) (hk : 1 ≤ k) (hR : ∀ r ∈ R, r.rhs.length ≤ k) {a : Nat} {u z : List Term} (h : Gen R [.nt a] (tms (u ++ z))) :
    ∃ z' : List Term, z'.Sublist z ∧ z'.length ≤ k ^ ((heads R).length + 1) * ((heads R).length * (u.length + 1)) ∧ Gen R [.nt a] (tms (u ++ z')) := by
  obtain ⟨n, hn⟩ := gen_sized h _ rfl
  rcases finish_or k hk hR n n (Nat.le_refl _) a u z hn [] List.nodup_nil (by simp) with ⟨z', h1, h2, h3⟩ | ⟨b, hb, _⟩
  · refine ⟨z', h1, ?_, h3⟩
    rw [Nat.mul_succ, Nat.add_comm ((heads R).length * u.length)]
    simpa using h2
  · cases hb

end Verif.Par
