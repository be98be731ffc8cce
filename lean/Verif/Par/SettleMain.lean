import Verif.Par.AmortProof
import Verif.Par.SettleProof
import Verif.Par.Settled
import Verif.Par.RecMain

/-!
# The number of busy rounds is at most quadratic
-/

namespace Verif.Par

variable {N T E : Type} {p : Parser N T E} {rules : List (Rule N T E)} {idx : T → Nat} {input : List T} {start fresh : Nat}

/-- What may still happen. -/
def pot (L e b pos : Nat) : Nat := (L + 1 - e) * (2 * L + 3) + 2 * (L - pos) + b

theorem PSeg.top {st q} {ps : List (Piece N T)} {X : Nat} {v : N} {i : Nat} (h : PSeg p idx input st q (ps ++ [.nt X v i])) :
    ∃ q' st', st = (q', .nt v i) :: st' := by
  generalize hw : ps ++ [.nt X v i] = w at h
  cases h with
  | nil => simp at hw
  | push st q ps' q' P h1 h2 h3 =>
    have := (List.append_inj' hw rfl).2
    cases this
    exact ⟨_, _, rfl⟩

theorem busy_bound (hx : Ctx p rules start fresh)
    (hc : Calm0 rules ((gram rules start).aug fresh) rules.length start ⟨fresh, [.nt start]⟩)
    (ht : Tame ((gram rules start).aug fresh) rules.length) (n : Nat) : ∀ {c : Cfg N T}, run idx p n (Cfg.init p input) = .more c →
    ∃ m e b, MachSim p rules idx input start fresh c m ∧
      Inv2 ((gram rules start).aug fresh) rules.length ⟨fresh, [.nt start]⟩ idx input e b m ∧
      busy idx p n (Cfg.init p input) + pot input.length e b m.pos ≤ pot input.length 0 1 0 := by
  induction n with
  | zero =>
    intro c h
    cases h
    exact ⟨Mach.init, 0, 1, MachSim.init, Inv2.init, by simp [busy, Mach.init]⟩
  | succ n ih =>
    intro c h
    rw [run_add n 1] at h
    cases hr : run idx p n (Cfg.init p input) with
    | panic => rw [hr] at h; cases h
    | done r c0 => rw [hr] at h; cases h
    | more c0 =>
      rw [hr] at h
      obtain ⟨m, e, b, h1, h2, h3⟩ := ih hr
      simp only [run] at h
      have hs : step idx p c0 = .more c := by
        cases hs : step idx p c0 <;> rw [hs] at h <;> simp_all
      rw [busy_add n 1 hr]
      have hb1 : busy idx p 1 c0 = if c.topNt then 0 else 1 := by simp [busy, hs]
      rw [hb1]
      obtain ⟨o, ho⟩ := h1.progress hx
      have hsim := h1.step hx ho
      rw [hs] at hsim
      cases o with
      | done x m' => exact absurd hsim id
      | panic => exact absurd hsim id
      | more m' =>
        have hsim : MachSim p rules idx input start fresh c m' := hsim
        have hle : (if c.topNt then 0 else 1) ≤ 1 := by split <;> omega
        have hpos := h2.pos
        have hbeh := h2.behind
        have hfl := h2.flag
        rcases h2.step hc ht ho with ⟨ps, X, v, i, k1, k2, k3⟩ | ⟨k1, k2, k3⟩ | ⟨k1, k2, k3⟩ | ⟨e', k1, k2⟩
        · refine ⟨m', e, 0, hsim, k3, ?_⟩
          have hseg := hsim.seg
          rw [k1] at hseg
          obtain ⟨q', st', hst⟩ := hseg.top
          have : c.topNt = true := by simp [Cfg.topNt, hst]
          rw [this, k2]
          rw [if_pos rfl]
          simp only [pot] at h3 ⊢
          omega
        · refine ⟨m', e, 1, hsim, k3, ?_⟩
          have := k3.pos
          simp only [pot] at h3 ⊢
          omega
        · refine ⟨m', e, 0, hsim, k3, ?_⟩
          simp only [pot] at h3 ⊢
          omega
        · refine ⟨m', e', 0, hsim, k2, ?_⟩
          have h4 := k2.behind
          have h5 := k2.pos
          simp only [pot] at h3 ⊢
          have h6 : (input.length + 1 - e') * (2 * input.length + 3) + (2 * input.length + 3) ≤ (input.length + 1 - e) * (2 * input.length + 3) := by
            rw [← Nat.succ_mul]
            exact Nat.mul_le_mul_right _ (by omega)
          omega

/-- What the condition on the grammar says about items. -/
theorem tame_of {g : Gram} (hfr : g.Fruitful) (hf : ¬ g.Used fresh) (ha : ∀ γ r, ¬ g.ErrorAt r (γ ++ [.tm .err]))
    (hgr : ∀ γ γ' r r', g.ErrorAt r γ → g.ErrorAt r γ' → g.ErrorAt r' γ → g.ErrorAt r' γ') (hset : g.Settled) :
    Tame (g.aug fresh) g.rules.length where
  apart := by
    rintro γ ⟨r, hr⟩
    exact ha γ r ((Gram.errRule_iff hfr hf).1 hr)
  grouped := by
    intro γ γ' r r' h1 h2 h3
    rw [Gram.errRule_iff hfr hf] at h1 h2 h3 ⊢
    exact hgr γ γ' r r' h1 h2 h3
  settled := by
    have hpl : ∀ γ, PlaceAt (g.aug fresh) g.rules.length γ ↔ g.PlaceOf γ := by
      intro γ
      simp only [PlaceAt, Gram.PlaceOf, Gram.errRule_iff hfr hf]
    intro γ X Y δ ρ h1 h2 h3 h4
    rw [hpl] at h4
    have hX : X ≠ fresh := by
      rintro rfl
      obtain ⟨i, r, k1, k2, k3⟩ := h1
      obtain ⟨i', r', q1, q2, q3⟩ := k1.expects_prefix γ (.nt X) [] rfl
      have hm := List.mem_of_getElem? q3
      rcases List.mem_append.1 (List.mem_of_getElem? q2) with hr | hr
      · exact hf ⟨r', hr, .inr hm⟩
      · cases List.mem_singleton.1 hr
        simp only [List.mem_singleton, Sym.nt.injEq] at hm
        exact hfr.fresh_ne hf hm
    have h5 : Gen g.rules [.nt X] (δ ++ ρ) := by
      refine Gen.drop_rule (r0 := ⟨fresh, [.nt g.start]⟩) ?_ h2 ?_ (by simpa using hfr.fresh_ne hf)
      · intro r hr hm
        exact hf ⟨r, hr, .inr hm⟩
      · simpa using fun h => hX h.symm
    rw [Gram.expects_iff hfr hf, List.append_assoc] at h1
    rcases hset γ X Y δ ρ h1 (gen_iff.1 h5) h3 h4 with h | h
    · exact .inl ((hpl _).2 h)
    · exact .inr fun γ' hγ' h' => h γ' hγ' ((hpl _).1 h')

end Verif.Par
