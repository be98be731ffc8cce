import Verif.Par.RecTerm
import Verif.Par.RmGram

/-!
# From the machine to `parse`: termination
-/

namespace Verif.Par

/-- Without warnings, a complete rule is the only thing to do. -/
theorem no_clash {R : List PRule} {s : Nat} {r0 : PRule} (hs : R[s]? = some r0) (hw : WarnExact R s []) (γ : List Sym) (a : Term) (r : Nat)
    (hr : r ≠ s) (hcomp : Complete R s γ r a) :
    ¬ Expects R s γ (.tm a) ∧ ∀ r', r' ≠ s → Complete R s γ r' a → r' = r := by
  obtain ⟨S, hS⟩ := itemsOf_exists hs γ
  have hne : ¬ Expects R s γ (.tm a) := by
    intro he
    obtain ⟨S', hS'⟩ := itemsOf_exists hs (γ ++ [.tm a])
    have := (hw.shiftReduce S S' r).2 ⟨γ, a, hS, hS', hr, hcomp, he⟩
    cases this
  refine ⟨hne, ?_⟩
  -- the least complete rule
  have hno : ∀ n r1 r2, r1 ≤ n → r1 < r2 → r1 ≠ s → r2 ≠ s → Complete R s γ r1 a → Complete R s γ r2 a → False := by
    intro n
    induction n with
    | zero =>
      intro r1 r2 h3 h4 h5 h6 h7 h8
      have := (hw.reduceReduce S r1 r2).2 ⟨γ, a, hS, h5, h6, h4, h7, h8, hne, fun _ _ _ => by omega⟩
      cases this
    | succ n ih =>
      intro r1 r2 h3 h4 h5 h6 h7 h8
      by_cases hle : ∃ r'', r'' < r1 ∧ r'' ≠ s ∧ Complete R s γ r'' a
      · obtain ⟨r'', k1, k2, k3⟩ := hle
        exact ih r'' r1 (by omega) k1 k2 h5 k3 h7
      · have := (hw.reduceReduce S r1 r2).2 ⟨γ, a, hS, h5, h6, h4, h7, h8, hne, fun r'' k1 k2 => by
          apply Classical.byContradiction
          intro hlt
          exact hle ⟨r'', by omega, k1, k2⟩⟩
        cases this
  intro r' h1 h2
  rcases Nat.lt_trichotomy r' r with h | h | h
  · exact (hno r' r' r (Nat.le_refl _) h h1 hr h2 hcomp).elim
  · exact h
  · exact (hno r r r' (Nat.le_refl _) h hr h1 hcomp h2).elim

variable {N T E : Type} {rules : List (Rule N T E)} {start fresh : Nat} {p : Parser N T E} {idx : T → Nat} {input : List T}

theorem Ctx.calm0 (hx : Ctx p rules start fresh) (hw : WarnExact ((gram rules start).aug fresh) rules.length [])
    (hfr : (gram rules start).Fruitful)
    (hruns : ∀ γ r, ∃ k, ¬ ErrRule ((gram rules start).aug fresh) rules.length (γ ++ List.replicate k (.tm .err)) r) :
    Calm0 rules ((gram rules start).aug fresh) rules.length start ⟨fresh, [.nt start]⟩ := by
  have hl : (gram rules start).rules.length = rules.length := by simp [gram]
  refine ⟨Ctx.start_rule, ?_, ?_, ?_, hfr.aug hx.unused, ?_, hruns⟩
  · have := (gram rules start).aug_only hx.unused
    rw [hl] at this
    exact this
  · intro r rule _ h
    have : (rules.map Rule.plain)[r]? = some rule.plain := by simp [h]
    exact (aug_get this).1
  · rintro γ a h
    obtain ⟨rule, h1, h2⟩ := h
    rw [Ctx.start_rule] at h1
    cases h1
    have := start_items (g := gram rules start) hx.unused (by rw [hl]; exact h2) (by rw [hl])
    refine ⟨?_, this.1⟩
    rcases this.2 with ⟨k1, _⟩ | ⟨_, k1⟩
    · cases k1
    · exact k1
  · intro γ a r hr h
    exact no_clash Ctx.start_rule hw γ a r hr h

/-- If the machine ends, the parse loop does. -/
theorem parse_ends (hx : Ctx p rules start fresh) {m : Mach N T}
    (hm : EndsOr rules ((gram rules start).aug fresh) rules.length start idx input 0 m) :
    ∀ c, MachSim p rules idx input start fresh c m → ∃ n, ∀ c', run idx p n c ≠ .more c' := by
  induction hm with
  | intro m _ ih =>
    intro c hc
    obtain ⟨o, ho⟩ := hc.progress hx
    have hs := hc.step hx ho
    cases o with
    | more m' =>
      cases hst : step idx p c with
      | more c' =>
        rw [hst] at hs
        have hlen : 0 < m'.pieces.length := by
          rcases ho.kind with h | h
          · cases h with
            | reduce _ _ _ _ _ _ _ _ _ h5 _ => rw [h5]; simp
            | insert _ _ _ _ h3 _ _ => rw [h3]; simp
          · cases h with
            | shift _ _ h2 _ => rw [h2]; simp
            | drop _ _ _ _ _ _ _ _ h4 _ => rw [h4]; simp
        obtain ⟨n, hn⟩ := ih m' ⟨ho, hlen⟩ c' hs
        exact ⟨n + 1, fun c'' h => hn c'' (by simpa only [run, hst] using h)⟩
      | done x c' => rw [hst] at hs; exact hs.elim
      | panic => rw [hst] at hs; exact hs.elim
    | done x m' =>
      refine ⟨1, fun c'' h => ?_⟩
      cases hst : step idx p c with
      | more c' => rw [hst] at hs; exact hs.elim
      | done x c' => simp [run, hst] at h
      | panic => simp [run, hst] at h
    | panic =>
      refine ⟨1, fun c'' h => ?_⟩
      cases hst : step idx p c with
      | more c' => rw [hst] at hs; exact hs.elim
      | done x c' => simp [run, hst] at h
      | panic => simp [run, hst] at h

/-- Items behind a symbol come from rules that continue behind that symbol. -/
theorem Valid.behind {R : List PRule} {s : Nat} {ζ : List Sym} {i : Item} (h : Valid R s ζ i) : ∀ γ X r Y, ζ = γ ++ [X] → R[i.rule]? = some r →
    r.rhs[i.pos]? = some Y → ∃ r' ∈ R, ∃ α β ρ, r'.rhs = α ++ X :: β ∧ Gen R β (Y :: ρ) := by
  induction h with
  | start => intro γ X r Y hz; simp at hz
  | advance γ0 i r0 Z h1 h2 h3 ih =>
    intro γ X r Y hz hr hY
    obtain ⟨rfl, h4⟩ := List.append_inj' hz rfl
    cases h4
    simp only [h2] at hr
    cases hr
    have hlt : i.pos + 1 < r0.rhs.length := by
      simp only at hY
      rw [List.getElem?_eq_some_iff] at hY; exact hY.1
    refine ⟨r0, List.mem_of_getElem? h2, r0.rhs.take i.pos, r0.rhs.drop (i.pos + 1), r0.rhs.drop (i.pos + 2), ?_, ?_⟩
    · have := List.take_append_drop i.pos r0.rhs
      rw [List.drop_eq_getElem_cons (by omega)] at this
      rw [List.getElem?_eq_getElem (by omega)] at h3
      rw [Option.some.inj h3] at this
      exact this.symm
    · rw [List.drop_eq_getElem_cons hlt]
      simp only at hY
      rw [List.getElem?_eq_getElem hlt] at hY
      rw [Option.some.inj hY]
      exact Gen.refl _
  | expand γ0 i r B j r1 b ρ h1 h2 h3 h4 h5 h6 ih =>
    intro γ X r' Y hz hr hY
    simp only at hr hY
    rw [h4] at hr
    cases hr
    obtain ⟨r2, k1, α, β, ρ', k2, k3⟩ := ih γ X r (.nt B) hz h2 h3
    subst h5
    cases hrhs : r1.rhs with
    | nil => rw [hrhs] at hY; cases hY
    | cons Z l =>
      rw [hrhs] at hY
      cases hY
      refine ⟨r2, k1, α, β, l ++ ρ', k2, k3.trans ?_⟩
      have := Gen.append (Gen.rule (List.mem_of_getElem? h4)) (Gen.refl ρ')
      rw [hrhs] at this
      simpa using this

end Verif.Par
