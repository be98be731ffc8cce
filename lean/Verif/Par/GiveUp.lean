import Verif.Par.MachProof
import Verif.Par.RmGram

/-!
# What is pending while the machine recovers
-/

namespace Verif.Par

variable {N T E : Type} {rules : List (Rule N T E)} {R : List PRule} {s start : Nat} {idx : T → Nat} {input : List T}

/-- Wherever a rule can begin its `error`, the same other rules can. -/
def Grouped (R : List PRule) (s : Nat) : Prop :=
  ∀ γ γ' r r', ErrRule R s γ r → ErrRule R s γ' r → ErrRule R s γ r' → ErrRule R s γ' r'

/-- The pending rules are those that can begin at some `error` among the symbols read. -/
def Held (R : List PRule) (s : Nat) (idx : T → Nat) (m : Mach N T) : Prop :=
  (∀ r, ¬ m.pending r) ∨ ∃ keep lo hi rest, m.pieces = keep ++ .err lo hi :: rest ∧
    ∀ r, m.pending r ↔ ErrRule R s (keep.map (Piece.sym idx)) r

/-- A complete rule whose right side contains the `error` behind `x` can begin its `error` behind `x`. -/
theorem errRule_of_complete {r : Nat} {rule : PRule} {a : Term} {x y ps : List Sym}
    (h : Complete R s (x ++ .tm .err :: y) r a) (hr : R[r]? = some rule) (hs : ∃ r0, R[s]? = some r0)
    (hp : x ++ .tm .err :: y = ps ++ rule.rhs) (hl : ps.length ≤ x.length) : ErrRule R s x r := by
  obtain ⟨rule', h1, h2⟩ := h
  rw [hr] at h1
  cases h1
  obtain ⟨γ0, rule', h1, h3, h4, h5⟩ := h2.split hs
  simp only [] at h1 h3 h4 h5
  rw [hr] at h1
  cases h1
  rw [List.take_length, hp] at h3
  have h6 := List.append_cancel_right h3
  subst h6
  obtain ⟨c, rfl⟩ : ∃ c, x = ps ++ c := by
    refine ⟨x.drop ps.length, ?_⟩
    have := congrArg (List.take ps.length) hp
    rw [List.take_append_of_le_length hl, List.take_left] at this
    conv => lhs; rw [← List.take_append_drop ps.length x, this]
  rw [List.append_assoc] at hp
  have h7 : c ++ .tm .err :: y = rule.rhs := List.append_cancel_left hp
  have h8 := h4.advance_to hr c.length (by rw [← h7]; simp)
  rw [← h7] at h8
  rw [List.take_left] at h8
  exact ⟨_, rule, h8, rfl, hr, by simp [← h7]⟩

theorem Held.step (hR : ∀ (r : Nat) rule, rules[r]? = some rule → R[r]? = some rule.plain) (hs : ∃ r0, R[s]? = some r0) (hg : Grouped R s)
    {m m' : Mach N T} (hm : Held R s idx m) (h : MStep rules R s start idx input m (.more m')) : Held R s idx m' := by
  have hrec : ∀ (keep drop : List (Piece N T)) (lo hi : Nat), m.pieces = keep ++ drop → (∃ r, Choice R s m.pending (keep.map (Piece.sym idx)) r) →
      ∀ m' : Mach N T, m'.pieces = keep ++ [.err lo hi] → m'.pending = Choice R s m.pending (keep.map (Piece.sym idx)) → Held R s idx m' := by
    intro keep drop lo hi h1 ⟨r1, h2, h3⟩ m' h4 h5
    refine .inr ⟨keep, lo, hi, [], h4, ?_⟩
    intro r
    rw [h5]
    refine ⟨And.left, fun h => ⟨h, ?_⟩⟩
    rcases hm with hm | ⟨keep', _, _, _, _, k2⟩
    · exact .inl hm
    · rcases h3 with h3 | h3
      · exact .inl h3
      · right
        rw [k2] at h3 ⊢
        exact hg _ _ r1 r h2 h3 h
  cases h with
  | shift t h1 h2 =>
    rcases hm with hm | ⟨keep, lo, hi, rest, k1, k2⟩
    · exact .inl hm
    · exact .inr ⟨keep, lo, hi, rest ++ [.tok t m.pos], by simp [k1], k2⟩
  | reduce r rule ps cs v h1 h2 h3 h4 h5 h6 =>
    rcases hm with hm | ⟨keep, lo, hi, rest, k1, k2⟩
    · exact .inl fun r hr => hm r hr.1
    · by_cases hp : m.pending r
      · exact .inl fun _ hr => hr.2 hp
      · right
        have hlt : keep.length < ps.length := by
          apply Classical.byContradiction
          intro hn
          apply hp
          rw [k2]
          obtain ⟨_, _, _, hc, _⟩ := h1
          have he : m.read idx = keep.map (Piece.sym idx) ++ .tm .err :: rest.map (Piece.sym idx) := by
            simp [Mach.read, k1, Piece.sym]
          have he' : m.read idx = ps.map (Piece.sym idx) ++ rule.rhs := by simp [Mach.read, h3, h4]
          refine errRule_of_complete (rule := rule.plain) (a := m.ahead idx input) (he ▸ hc) (hR _ _ h2) hs (he ▸ he') (by simp; omega)
        have hps : ∃ rest', ps = keep ++ .err lo hi :: rest' := by
          rw [k1] at h3
          have := congrArg (List.take ps.length) h3
          rw [List.take_left] at this
          refine ⟨rest.take (ps.length - keep.length - 1), this.symm.trans ?_⟩
          rw [List.take_append, List.take_of_length_le (by omega)]
          congr 1
          obtain ⟨k, hk⟩ : ∃ k, ps.length - keep.length = k + 1 := ⟨ps.length - keep.length - 1, by omega⟩
          rw [hk]
          simp
        obtain ⟨rest', rfl⟩ := hps
        refine ⟨keep, lo, hi, rest' ++ [.nt rule.lhs v (startOf (m.look input).seen cs)], by simp, ?_⟩
        intro r'
        rw [← k2]
        exact ⟨And.left, fun h => ⟨h, hp⟩⟩
  | recover t keep drop h1 h2 h3 h4 h5 => exact hrec keep drop _ _ h3 h4 _ rfl rfl
  | recoverEnd h1 h2 h3 => exact hrec m.pieces [] 0 0 (by simp) h3 _ rfl rfl

/-- In front of a token, recovery fails only if no rule can begin its `error` behind any of the symbols read. -/
theorem Held.giveUp {m : Mach N T} (hm : Held R s idx m) (h : ∀ keep drop, m.pieces = keep ++ drop → ∀ r, ¬ Choice R s m.pending (keep.map (Piece.sym idx)) r) :
    ∀ keep drop, m.pieces = keep ++ drop → ∀ r, ¬ ErrRule R s (keep.map (Piece.sym idx)) r := by
  have hno : ∀ r, ¬ m.pending r := by
    rcases hm with hm | ⟨keep, lo, hi, rest, k1, k2⟩
    · exact hm
    · intro r hr
      exact h keep _ k1 r ⟨(k2 r).1 hr, .inr hr⟩
  intro keep drop hk r hr
  exact h keep drop hk r ⟨hr, .inl hno⟩

/-- Alternatively all error rules can begin at the beginning. -/
theorem pending_errRule {m m' : Mach N T} (hm : ∀ r, m.pending r → ∃ γ, ErrRule R s γ r)
    (h : MStep rules R s start idx input m (.more m')) : ∀ r, m'.pending r → ∃ γ, ErrRule R s γ r := by
  cases h with
  | shift t h1 h2 => exact hm
  | reduce => exact fun r hr => hm r hr.1
  | recover => exact fun r hr => ⟨_, hr.1⟩
  | recoverEnd => exact fun r hr => ⟨_, hr.1⟩

theorem MRun.invariant {P : Mach N T → Prop} (hstep : ∀ m m', P m → MStep rules R s start idx input m (.more m') → P m')
    {n : Nat} {m : Mach N T} {o : MOut N T E} (hr : MRun rules R s start idx input n m o) (hm : P m) :
    (∀ m', o = .more m' → P m') ∧ ∀ x m', o = .done x m' → ∃ m1, P m1 ∧ MStep rules R s start idx input m1 (.done x m') := by
  induction hr with
  | zero m =>
    refine ⟨?_, ?_⟩
    · intro m' h
      cases h
      exact hm
    · intro x m' h
      cases h
  | more n m m' o h1 _ ih => exact ih (hstep _ _ hm h1)
  | done n m x m' h1 =>
    refine ⟨?_, ?_⟩
    · intro m' h
      cases h
    · intro x m' h
      cases h
      exact ⟨m, hm, h1⟩
  | panic =>
    refine ⟨?_, ?_⟩
    · intro m' h
      cases h
    · intro x m' h
      cases h

theorem look_pulls {m : Mach N T} (h : input[m.pos]? = none) : input.length < (m.look input).pulls := by
  have h : input.length ≤ m.pos := by simpa using h
  simp only [Mach.look, Mach.pulls]
  simp only [h, decide_true, Bool.or_true, if_true]
  omega

end Verif.Par
