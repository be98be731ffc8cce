import Verif.Par.SettleMain

/-!
# Error recovery takes at most exponential time: potentials

A symbol on the stack that begins with token `i` may be given up once; then reading continues behind token `i`.  So its weight is that of
reading from there, and reading a token leads to two futures, one behind the token and one after the token has been given up.
-/

namespace Verif.Par

variable {N T E : Type} {rules : List (Rule N T E)} {R : List PRule} {s start : Nat} {r0 : PRule} {idx : T → Nat} {input : List T}

/-- The index is at most `S`. -/
def Piece.Upto (S : Nat) : Piece N T → Prop
  | .nt _ _ i => i ≤ S
  | .tok _ i => i ≤ S
  | .err _ _ => True

def Piece.wt (A L S : Nat) : Piece N T → Nat
  | .nt _ _ i => A ^ (L + 1 - i)
  | .tok _ i => A ^ (L + 1 - i)
  | .err _ _ => A ^ (L + 1 - S)

def heap (A L S : Nat) (l : List (Piece N T)) : Nat := (l.map (Piece.wt A L S)).sum

/-- The weight of what is still to be read; `b`: an error symbol can be inserted here. -/
def aheadWt (A B L p b : Nat) : Nat := if b = 0 then 2 * A ^ (L + 1 - p) + (B + 1) * A ^ (L - p) + 1 else A ^ (L + 2 - p)

structure Inv3 (R : List PRule) (r0 : PRule) (idx : T → Nat) (input : List T) (b : Nat) (m : Mach N T) : Prop where
  pos : m.pos ≤ input.length
  flag : b ≤ 1
  still : b = 0 → Still R r0 idx input m
  upto : ∀ P ∈ m.pieces, P.Upto m.seen

theorem Piece.Upto.mono {S S' : Nat} (h : S ≤ S') {P : Piece N T} (hP : P.Upto S) : P.Upto S' := by
  cases P <;> simp only [Piece.Upto] at hP ⊢ <;> omega

theorem startOf_upto {S d : Nat} (hd : d ≤ S) {l : List (Piece N T)} (h : ∀ P ∈ l, P.Upto S) : startOf d l ≤ S := by
  induction l with
  | nil => exact hd
  | cons P l ih =>
    have := h P (by simp)
    cases P with
    | nt X v i => exact this
    | tok t i => exact this
    | err lo hi => exact ih fun Q hQ => h Q (by simp [hQ])

theorem look_seen (m : Mach N T) : m.seen ≤ (m.look input).seen := Nat.le_max_left _ _

theorem look_seen_pos {m : Mach N T} (h : m.pos < input.length) : m.pos + 1 ≤ (m.look input).seen := by
  simp only [Mach.look]
  omega

/-- One step, as far as weights are concerned. -/
theorem Inv3.step (hc : Calm0 rules R s start r0) (hap : ∀ γ, ¬ PlaceAt R s (γ ++ [.tm .err])) {b : Nat} {m m' : Mach N T}
    (h : Inv3 R r0 idx input b m) (hst : MStep rules R s start idx input m (.more m')) : m'.seen = (m.look input).seen ∧
    ((∃ ps cs X v, m.pieces = ps ++ cs ∧ m'.pieces = ps ++ [.nt X v (startOf (m.look input).seen cs)] ∧ m'.pos = m.pos ∧
        Inv3 R r0 idx input 0 m') ∨
     (∃ t, m.pos < input.length ∧ m'.pieces = m.pieces ++ [.tok t m.pos] ∧ m'.pos = m.pos + 1 ∧ Inv3 R r0 idx input 1 m') ∨
     (b = 1 ∧ ∃ lo hi, m'.pieces = m.pieces ++ [.err lo hi] ∧ m'.pos = m.pos ∧ Inv3 R r0 idx input 0 m') ∨
     (∃ keep drop lo hi, m.pos < input.length ∧ m.pieces = keep ++ drop ∧ drop ≠ [] ∧ m'.pieces = keep ++ [.err lo hi] ∧
        m'.pos = min (startOf m.pos drop) m.pos + 1 ∧ Inv3 R r0 idx input 0 m')) := by
  have hpos := h.pos
  have hup : ∀ P ∈ m.pieces, P.Upto (m.look input).seen := fun P hP => (h.upto P hP).mono (look_seen m)
  have hb1 : (∃ r, Choice R s m.pending (m.read idx) r) → NoMove R s start (m.read idx) (m.ahead idx input) → b = 1 := by
    rintro ⟨r, hr⟩ h2
    have := h.flag
    apply Classical.byContradiction
    intro hne
    rcases h.still (by omega) with h6 | ⟨γ, h6⟩
    · exact absurd h2 (h6.move hc)
    · refine hap γ ⟨r, ?_⟩
      rw [← h6]; exact hr.1
  generalize ho : MOut.more m' = o at hst
  cases hst with
  | accept v i h1 h2 => cases ho
  | fail r rule ps cs e h1 h2 h3 h4 h5 h6 => cases ho
  | bad r rule ps cs P h1 h2 h3 h4 h5 h6 => cases ho
  | giveUp t h1 h2 h3 => cases ho
  | giveUpEnd h1 h2 h3 => cases ho
  | shift t h1 h2 =>
    cases ho
    have hlt : m.pos < input.length := by rw [List.getElem?_eq_some_iff] at h1; exact h1.1
    refine ⟨rfl, .inr (.inl ⟨t, hlt, rfl, rfl, hlt, Nat.le_refl _, (fun h => by cases h), ?_⟩)⟩
    intro P hP
    rcases List.mem_append.1 hP with hP | hP
    · exact hup P hP
    · cases List.mem_singleton.1 hP
      exact Nat.le_of_succ_le (look_seen_pos hlt)
  | reduce r rule ps cs v h1 h2 h3 h4 h5 h6 =>
    cases ho
    refine ⟨rfl, .inl ⟨ps, cs, _, v, h3, rfl, rfl, hpos, by omega, fun _ => .inl (Steady.reduce hc h1 h2 h3 h4 rfl rfl), ?_⟩⟩
    intro P hP
    rcases List.mem_append.1 hP with hP | hP
    · exact hup P (by rw [h3]; exact List.mem_append_left _ hP)
    · cases List.mem_singleton.1 hP
      exact startOf_upto (Nat.le_refl _) fun Q hQ => hup Q (by rw [h3]; exact List.mem_append_right _ hQ)
  | recover t keep drop h1 h2 h3 h4 h5 =>
    cases ho
    have hlt : m.pos < input.length := by rw [List.getElem?_eq_some_iff] at h1; exact h1.1
    have ha : m.ahead idx input = .sym (idx t) := by simp [Mach.ahead, h1]
    have hup' : ∀ (lo hi : Nat), ∀ P ∈ keep ++ [Piece.err lo hi], P.Upto (m.look input).seen := by
      intro lo hi P hP
      rcases List.mem_append.1 hP with hP | hP
      · exact hup P (by rw [h3]; exact List.mem_append_left _ hP)
      · cases List.mem_singleton.1 hP; trivial
    refine ⟨rfl, .inr (.inr ?_)⟩
    cases drop with
    | nil =>
      simp only [List.append_nil] at h3
      subst h3
      refine .inl ⟨hb1 h4 (by rw [ha]; exact h2), _, _, rfl, by simp, by simpa using hpos, by omega, ?_, hup' _ _⟩
      intro _
      exact .inr ⟨m.read idx, by simp [Mach.read, Piece.sym]⟩
    | cons P drop =>
      refine .inr ⟨keep, P :: drop, _, _, hlt, h3, by simp, rfl, by simp, ?_, by omega, ?_, hup' _ _⟩
      · simp
        omega
      · intro _
        exact .inr ⟨keep.map (Piece.sym idx), by simp [Mach.read, Piece.sym]⟩
  | recoverEnd h1 h2 h3 =>
    cases ho
    have ha : m.ahead idx input = .eoi := by simp [Mach.ahead, h1]
    refine ⟨rfl, .inr (.inr (.inl ⟨hb1 h3 (by rw [ha]; exact h2), _, _, rfl, rfl, hpos, by omega, ?_, ?_⟩))⟩
    · intro _
      exact .inr ⟨m.read idx, by simp [Mach.read, Piece.sym]⟩
    · intro P hP
      rcases List.mem_append.1 hP with hP | hP
      · exact hup P hP
      · cases List.mem_singleton.1 hP; trivial

theorem Inv3.init : Inv3 R r0 idx input 1 (Mach.init : Mach N T) where
  pos := Nat.zero_le _
  flag := Nat.le_refl _
  still := fun h => by cases h
  upto := by intro P hP; simp [Mach.init] at hP

/-! ## Weights -/

theorem pow_anti {A : Nat} (hA : 1 ≤ A) {L i j : Nat} (h : i ≤ j) : A ^ (L + 1 - j) ≤ A ^ (L + 1 - i) := Nat.pow_le_pow_right hA (by omega)

theorem heap_append (A L S : Nat) (l l' : List (Piece N T)) : heap A L S (l ++ l') = heap A L S l + heap A L S l' := by simp [heap]

theorem heap_one (A L S : Nat) (P : Piece N T) : heap A L S [P] = P.wt A L S := by simp [heap]

theorem wt_ge {A L S : Nat} (hA : 1 ≤ A) {P : Piece N T} (h : P.Upto S) : A ^ (L + 1 - S) ≤ P.wt A L S := by
  cases P with
  | nt X v i => exact pow_anti hA h
  | tok t i => exact pow_anti hA h
  | err lo hi => exact Nat.le_refl _

theorem wt_seen {A L S S' : Nat} (hA : 1 ≤ A) (h : S ≤ S') (P : Piece N T) : P.wt A L S' ≤ P.wt A L S := by
  cases P with
  | nt X v i => exact Nat.le_refl _
  | tok t i => exact Nat.le_refl _
  | err lo hi => exact pow_anti hA h

theorem heap_seen {A L S S' : Nat} (hA : 1 ≤ A) (h : S ≤ S') (l : List (Piece N T)) : heap A L S' l ≤ heap A L S l := by
  induction l with
  | nil => exact Nat.le_refl _
  | cons P l ih =>
    have := wt_seen (L := L) hA h P
    simp only [heap, List.map_cons, List.sum_cons] at ih ⊢
    omega

theorem wt_le_heap {A L S : Nat} {P : Piece N T} {l : List (Piece N T)} (h : P ∈ l) : P.wt A L S ≤ heap A L S l := by
  induction l with
  | nil => cases h
  | cons Q l ih =>
    simp only [heap, List.map_cons, List.sum_cons] at ih ⊢
    rcases List.mem_cons.1 h with rfl | h
    · omega
    · have := ih h; omega

/-- The weight of a phrase is that of one of its parts. -/
theorem wt_startOf {A L S : Nat} (l : List (Piece N T)) :
    A ^ (L + 1 - startOf S l) = A ^ (L + 1 - S) ∨ ∃ P ∈ l, A ^ (L + 1 - startOf S l) = P.wt A L S := by
  induction l with
  | nil => exact .inl rfl
  | cons P l ih =>
    cases P with
    | nt X v i => exact .inr ⟨_, List.mem_cons_self, rfl⟩
    | tok t i => exact .inr ⟨_, List.mem_cons_self, rfl⟩
    | err lo hi =>
      rcases ih with h | ⟨P, hP, h⟩
      · exact .inl h
      · exact .inr ⟨P, List.mem_cons_of_mem _ hP, h⟩

theorem wt_startOf_le {A L S : Nat} (hA : 1 ≤ A) {l : List (Piece N T)} (hl : l ≠ []) (h : ∀ P ∈ l, P.Upto S) :
    A ^ (L + 1 - startOf S l) ≤ heap A L S l := by
  rcases wt_startOf (A := A) (L := L) (S := S) l with h1 | ⟨P, hP, h1⟩
  · rw [h1]
    cases l with
    | nil => exact absurd rfl hl
    | cons P l => exact Nat.le_trans (wt_ge hA (h P (by simp))) (wt_le_heap (by simp))
  · rw [h1]; exact wt_le_heap hP

end Verif.Par
