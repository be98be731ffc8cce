import Verif.Par.LastMain
import Verif.Par.GiveUp

/-!
# Error recovery that stops at certain tokens

If in every rule an ordinary terminal follows directly behind `error`, recovery is what is called panic mode: tokens are
skipped until one comes that may follow.
-/

namespace Verif.Par

variable {N T E : Type}

/-- Directly behind every `error` in a rule there is an ordinary terminal. -/
def Gram.ErrorsStop (g : Gram) : Prop :=
  ∀ r ∈ g.rules, ∀ α β, r.rhs = α ++ .tm .err :: β → ∃ t β', β = .tm (.sym t) :: β'

/-- A check for this. -/
def stopsIn : List Sym → Bool
  | [] => true
  | .tm .err :: .tm (.sym t) :: l => stopsIn (.tm (.sym t) :: l)
  | .tm .err :: _ => false
  | _ :: l => stopsIn l

def Gram.errorsStop (g : Gram) : Bool := g.rules.all fun r => stopsIn r.rhs

/-- Terminal `t` ends an `error` behind `γ`. -/
def Gram.StopAt (g : Gram) (γ : List Sym) (t : Nat) : Prop := g.ViablePrefix (γ ++ [.tm .err, .tm (.sym t)])

/-- Terminal `t` follows directly behind `error` in some rule. -/
def Gram.StopToken (g : Gram) (t : Nat) : Prop := ∃ r ∈ g.rules, ∃ α β, r.rhs = α ++ .tm .err :: .tm (.sym t) :: β

theorem stopsIn_at {l : List Sym} (h : stopsIn l = true) : ∀ α β, l = α ++ .tm .err :: β → ∃ t β', β = .tm (.sym t) :: β' := by
  intro α
  induction α generalizing l with
  | nil =>
    rintro β rfl
    cases β with
    | nil => simp [stopsIn] at h
    | cons Y β =>
      cases Y with
      | nt n => simp [stopsIn] at h
      | tm a => cases a <;> simp [stopsIn] at h ⊢
  | cons Z α ih =>
    rintro β rfl
    refine ih (l := α ++ .tm .err :: β) ?_ β rfl
    cases Z with
    | nt n => simpa [stopsIn] using h
    | tm a =>
      cases a with
      | sym t => simpa [stopsIn] using h
      | eoi => simpa [stopsIn] using h
      | err =>
        cases hl : α ++ .tm .err :: β with
        | nil => simp at hl
        | cons Y l =>
          rw [List.cons_append, hl] at h
          cases Y with
          | nt n => simp [stopsIn] at h
          | tm a =>
            cases a with
            | sym t => simpa [stopsIn] using h
            | eoi => simp [stopsIn] at h
            | err => simp [stopsIn] at h

theorem Gram.errorsStop_spec {g : Gram} (h : g.errorsStop = true) : g.ErrorsStop := by
  intro r hr
  exact stopsIn_at (List.all_eq_true.1 h r hr)

/-! ## Behind `error` -/

section
variable {R : List PRule} {s start : Nat}

/-- In all rules a terminal follows behind `error`. -/
def StopIn (R : List PRule) : Prop := ∀ (r : Nat) (rule : PRule), R[r]? = some rule → ∀ k, rule.rhs[k]? = some (.tm .err) → ∃ t, rule.rhs[k + 1]? = some (.tm (.sym t))

theorem StopIn.behind (h : StopIn R) {γ : List Sym} {i : Item} (hv : Valid R s (γ ++ [.tm .err]) i) :
    ∃ rule t, R[i.rule]? = some rule ∧ rule.rhs[i.pos]? = some (.tm (.sym t)) := by
  generalize hz : γ ++ [.tm .err] = ζ at hv
  induction hv with
  | start => simp at hz
  | advance γ' i r X h1 h2 h3 _ =>
    obtain ⟨_, hX⟩ := List.append_inj' hz rfl
    simp only [List.cons.injEq, and_true] at hX
    subst hX
    obtain ⟨t, ht⟩ := h _ _ h2 _ h3
    exact ⟨r, t, h2, ht⟩
  | expand γ' i r B j r' b ρ h1 h2 h3 h4 h5 h6 ih =>
    obtain ⟨rule, t, k1, k2⟩ := ih hz
    rw [h2] at k1
    cases k1
    rw [h3] at k2
    cases k2

theorem StopIn.complete (h : StopIn R) {γ : List Sym} {r : Nat} {a : Term} : ¬ Complete R s (γ ++ [.tm .err]) r a := by
  rintro ⟨rule, h1, h2⟩
  obtain ⟨rule', t, k1, k2⟩ := h.behind h2
  simp only at k1 k2
  rw [h1] at k1
  cases k1
  simp at k2

theorem StopIn.errRule (h : StopIn R) {γ : List Sym} {r : Nat} : ¬ ErrRule R s (γ ++ [.tm .err]) r := by
  rintro ⟨i, rule, h1, rfl, h2, h3⟩
  obtain ⟨rule', t, k1, k2⟩ := h.behind h1
  rw [h2] at k1
  cases k1
  rw [h3] at k2
  cases k2

theorem StopIn.expects (h : StopIn R) {γ : List Sym} {X : Sym} (he : Expects R s (γ ++ [.tm .err]) X) : ∃ t, X = .tm (.sym t) := by
  obtain ⟨i, rule, h1, h2, h3⟩ := he
  obtain ⟨rule', t, k1, k2⟩ := h.behind h1
  rw [h2] at k1
  cases k1
  rw [h3] at k2
  cases k2
  exact ⟨t, rfl⟩

theorem StopIn.noMove (h : StopIn R) {γ : List Sym} {a : Term} (ha : ¬ Expects R s (γ ++ [.tm .err]) (.tm a)) : NoMove R s start (γ ++ [.tm .err]) a := by
  refine ⟨ha, ?_, fun r _ => h.complete⟩
  rintro ⟨_, he⟩
  have := congrArg List.getLast? he
  simp at this

/-! ## The machine behind `error` -/

variable {rules : List (Rule N T E)} {idx : T → Nat} {input : List T}

/-- There is an `error` on top, put there for some rule. -/
def Stopped (R : List PRule) (s : Nat) (idx : T → Nat) (m : Mach N T) : Prop :=
  ∀ keep lo hi, m.pieces = keep ++ [.err lo hi] → ∃ r, Choice R s m.pending (keep.map (Piece.sym idx)) r

theorem Stopped.step {m m' : Mach N T} (hm : MStep rules R s start idx input m (.more m')) : Stopped R s idx m' := by
  intro keep' lo hi he
  have hch : ∀ {γ r}, Choice R s m.pending γ r → Choice R s (Choice R s m.pending γ) γ r := fun h => ⟨h.1, .inr h⟩
  cases hm with
  | shift t h1 h2 => have := (List.append_inj' he rfl).2; cases this
  | reduce r rule ps cs v h1 h2 h3 h4 h5 h6 => have := (List.append_inj' he rfl).2; cases this
  | recover t keep drop h1 h2 h3 h4 h5 =>
    obtain ⟨r, hr⟩ := h4
    rw [← (List.append_inj' he rfl).1]
    exact ⟨r, hch hr⟩
  | recoverEnd h1 h2 h3 =>
    obtain ⟨r, hr⟩ := h3
    rw [← (List.append_inj' he rfl).1]
    exact ⟨r, hch hr⟩

/-- A token that does not end the `error` is swallowed. -/
theorem StopIn.swallow (h : StopIn R) {m : Mach N T} (hs : Stopped R s idx m) {keep : List (Piece N T)} {lo hi : Nat} {t : T}
    (hp : m.pieces = keep ++ [.err lo hi]) (ht : input[m.pos]? = some t)
    (hn : ¬ Expects R s (keep.map (Piece.sym idx) ++ [.tm .err]) (.tm (.sym (idx t)))) :
    ∃ m', MStep rules R s start idx input m (.more m') ∧ m'.pieces = keep ++ [.err (min m.pos lo) m.pos] ∧ m'.pos = m.pos + 1 ∧ m'.calls = m.calls := by
  have hr : m.read idx = keep.map (Piece.sym idx) ++ [.tm .err] := by simp [Mach.read, hp, Piece.sym]
  refine ⟨_, .recover t keep [.err lo hi] ht (by rw [hr]; exact h.noMove hn) hp (hs _ _ _ hp) ?_, ?_, ?_, rfl⟩
  · intro keep' drop' he hlt r hc
    have hk : keep' = m.pieces := by
      have h1 := congrArg List.length (hp.symm.trans he)
      simp only [List.length_append, List.length_singleton] at h1
      have : drop' = [] := List.length_eq_zero_iff.1 (by omega)
      rw [he, this, List.append_nil]
    rw [hk] at hc
    have h2 := hc.1
    rw [show m.pieces.map (Piece.sym idx) = _ from hr] at h2
    exact h.errRule h2
  · simp [startOf, errStartOf]
  · simp [startOf]

/-- At the end of the input there is no way on. -/
theorem StopIn.atEnd (h : StopIn R) {m : Mach N T} {keep : List (Piece N T)} {lo hi : Nat}
    (hp : m.pieces = keep ++ [.err lo hi]) (ht : input[m.pos]? = none) :
    MStep rules R s start idx input m (.done (.error .noRecovery) (m.look input)) := by
  have hr : m.read idx = keep.map (Piece.sym idx) ++ [.tm .err] := by simp [Mach.read, hp, Piece.sym]
  refine .giveUpEnd ht ?_ ?_
  · rw [hr]
    refine h.noMove fun he => ?_
    obtain ⟨t, ht⟩ := h.expects he
    cases ht
  · rw [hr]
    exact fun r hc => h.errRule hc.1

/-- Up to the next token that ends the `error`. -/
theorem StopIn.resume (h : StopIn R) {keep : List (Piece N T)} {t : T} {k : Nat} (ht : input[k]? = some t)
    (he : Expects R s (keep.map (Piece.sym idx) ++ [.tm .err]) (.tm (.sym (idx t)))) (d : Nat) :
    ∀ {m : Mach N T} {lo hi : Nat}, Stopped R s idx m → m.pieces = keep ++ [.err lo hi] → m.pos + d = k → lo ≤ m.pos →
      (∀ i u, m.pos ≤ i → i < k → input[i]? = some u → ¬ Expects R s (keep.map (Piece.sym idx) ++ [.tm .err]) (.tm (.sym (idx u)))) →
      ∃ m', MRun rules R s start idx input (d + 1) m (.more m') ∧
        m'.pieces = keep ++ [.err lo (if d = 0 then hi else k - 1), .tok t k] ∧ m'.pos = k + 1 ∧ m'.calls = m.calls := by
  induction d with
  | zero =>
    intro m lo hi hs hp hk hlo hn
    have hr : m.read idx = keep.map (Piece.sym idx) ++ [.tm .err] := by simp [Mach.read, hp, Piece.sym]
    have hk : m.pos = k := hk
    subst hk
    exact ⟨_, .more _ _ _ _ (.shift t ht (by rw [hr]; exact he)) (.zero _), by simp [hp], rfl, rfl⟩
  | succ d ih =>
    intro m lo hi hs hp hk hlo hn
    have hlt : m.pos < input.length := by
      have := (List.getElem?_eq_some_iff.1 ht).1
      omega
    obtain ⟨m', h1, h2, h3, h4⟩ := h.swallow (rules := rules) (start := start) hs hp (List.getElem?_eq_getElem hlt) (hn _ _ (Nat.le_refl _) (by omega) (List.getElem?_eq_getElem hlt))
    rw [Nat.min_eq_right hlo] at h2
    obtain ⟨m'', k1, k2, k3, k4⟩ := ih (Stopped.step h1) h2 (by omega) (by omega) (fun i u a1 a2 => hn i u (by omega) a2)
    refine ⟨m'', .more _ _ _ _ h1 k1, ?_, k3, k4.trans h4⟩
    rw [k2]
    by_cases hd : d = 0
    · simp [hd]; omega
    · simp [hd]

/-- If there is none, up to the end. -/
theorem StopIn.never (h : StopIn R) {keep : List (Piece N T)} (d : Nat) :
    ∀ {m : Mach N T} {lo hi : Nat}, Stopped R s idx m → m.pieces = keep ++ [.err lo hi] → m.pos + d = input.length →
      (∀ i u, m.pos ≤ i → input[i]? = some u → ¬ Expects R s (keep.map (Piece.sym idx) ++ [.tm .err]) (.tm (.sym (idx u)))) →
      ∃ m', MRun rules R s start idx input (d + 1) m (.done (.error .noRecovery) m') ∧ m'.calls = m.calls ∧ input.length < m'.pulls := by
  induction d with
  | zero =>
    intro m lo hi hs hp hk hn
    exact ⟨_, .done _ _ _ _ (h.atEnd hp (List.getElem?_eq_none (by omega))), rfl, look_pulls (List.getElem?_eq_none (by omega))⟩
  | succ d ih =>
    intro m lo hi hs hp hk hn
    have hlt : m.pos < input.length := by omega
    obtain ⟨m', h1, h2, h3, h4⟩ := h.swallow (rules := rules) (start := start) hs hp (List.getElem?_eq_getElem hlt) (hn _ _ (Nat.le_refl _) (List.getElem?_eq_getElem hlt))
    obtain ⟨m'', k1, k2, k3⟩ := ih (Stopped.step h1) h2 (by omega) (fun i u a1 => hn i u (by omega))
    exact ⟨m'', .more _ _ _ _ h1 k1, k2.trans h4, k3⟩

end

end Verif.Par
