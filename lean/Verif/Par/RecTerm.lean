import Verif.Par.RmProof
import Verif.Par.MachProof

/-!
# The machine ends
-/

namespace Verif.Par

variable {N T E : Type} {rules : List (Rule N T E)} {R : List PRule} {s start : Nat} {r0 : PRule} {idx : T → Nat} {input : List T}

/-- What the argument needs to know about the grammar. -/
structure Calm0 (rules : List (Rule N T E)) (R : List PRule) (s start : Nat) (r0 : PRule) : Prop where
  start_rule : R[s]? = some r0
  only : ∀ j r', R[j]? = some r' → r'.lhs = r0.lhs → j = s
  plain : ∀ r rule, r ≠ s → (rules[r]? = some rule → R[r]? = some rule.plain)
  accepts : ∀ γ a, Complete R s γ s a → γ = [.nt start] ∧ a = .eoi
  fruitful : ∀ x n y, Gen R [.nt r0.lhs, .tm .eoi] (x ++ .nt n :: y) → ∃ w, Gen R [.nt n] (tms w)
  clash : ∀ γ a r, r ≠ s → Complete R s γ r a → ¬ Expects R s γ (.tm a) ∧ ∀ r', r' ≠ s → Complete R s γ r' a → r' = r
  runs : ∀ γ r, ∃ k, ¬ ErrRule R s (γ ++ List.replicate k (.tm .err)) r

/-- Steps that neither read nor give up anything. -/
inductive Quiet (rules : List (Rule N T E)) (R : List PRule) (s start : Nat) (idx : T → Nat) (input : List T) (m m' : Mach N T) : Prop
  | reduce (r rule ps cs v) : Reduces R s start (m.read idx) (m.ahead idx input) r → rules[r]? = some rule →
      m.pieces = ps ++ cs → cs.map (Piece.sym idx) = rule.rhs →
      m'.pieces = ps ++ [.nt rule.lhs v (startOf (m.look input).seen cs)] → m'.pos = m.pos → Quiet rules R s start idx input m m'
  | insert (lo hi) : NoMove R s start (m.read idx) (m.ahead idx input) → (∃ r, Choice R s m.pending (m.read idx) r) →
      m'.pieces = m.pieces ++ [.err lo hi] → m'.pos = m.pos → m'.pending = Choice R s m.pending (m.read idx) →
      Quiet rules R s start idx input m m'

/-- Steps that read or give up something. -/
inductive Loud (input : List T) (m m' : Mach N T) : Prop
  | shift (t) : input[m.pos]? = some t → m'.pieces = m.pieces ++ [.tok t m.pos] → m'.pos = m.pos + 1 → Loud input m m'
  | drop (keep drop lo hi t) : input[m.pos]? = some t → m.pieces = keep ++ drop → drop ≠ [] → m'.pieces = keep ++ [.err lo hi] →
      m'.pos = min (startOf m.pos drop) m.pos + 1 → Loud input m m'

theorem MStep.kind {m m' : Mach N T} (h : MStep rules R s start idx input m (.more m')) :
    Quiet rules R s start idx input m m' ∨ Loud input m m' := by
  generalize ho : MOut.more m' = o at h
  cases h with
  | shift t h1 h2 => cases ho; exact .inr (.shift t h1 rfl rfl)
  | accept v i h1 h2 => cases ho
  | reduce r rule ps cs v h1 h2 h3 h4 h5 h6 => cases ho; exact .inl (.reduce r rule ps cs v h1 h2 h3 h4 rfl rfl)
  | fail r rule ps cs e h1 h2 h3 h4 h5 h6 => cases ho
  | bad r rule ps cs P h1 h2 h3 h4 h5 h6 => cases ho
  | recover t keep drop h1 h2 h3 h4 h5 =>
    cases ho
    have ha : m.ahead idx input = .sym (idx t) := by simp [Mach.ahead, h1]
    cases drop with
    | nil =>
      simp only [List.append_nil] at h3
      have hr : m.read idx = keep.map (Piece.sym idx) := by rw [Mach.read, h3]
      refine .inl (.insert _ _ (by rw [ha]; exact h2) (by rw [hr]; exact h4) (by rw [h3]) (by simp) (by rw [hr]))
    | cons P drop => exact .inr (.drop keep (P :: drop) _ _ t h1 h3 (by simp) rfl (by simp))
  | recoverEnd h1 h2 h3 =>
    cases ho
    have ha : m.ahead idx input = .eoi := by simp [Mach.ahead, h1]
    exact .inl (.insert 0 0 (by rw [ha]; exact h2) h3 rfl rfl rfl)
  | giveUp t h1 h2 h3 => cases ho
  | giveUpEnd h1 h2 h3 => cases ho

/-- No endless sequence of quiet steps. -/
def Calm (rules : List (Rule N T E)) (R : List PRule) (s start : Nat) (idx : T → Nat) (input : List T) (m : Mach N T) : Prop :=
  Acc (fun m' m => Quiet rules R s start idx input m m') m

theorem ahead_eq {m m' : Mach N T} (h : m'.pos = m.pos) : m'.ahead idx input = m.ahead idx input := by
  unfold Mach.ahead; rw [h]

theorem calm_rm (hc : Calm0 rules R s start r0) (n : Nat) (m : Mach N T) (h : RmAt R r0 n (m.read idx) (m.ahead idx input)) :
    Calm rules R s start idx input m := by
  induction n using Nat.strongRecOn generalizing m with
  | _ n ih =>
    refine Acc.intro _ fun m' hq => ?_
    have hcs := h.cases hc.only
    cases hq with
    | insert lo hi h1 _ _ _ =>
      exfalso
      rcases hcs with h2 | ⟨j, r, x, h2, h3, h4, h5⟩
      · exact h1.1 h2
      · by_cases hj : j = s
        · subst hj
          obtain ⟨k1, k2⟩ := hc.accepts _ _ h3
          exact h1.2.1 ⟨k2, k1⟩
        · exact h1.2.2 j hj h3
    | reduce r rule ps cs v h1 h2 h3 h4 h5 h6 =>
      rcases hcs with k2 | ⟨j, rj, x, k2, k3, k4, k5⟩
      · exact absurd k2 h1.1
      · by_cases hj : j = s
        · subst hj
          obtain ⟨k1, k2⟩ := hc.accepts _ _ k3
          exact absurd ⟨k2, k1⟩ h1.2.1
        · rcases k5 with k5 | ⟨n', rfl, k5⟩
          · exact absurd k5 hj
          · have := (hc.clash _ _ j hj k3).2 r h1.2.2.1 h1.2.2.2.1
            subst this
            have := hc.plain r rule hj h2
            rw [k2] at this
            cases this
            refine ih n' (Nat.lt_succ_self _) m' ?_
            rw [ahead_eq h6]
            have hx : m'.read idx = x ++ [.nt rule.lhs] := by
              rw [Mach.read, h3, List.map_append, h4] at k4
              have : ps.map (Piece.sym idx) = x := List.append_cancel_right k4
              rw [Mach.read, h5, List.map_append, this]
              rfl
            rw [hx]
            exact k5

theorem calm_reduces (hc : Calm0 rules R s start r0) {m : Mach N T} {r : Nat} (h : Reduces R s start (m.read idx) (m.ahead idx input) r) :
    Calm rules R s start idx input m := by
  obtain ⟨n, hn⟩ := h.2.2.2.1.rmAt hc.start_rule hc.fruitful
  exact calm_rm hc n m hn

/-- One bound for all rules. -/
theorem Calm0.bound (hc : Calm0 rules R s start r0) (γ : List Sym) :
    ∃ K, ∀ r, ∃ i, i < K ∧ ¬ ErrRule R s (γ ++ List.replicate i (.tm .err)) r := by
  have key : ∀ n, ∃ K, ∀ r, r < n → ∃ i, i < K ∧ ¬ ErrRule R s (γ ++ List.replicate i (.tm .err)) r := by
    intro n
    induction n with
    | zero => exact ⟨0, by intro r h; omega⟩
    | succ n ih =>
      obtain ⟨K, hK⟩ := ih
      obtain ⟨k, hk⟩ := hc.runs γ n
      refine ⟨max K (k + 1), fun r hr => ?_⟩
      by_cases h : r = n
      · subst h; exact ⟨k, by omega, hk⟩
      · obtain ⟨i, h1, h2⟩ := hK r (by omega)
        exact ⟨i, by omega, h2⟩
  obtain ⟨K, hK⟩ := key R.length
  refine ⟨max K 1, fun r => ?_⟩
  by_cases h : r < R.length
  · obtain ⟨i, h1, h2⟩ := hK r h
    exact ⟨i, by omega, h2⟩
  · refine ⟨0, by omega, ?_⟩
    rintro ⟨i, rule, _, _, h3, _⟩
    rw [List.getElem?_eq_none (by omega)] at h3
    cases h3

theorem calm_inserts (hc : Calm0 rules R s start r0) {γ : List Sym} {K : Nat}
    (hK : ∀ r, ∃ i, i < K ∧ ¬ ErrRule R s (γ ++ List.replicate i (.tm .err)) r) (d : Nat) :
    ∀ k (m : Mach N T), K - k ≤ d → m.read idx = γ ++ List.replicate (k + 1) (.tm .err) → (∃ r, m.pending r) →
      (∀ r, m.pending r → ∀ i, i ≤ k → ErrRule R s (γ ++ List.replicate i (.tm .err)) r) → Calm rules R s start idx input m := by
  induction d with
  | zero =>
    intro k m hd _ hp hpe
    exfalso
    obtain ⟨r, hr⟩ := hp
    obtain ⟨i, h1, h2⟩ := hK r
    exact h2 (hpe r hr i (by omega))
  | succ d ih =>
    intro k m hd hm hp hpe
    by_cases hred : ∃ r, Reduces R s start (m.read idx) (m.ahead idx input) r
    · obtain ⟨r, hr⟩ := hred
      exact calm_reduces hc hr
    · refine Acc.intro _ fun m' hq => ?_
      cases hq with
      | reduce r rule ps cs v h1 => exact absurd ⟨r, h1⟩ hred
      | insert lo hi h1 h2 h3 h4 h5 =>
        have hch : ∀ r, Choice R s m.pending (m.read idx) r → m.pending r ∧ ErrRule R s (γ ++ List.replicate (k + 1) (.tm .err)) r := by
          rintro r ⟨k1, k2⟩
          rw [hm] at k1
          refine ⟨?_, k1⟩
          rcases k2 with k2 | k2
          · obtain ⟨r', hr'⟩ := hp; exact absurd hr' (k2 r')
          · exact k2
        by_cases hk : K ≤ k
        · exfalso
          obtain ⟨r, hr⟩ := hp
          obtain ⟨i, h1, h2⟩ := hK r
          exact h2 (hpe r hr i (by omega))
        · refine ih (k + 1) m' (by omega) ?_ (by rw [h5]; exact h2) ?_
          · rw [Mach.read, h3, List.map_append, ← Mach.read, hm, List.append_assoc]
            congr 1
            rw [List.replicate_succ' (n := k + 1)]
            rfl
          · intro r hr i hi
            rw [h5] at hr
            obtain ⟨k1, k2⟩ := hch r hr
            by_cases h : i = k + 1
            · subst h; exact k2
            · exact hpe r k1 i (by omega)

/-- There is no endless sequence of quiet steps. -/
theorem calm (hc : Calm0 rules R s start r0) (m : Mach N T) : Calm rules R s start idx input m := by
  by_cases hred : ∃ r, Reduces R s start (m.read idx) (m.ahead idx input) r
  · obtain ⟨r, hr⟩ := hred
    exact calm_reduces hc hr
  · refine Acc.intro _ fun m' hq => ?_
    cases hq with
    | reduce r rule ps cs v h1 => exact absurd ⟨r, h1⟩ hred
    | insert lo hi h1 h2 h3 h4 h5 =>
      obtain ⟨K, hK⟩ := hc.bound (m.read idx)
      refine calm_inserts hc hK K 0 m' (by omega) ?_ (by rw [h5]; exact h2) ?_
      · rw [Mach.read, h3, List.map_append, ← Mach.read]
        rfl
      · intro r hr i hi
        rw [h5] at hr
        have : i = 0 := by omega
        subst this
        simpa using hr.1

/-! ## Positions -/

/-- The symbol begins at `e` or later. -/
def Piece.From (e : Nat) : Piece N T → Prop
  | .nt _ _ i => e ≤ i
  | .tok _ i => e ≤ i
  | .err _ _ => True

theorem startOf_from {e d : Nat} (hd : e ≤ d) {l : List (Piece N T)} (h : ∀ P ∈ l, P.From e) : e ≤ startOf d l := by
  induction l with
  | nil => exact hd
  | cons P l ih =>
    have hP := h P List.mem_cons_self
    cases P with
    | nt n v i => exact hP
    | tok t i => exact hP
    | err lo hi => exact ih fun Q hQ => h Q (List.mem_cons_of_mem _ hQ)

/-- Everything above the first `k` symbols, and the next token, are at `e` or later. -/
def Above (k e : Nat) (m : Mach N T) : Prop := e ≤ m.pos ∧ ∀ P ∈ m.pieces.drop k, P.From e

theorem mem_drop_append {α : Type} {P : α} {k : Nat} {a b : List α} (h : P ∈ (a ++ b).drop k) :
    P ∈ a.drop k ∨ P ∈ b := by
  rw [List.drop_append] at h
  rcases List.mem_append.1 h with h | h
  · exact .inl h
  · exact .inr (List.mem_of_mem_drop h)

theorem mem_drop_left {α : Type} {P : α} {k : Nat} {a b : List α} (h : P ∈ a.drop k) : P ∈ (a ++ b).drop k := by
  rw [List.drop_append]; exact List.mem_append_left _ h

theorem mem_drop_right {α : Type} {P : α} {k : Nat} {a b : List α} (hk : k ≤ a.length) (h : P ∈ b) : P ∈ (a ++ b).drop k := by
  rw [List.drop_append, Nat.sub_eq_zero_of_le hk]; exact List.mem_append_right _ h

theorem Quiet.above {m m' : Mach N T} (h : Quiet rules R s start idx input m m') (hN : m.pos ≤ input.length) {k e : Nat}
    (ha : Above k e m) : m'.pos = m.pos ∧ Above k e m' := by
  cases h with
  | reduce r rule ps cs v h1 h2 h3 h4 h5 h6 =>
    refine ⟨h6, by rw [h6]; exact ha.1, ?_⟩
    rw [h5]
    by_cases hk : k ≤ ps.length
    · intro P hP
      rcases mem_drop_append hP with hP | hP
      · exact ha.2 P (by rw [h3]; exact mem_drop_left hP)
      · cases List.mem_singleton.1 hP
        refine startOf_from ?_ fun Q hQ => ha.2 Q (by rw [h3]; exact mem_drop_right hk hQ)
        have := ha.1
        simp only [Mach.look]
        omega
    · intro P hP
      rw [List.drop_eq_nil_of_le (by simp; omega)] at hP
      cases hP
  | insert lo hi h1 h2 h3 h4 h5 =>
    refine ⟨h4, by rw [h4]; exact ha.1, ?_⟩
    rw [h3]
    intro P hP
    rcases mem_drop_append hP with hP | hP
    · exact ha.2 P hP
    · cases List.mem_singleton.1 hP
      exact True.intro

theorem Loud.le {m m' : Mach N T} (h : Loud input m m') : m'.pos ≤ input.length := by
  cases h with
  | shift t h1 h2 h3 =>
    rw [List.getElem?_eq_some_iff] at h1
    have := h1.1; omega
  | drop keep drop lo hi t h1 h2 h3 h4 h5 =>
    rw [List.getElem?_eq_some_iff] at h1
    have := h1.1; omega

/-- Something is read, or given up above, or given up below. -/
theorem Loud.above {m m' : Mach N T} (h : Loud input m m') {k e : Nat} (ha : Above k e m) (hk : k < m'.pieces.length) :
    e + 1 ≤ m'.pos ∧ Above k e m' := by
  cases h with
  | shift t h1 h2 h3 =>
    have := ha.1
    refine ⟨by omega, by omega, ?_⟩
    rw [h2]
    intro P hP
    rcases mem_drop_append hP with hP | hP
    · exact ha.2 P hP
    · cases List.mem_singleton.1 hP
      exact this
  | drop keep drop lo hi t h1 h2 h3 h4 h5 =>
    have := ha.1
    rw [h4] at hk
    simp at hk
    have hs := startOf_from ha.1 (l := drop) fun Q hQ => ha.2 Q (by rw [h2]; exact mem_drop_right (by omega) hQ)
    refine ⟨by omega, by omega, ?_⟩
    rw [h4]
    intro P hP
    rcases mem_drop_append hP with hP | hP
    · exact ha.2 P (by rw [h2]; exact mem_drop_left hP)
    · cases List.mem_singleton.1 hP
      exact True.intro

/-- The machine stops, or gives up or reduces something of the first `k` symbols. -/
def EndsOr (rules : List (Rule N T E)) (R : List PRule) (s start : Nat) (idx : T → Nat) (input : List T) (k : Nat) (m : Mach N T) : Prop :=
  Acc (fun m' m => MStep rules R s start idx input m (.more m') ∧ k < m'.pieces.length) m

/-- Nothing above the first `j` symbols begins before `q`, where `q` is behind `e`. -/
theorem ends_mid (hc : Calm0 rules R s start r0) {e : Nat}
    (hG : ∀ k (m : Mach N T), m.pos ≤ input.length → Above k (e + 1) m → EndsOr rules R s start idx input k m) (k : Nat) :
    ∀ j d q (m : Mach N T), input.length + 1 - q ≤ d → m.pos ≤ input.length → e + 1 ≤ q → Above k e m → Above j q m →
      EndsOr rules R s start idx input k m := by
  intro j
  induction j using Nat.strongRecOn with
  | _ j ihj =>
    intro d
    induction d with
    | zero =>
      intro q m hd hN _ _ ha
      have := ha.1
      omega
    | succ d ihd =>
      intro q m hd hN hq hae haq
      -- something given up below `j`
      have hbelow : ∀ (m m' : Mach N T), Above k e m → Loud input m m' → k < m'.pieces.length → m'.pieces.length ≤ j →
          (∀ t, m'.pieces ≠ m.pieces ++ [.tok t m.pos]) → EndsOr rules R s start idx input k m' := by
        intro m m' ha hl hk hj hns
        have h1 := hl.above ha hk
        have h2 := hl.le
        cases hl with
        | shift t _ h3 _ => exact absurd h3 (hns t)
        | drop keep drop lo hi t k1 k2 k3 k4 k5 =>
          have hlen : m'.pieces.length = keep.length + 1 := by rw [k4]; simp
          refine ihj keep.length (by omega) (input.length + 1) (e + 1) m' (by omega) h2 (Nat.le_refl _) h1.2 ⟨h1.1, ?_⟩
          rw [k4]
          intro P hP
          rw [List.drop_left] at hP
          cases List.mem_singleton.1 hP
          exact True.intro
      -- the next token is behind `q`
      have hbehind : ∀ m : Mach N T, m.pos ≤ input.length → Above k e m → Above j q m → q + 1 ≤ m.pos →
          EndsOr rules R s start idx input k m := by
        intro m hN hae haq hp
        have hacc := hG j m hN ⟨by omega, fun P hP => by
          have := haq.2 P hP
          cases P with
          | nt n v i => exact Nat.le_trans hq this
          | tok t i => exact Nat.le_trans hq this
          | err lo hi => exact True.intro⟩
        induction hacc with
        | intro m _ ih =>
          refine Acc.intro _ fun m' ⟨hstep, hk⟩ => ?_
          rcases hstep.kind with hqt | hl
          · obtain ⟨p1, p2⟩ := hqt.above hN hae
            obtain ⟨_, p3⟩ := hqt.above hN haq
            by_cases hj : j < m'.pieces.length
            · exact ih m' ⟨hstep, hj⟩ (by omega) p2 p3 (by omega)
            · exact ihd (q + 1) m' (by omega) (by omega) (by omega) p2 ⟨by omega, by
                rw [List.drop_eq_nil_of_le (by omega)]; intro P hP; cases hP⟩
          · have p2 := (hl.above hae hk).2
            have p3 := hl.le
            by_cases hj : j < m'.pieces.length
            · have p4 := hl.above haq hj
              exact ih m' ⟨hstep, hj⟩ p3 p2 p4.2 p4.1
            · by_cases hsh : ∃ t, m'.pieces = m.pieces ++ [.tok t m.pos]
              · have hpos : m'.pos = m.pos + 1 ∨ ∃ keep drop lo hi, m.pieces = keep ++ drop ∧ m'.pieces = keep ++ [.err lo hi] := by
                  cases hl with
                  | shift t h1 h2 h3 => exact .inl h3
                  | drop keep drop lo hi t k1 k2 k3 k4 k5 => exact .inr ⟨keep, drop, lo, hi, k2, k4⟩
                rcases hpos with hpos | ⟨keep, drop, lo, hi, k1, k2⟩
                · exact ihd (q + 1) m' (by omega) (by omega) (by omega) p2 ⟨by omega, by
                    rw [List.drop_eq_nil_of_le (by omega)]; intro P hP; cases hP⟩
                · obtain ⟨t, ht⟩ := hsh
                  rw [k2] at ht
                  have := (List.append_inj' ht rfl).2
                  cases this
              · exact hbelow m m' hae hl hk (by omega) fun t ht => hsh ⟨t, ht⟩
      by_cases hp : q + 1 ≤ m.pos
      · exact hbehind m hN hae haq hp
      · have hpq : m.pos = q := by have := haq.1; omega
        have hcalm := calm (idx := idx) (input := input) hc m
        clear hp
        induction hcalm with
        | intro m _ ih =>
          refine Acc.intro _ fun m' ⟨hstep, hk⟩ => ?_
          rcases hstep.kind with hqt | hl
          · obtain ⟨p1, p2⟩ := hqt.above hN hae
            obtain ⟨_, p3⟩ := hqt.above hN haq
            exact ih m' hqt (by omega) p2 p3 (by omega)
          · have p2 := (hl.above hae hk).2
            have p3 := hl.le
            by_cases hj : j < m'.pieces.length
            · have p4 := hl.above haq hj
              exact hbehind m' p3 p2 p4.2 p4.1
            · by_cases hsh : ∃ t, m'.pieces = m.pieces ++ [.tok t m.pos]
              · have hpos : m'.pos = m.pos + 1 ∨ ∃ keep drop lo hi, m.pieces = keep ++ drop ∧ m'.pieces = keep ++ [.err lo hi] := by
                  cases hl with
                  | shift t h1 h2 h3 => exact .inl h3
                  | drop keep drop lo hi t k1 k2 k3 k4 k5 => exact .inr ⟨keep, drop, lo, hi, k2, k4⟩
                rcases hpos with hpos | ⟨keep, drop, lo, hi, k1, k2⟩
                · exact ihd (q + 1) m' (by omega) (by omega) (by omega) p2 ⟨by omega, by
                    rw [List.drop_eq_nil_of_le (by omega)]; intro P hP; cases hP⟩
                · obtain ⟨t, ht⟩ := hsh
                  rw [k2] at ht
                  have := (List.append_inj' ht rfl).2
                  cases this
              · exact hbelow m m' hae hl hk (by omega) fun t ht => hsh ⟨t, ht⟩

theorem ends_above (hc : Calm0 rules R s start r0) (d : Nat) : ∀ e, input.length + 1 - e ≤ d → ∀ k (m : Mach N T), m.pos ≤ input.length →
    Above k e m → EndsOr rules R s start idx input k m := by
  induction d with
  | zero =>
    intro e hd k m hN ha
    have := ha.1
    omega
  | succ d ih =>
    intro e hd k m hN ha
    have hG := fun h : e ≤ input.length => ih (e + 1) (by omega)
    have hmid : ∀ m : Mach N T, m.pos ≤ input.length → Above k e m → e + 1 ≤ m.pos → EndsOr rules R s start idx input k m := by
      intro m hN ha hp
      refine ends_mid hc (hG (by omega)) k m.pieces.length (input.length + 1) (e + 1) m (by omega) hN (Nat.le_refl _) ha ⟨hp, ?_⟩
      rw [List.drop_eq_nil_of_le (Nat.le_refl _)]
      intro P hP; cases hP
    by_cases hp : e + 1 ≤ m.pos
    · exact hmid m hN ha hp
    · have hpe : m.pos = e := by have := ha.1; omega
      clear hp
      have hcalm := calm (idx := idx) (input := input) hc m
      induction hcalm with
      | intro m _ ih2 =>
        refine Acc.intro _ fun m' ⟨hstep, hk⟩ => ?_
        rcases hstep.kind with hqt | hl
        · obtain ⟨p1, p2⟩ := hqt.above hN ha
          exact ih2 m' hqt (by omega) p2 (by omega)
        · have p2 := hl.above ha hk
          exact hmid m' hl.le p2.2 p2.1

/-- The machine ends. -/
theorem mach_ends (hc : Calm0 rules R s start r0) : EndsOr rules R s start idx input 0 (Mach.init : Mach N T) :=
  ends_above hc (input.length + 1) 0 (by omega) 0 _ (Nat.zero_le _) ⟨Nat.zero_le _, by intro P hP; simp [Mach.init] at hP⟩

end Verif.Par
