import Verif.Par.RecTerm
import Verif.Par.TreeProof
import Verif.Par.GiveUp

/-!
# How often the machine can give something up

What the machine needs to know about the grammar is `Tame`.  The invariant `Base e` says that nothing that begins before position `e` can be
given up any more; between a reduction and the shift that follows it, `MidRun` holds instead.
-/

namespace Verif.Par

variable {N T E : Type} {rules : List (Rule N T E)} {R : List PRule} {s start : Nat} {r0 : PRule} {idx : T → Nat} {input : List T}

/-- Some error rule can begin its error symbol here. -/
def PlaceAt (R : List PRule) (s : Nat) (γ : List Sym) : Prop := ∃ r, ErrRule R s γ r

/-- Places do not follow an error symbol, places with a common error rule have the same error rules, and a phrase with a place inside that
can be followed by something on the stack ends with a place, unless there is none below it. -/
structure Tame (R : List PRule) (s : Nat) : Prop where
  apart : ∀ γ, ¬ PlaceAt R s (γ ++ [.tm .err])
  grouped : Grouped R s
  settled : ∀ γ X Y δ ρ, Expects R s (γ ++ [.nt X]) Y → Gen R [.nt X] (δ ++ ρ) → δ ≠ [] → PlaceAt R s (γ ++ δ) →
    PlaceAt R s (γ ++ [.nt X]) ∨ ∀ γ', γ' <+: γ → ¬ PlaceAt R s γ'

/-- The grammar symbols of some pieces. -/
local notation "syms " i:max l:max => List.map (Piece.sym i) l

/-- The machine does not give up anything of `low`. -/
def Guard (R : List PRule) (s : Nat) (idx : T → Nat) (pending : Nat → Prop) (low high : List (Piece N T)) : Prop :=
  ((∀ r, ¬ pending r) ∧ (PlaceAt R s (syms idx low) ∨ ∀ l1 l2, low = l1 ++ l2 → l2 ≠ [] → ¬ PlaceAt R s (syms idx l1))) ∨
  ((∃ r, pending r) ∧ (∀ r, pending r ↔ ErrRule R s (syms idx low) r) ∧ ∃ lo hi rest, high = .err lo hi :: rest)

def Base (R : List PRule) (s : Nat) (idx : T → Nat) (e : Nat) (m : Mach N T) : Prop :=
  ∃ low high, m.pieces = low ++ high ∧ (∀ P ∈ high, P.From e) ∧ Guard R s idx m.pending low high

/-- Reductions lead to a shift. -/
def Steady (R : List PRule) (r0 : PRule) (idx : T → Nat) (input : List T) (m : Mach N T) : Prop :=
  ∃ n, RmAt R r0 n (m.read idx) (m.ahead idx input)

/-- A phrase with a place inside has just been completed. -/
def MidRun (R : List PRule) (s : Nat) (r0 : PRule) (idx : T → Nat) (input : List T) (m : Mach N T) : Prop :=
  ∃ ps X v i δ ρ, m.pieces = ps ++ [.nt X v i] ∧ (∀ r, ¬ m.pending r) ∧ Steady R r0 idx input m ∧ Gen R [.nt X] (δ ++ ρ) ∧ δ ≠ [] ∧
    PlaceAt R s (syms idx ps ++ δ)

/-- Nothing is inserted here. -/
def Still (R : List PRule) (r0 : PRule) (idx : T → Nat) (input : List T) (m : Mach N T) : Prop :=
  Steady R r0 idx input m ∨ ∃ γ, m.read idx = γ ++ [.tm .err]

/-- The invariant. -/
structure Inv2 (R : List PRule) (s : Nat) (r0 : PRule) (idx : T → Nat) (input : List T) (e b : Nat) (m : Mach N T) : Prop where
  pos : m.pos ≤ input.length
  behind : e ≤ m.pos
  flag : b ≤ 1
  still : b = 0 → Still R r0 idx input m
  mode : Base R s idx e m ∨ MidRun R s r0 idx input m

theorem Steady.move (hc : Calm0 rules R s start r0) {m : Mach N T} (h : Steady R r0 idx input m) :
    ¬ NoMove R s start (m.read idx) (m.ahead idx input) := by
  intro h1
  obtain ⟨n, hn⟩ := h
  rcases hn.cases hc.only with h2 | ⟨j, r, x, h2, h3, h4, h5⟩
  · exact h1.1 h2
  · by_cases hj : j = s
    · subst hj
      obtain ⟨k1, k2⟩ := hc.accepts _ _ h3
      exact h1.2.1 ⟨k2, k1⟩
    · exact h1.2.2 j hj h3

theorem Steady.reduce (hc : Calm0 rules R s start r0) {m m' : Mach N T} {r : Nat} {rule : Rule N T E} {ps cs : List (Piece N T)} {v : N} {i : Nat}
    (h1 : Reduces R s start (m.read idx) (m.ahead idx input) r) (h2 : rules[r]? = some rule) (h3 : m.pieces = ps ++ cs)
    (h4 : syms idx cs = rule.rhs) (h5 : m'.pieces = ps ++ [.nt rule.lhs v i]) (h6 : m'.pos = m.pos) : Steady R r0 idx input m' := by
  obtain ⟨n, hn⟩ := h1.2.2.2.1.rmAt hc.start_rule hc.fruitful
  rcases hn.cases hc.only with k2 | ⟨j, rj, x, k2, k3, k4, k5⟩
  · exact absurd k2 h1.1
  · by_cases hj : j = s
    · subst hj
      obtain ⟨k1, k2⟩ := hc.accepts _ _ k3
      exact absurd ⟨k2, k1⟩ h1.2.1
    · rcases k5 with k5 | ⟨n', rfl, k5⟩
      · exact absurd k5 hj
      · have := (hc.clash _ _ j hj k3).2 r h1.2.2.1 h1.2.2.2.1
        subst this
        have := hc.plain r rule hj h2
        rw [k2] at this
        cases this
        refine ⟨n', ?_⟩
        rw [ahead_eq h6]
        have hx : m'.read idx = x ++ [.nt rule.lhs] := by
          rw [Mach.read, h3, List.map_append, h4] at k4
          have : ps.map (Piece.sym idx) = x := List.append_cancel_right k4
          rw [Mach.read, h5, List.map_append, this]
          rfl
        rw [hx]
        exact k5

/-- An error symbol that is reduced belongs to the rule. -/
theorem Complete.errRule (hs : R[s]? = some r0) {γ α β : List Sym} {r : Nat} {a : Term} {rule : PRule} (hr : R[r]? = some rule)
    (h : Complete R s (γ ++ rule.rhs) r a) (he : rule.rhs = α ++ .tm .err :: β) : ErrRule R s (γ ++ α) r := by
  obtain ⟨rule', h1, h2⟩ := h
  rw [hr] at h1
  cases h1
  obtain ⟨γ0, rule', k1, k2, k3, k4⟩ := h2.split ⟨r0, hs⟩
  simp only at k1 k2 k3
  rw [hr] at k1
  cases k1
  rw [List.take_length] at k2
  have hγ := List.append_cancel_right k2
  subst hγ
  have := k3.advance_to hr α.length (by rw [he]; simp)
  rw [show rule.rhs.take α.length = α by rw [he]; simp] at this
  exact ⟨_, rule, this, rfl, hr, by rw [he]; simp⟩

/-- The error symbol that is put on the stack. -/
theorem guard_err (ht : Tame R s) {pending : Nat → Prop} {low high keep : List (Piece N T)} (hg : Guard R s idx pending low high)
    (hch : ∃ r, Choice R s pending (syms idx keep) r) (lo hi : Nat) :
    Guard R s idx (Choice R s pending (syms idx keep)) keep [.err lo hi] := by
  refine .inr ⟨hch, fun r => ⟨fun h => h.1, fun h => ⟨h, ?_⟩⟩, lo, hi, [], rfl⟩
  rcases hg with ⟨h1, _⟩ | ⟨⟨r1, h1⟩, h2, _⟩
  · exact .inl h1
  · right
    obtain ⟨r2, h3, h4⟩ := hch
    have h4 : pending r2 := by
      rcases h4 with h4 | h4
      · exact absurd h1 (h4 r1)
      · exact h4
    exact (h2 r).2 (ht.grouped _ _ r2 r h3 ((h2 r2).1 h4) h)

theorem look_eq (m : Mach N T) : (m.look input).pieces = m.pieces ∧ (m.look input).pos = m.pos ∧ (m.look input).pending = m.pending :=
  ⟨rfl, rfl, rfl⟩

/-- Behind `MidRun`, the next symbol on the stack restores the invariant. -/
theorem MidRun.settle (ht : Tame R s) {m m' : Mach N T} (h : MidRun R s r0 idx input m) {P : Piece N T} {e : Nat} (hP : P.From e)
    (hex : Expects R s (m.read idx) (P.sym idx)) (h1 : m'.pieces = m.pieces ++ [P]) (h2 : ∀ r, m'.pending r → m.pending r) : Base R s idx e m' := by
  obtain ⟨ps, X, v, i, δ, ρ, k1, k2, k3, k4, k5, k6⟩ := h
  have hr : m.read idx = syms idx ps ++ [.nt X] := by rw [Mach.read, k1]; simp [Piece.sym]
  rw [hr] at hex
  refine ⟨m.pieces, [P], h1, by intro Q hQ; cases List.mem_singleton.1 hQ; exact hP, .inl ⟨fun r h => k2 r (h2 r h), ?_⟩⟩
  rcases ht.settled _ _ _ _ _ hex k4 k5 k6 with h | h
  · left
    rw [Mach.read] at hr
    rw [hr]; exact h
  · right
    intro l1 l2 hl hne
    refine h _ ?_
    rw [k1] at hl
    rcases List.eq_nil_or_concat l2 with rfl | ⟨l3, Q, rfl⟩
    · exact absurd rfl hne
    · rw [List.concat_eq_append, ← List.append_assoc] at hl
      obtain ⟨rfl, _⟩ := List.append_inj' hl rfl
      simp

/-- One step; the amount `e` grows when something is given up. -/
theorem Inv2.step (hc : Calm0 rules R s start r0) (ht : Tame R s) {e b : Nat} {m m' : Mach N T} (h : Inv2 R s r0 idx input e b m)
    (hst : MStep rules R s start idx input m (.more m')) :
    (∃ ps X v i, m'.pieces = ps ++ [.nt X v i] ∧ m'.pos = m.pos ∧ Inv2 R s r0 idx input e 0 m') ∨
    (m'.pos = m.pos + 1 ∧ (∀ X v i ps, m'.pieces ≠ ps ++ [.nt X v i]) ∧ Inv2 R s r0 idx input e 1 m') ∨
    (b = 1 ∧ m'.pos = m.pos ∧ Inv2 R s r0 idx input e 0 m') ∨
    (∃ e', e + 1 ≤ e' ∧ Inv2 R s r0 idx input e' 0 m') := by
  have hpos := h.pos
  have hbeh := h.behind
  generalize ho : MOut.more m' = o at hst
  cases hst with
  | accept v i h1 h2 => cases ho
  | fail r rule ps cs e h1 h2 h3 h4 h5 h6 => cases ho
  | bad r rule ps cs P h1 h2 h3 h4 h5 h6 => cases ho
  | giveUp t h1 h2 h3 => cases ho
  | giveUpEnd h1 h2 h3 => cases ho
  | shift t h1 h2 =>
    cases ho
    have hlt : m.pos < input.length := by rw [List.getElem?_eq_some_iff] at h1; exact h1.1
    refine .inr (.inl ⟨rfl, ?_, ?_, ?_, Nat.le_refl _, ?_, .inl ?_⟩)
    · intro X v i ps hx
      have := (List.append_inj' hx rfl).2
      cases this
    · simp only; omega
    · simp only; omega
    · intro h; cases h
    · rcases h.mode with ⟨low, high, k1, k2, k3⟩ | hmid
      · refine ⟨low, high ++ [.tok t m.pos], by simp [k1], ?_, ?_⟩
        · intro P hP
          rcases List.mem_append.1 hP with hP | hP
          · exact k2 P hP
          · cases List.mem_singleton.1 hP; exact hbeh
        · rcases k3 with k3 | ⟨k3, k4, lo, hi, rest, rfl⟩
          · exact .inl k3
          · exact .inr ⟨k3, k4, lo, hi, rest ++ [.tok t m.pos], rfl⟩
      · exact hmid.settle ht (P := .tok t m.pos) hbeh h2 rfl fun r h => h
  | reduce r rule ps cs v h1 h2 h3 h4 h5 h6 =>
    cases ho
    refine .inl ⟨ps, rule.lhs, v, _, rfl, rfl, hpos, hbeh, by omega, ?_, ?_⟩
    · intro _
      exact .inl (Steady.reduce hc h1 h2 h3 h4 rfl rfl)
    · have hsteady := Steady.reduce (input := input) (m' := { m.look input with
          pieces := ps ++ [.nt rule.lhs v (startOf (m.look input).seen cs)]
          pending := fun r' => m.pending r' ∧ ¬ m.pending r
          calls := m.calls ++ [(r, cs.map (Piece.arg input))] }) hc h1 h2 h3 h4 rfl rfl
      have hplain := hc.plain r rule h1.2.2.1 h2
      have hread : m.read idx = syms idx ps ++ rule.rhs := by rw [Mach.read, h3, List.map_append, h4]
      have hgen : Gen R [.nt rule.lhs] rule.rhs := Gen.rule (List.mem_of_getElem? hplain)
      have hseen : e ≤ (m.look input).seen ∨ cs ≠ [] := by
        left
        simp only [Mach.look]
        omega
      rcases h.mode with ⟨low, high, k1, k2, k3⟩ | hmid
      · rcases List.append_eq_append_iff.1 (h3.symm.trans k1) with ⟨l, l1, l2⟩ | ⟨l, l1, l2⟩
        · -- `low` reaches into the handle
          subst l1
          by_cases hl : l = []
          · subst hl
            simp only [List.nil_append] at l2
            subst l2
            left
            refine ⟨ps, [.nt rule.lhs v _], rfl, ?_, ?_⟩
            · intro P hP
              cases List.mem_singleton.1 hP
              exact startOf_from (by simp only [Mach.look]; omega) k2
            · left
              rcases k3 with ⟨n1, n2⟩ | ⟨n1, n2, lo, hi, rest, n3⟩
              · refine ⟨fun r' hr' => n1 r' hr'.1, ?_⟩
                simpa using n2
              · have hpend : m.pending r := by
                  rw [n3] at h4
                  have := Complete.errRule hc.start_rule hplain (α := []) (by rw [← show m.read idx = syms idx ps ++ rule.plain.rhs from hread]; exact h1.2.2.2.1) (β := syms idx rest) (by simpa [Piece.sym, Rule.plain] using h4.symm)
                  exact (n2 r).2 (by simpa using this)
                refine ⟨fun r' hr' => hr'.2 hpend, .inl ?_⟩
                obtain ⟨r1, hr1⟩ := n1
                exact ⟨r1, by simpa using (n2 r1).1 hr1⟩
          · -- the guard is reduced
            have hnp : ∀ r', ¬ (m.pending r' ∧ ¬ m.pending r) := by
              rintro r' ⟨p1, p2⟩
              rcases k3 with ⟨n1, n2⟩ | ⟨n1, n2, lo, hi, rest, n3⟩
              · exact n1 r' p1
              · refine p2 ((n2 r).2 ?_)
                rw [l2, n3] at h4
                have := Complete.errRule hc.start_rule hplain (α := syms idx l) (by rw [← show m.read idx = syms idx ps ++ rule.plain.rhs from hread]; exact h1.2.2.2.1) (β := syms idx rest) (by simpa [Piece.sym, Rule.plain] using h4.symm)
                rw [List.map_append]; exact this
            have hplace : PlaceAt R s (syms idx (ps ++ l)) ∨ ∀ l1 l2, ps ++ l = l1 ++ l2 → l2 ≠ [] → ¬ PlaceAt R s (syms idx l1) := by
              rcases k3 with ⟨n1, n2⟩ | ⟨⟨r1, n1⟩, n2, _⟩
              · exact n2
              · exact .inl ⟨r1, (n2 r1).1 n1⟩
            rcases hplace with hpl | hpl
            · right
              refine ⟨ps, rule.lhs, v, _, syms idx l, syms idx high, rfl, hnp, hsteady, ?_, by simpa using hl, ?_⟩
              · rw [l2] at h4
                rw [← List.map_append, h4]
                exact hgen
              · rw [← List.map_append]; exact hpl
            · left
              refine ⟨ps ++ [.nt rule.lhs v _], [], (List.append_nil _).symm, by simp, .inl ⟨hnp, .inr ?_⟩⟩
              intro l1 l2 hl12 hne
              rcases List.eq_nil_or_concat l2 with rfl | ⟨l3, Q, rfl⟩
              · exact absurd rfl hne
              · rw [List.concat_eq_append, ← List.append_assoc] at hl12
                obtain ⟨rfl, _⟩ := List.append_inj' hl12 rfl
                exact hpl l1 (l3 ++ l) (by simp) (by simp [hl])
        · -- the handle lies above `low`
          left
          subst l1
          refine ⟨low, l ++ [.nt rule.lhs v _], List.append_assoc _ _ _, ?_, ?_⟩
          · intro P hP
            rcases List.mem_append.1 hP with hP | hP
            · exact k2 P (by rw [l2]; exact List.mem_append_left _ hP)
            · cases List.mem_singleton.1 hP
              exact startOf_from (by simp only [Mach.look]; omega) fun Q hQ => k2 Q (by rw [l2]; exact List.mem_append_right _ hQ)
          · rcases k3 with ⟨n1, n2⟩ | ⟨⟨r1, n1⟩, n2, lo, hi, rest, n3⟩
            · exact .inl ⟨fun r' hr' => n1 r' hr'.1, n2⟩
            · by_cases hp : m.pending r
              · exact .inl ⟨fun r' hr' => hr'.2 hp, .inl ⟨r1, (n2 r1).1 n1⟩⟩
              · refine .inr ⟨⟨r1, n1, hp⟩, fun r' => ⟨fun hr' => (n2 r').1 hr'.1, fun hr' => ⟨(n2 r').2 hr', hp⟩⟩, ?_⟩
                cases l with
                | nil =>
                  exfalso
                  simp only [List.nil_append] at l2
                  rw [← l2, n3] at h4
                  have := Complete.errRule hc.start_rule hplain (α := []) (γ := syms idx low) (by rw [← show m.read idx = syms idx low ++ rule.plain.rhs by simpa [Rule.plain] using hread]; exact h1.2.2.2.1) (β := syms idx rest) (by simpa [Piece.sym, Rule.plain] using h4.symm)
                  exact hp ((n2 r).2 (by simpa using this))
                | cons P l =>
                  rw [n3] at l2
                  cases l2
                  exact ⟨lo, hi, l ++ [_], rfl⟩
      · by_cases hcs : cs = []
        · left
          subst hcs
          simp only [List.append_nil] at h3
          subst h3
          refine hmid.settle ht (P := .nt rule.lhs v _) ?_ ?_ rfl fun r hr => hr.1
          · simp only [Piece.From, startOf, Mach.look]
            omega
          · obtain ⟨rule', q1, q2⟩ := h1.2.2.2.1
            rw [hplain] at q1
            cases q1
            have hz : rule.plain.rhs.length = 0 := by
              simp only [Rule.plain]
              rw [← h4]; rfl
            rw [hz] at q2
            obtain ⟨rule', q3, q4⟩ := q2.origin rfl h1.2.2.1
            simp only at q3
            rw [hplain] at q3
            cases q3
            exact q4
        · right
          obtain ⟨ps0, X, v0, i0, δ, ρ, k1, k2, k3, k4, k5, k6⟩ := hmid
          rcases List.eq_nil_or_concat cs with rfl | ⟨cs1, Q, rfl⟩
          · exact absurd rfl hcs
          · rw [List.concat_eq_append] at h3 h4
            rw [k1, ← List.append_assoc] at h3
            obtain ⟨rfl, hQ⟩ := List.append_inj' h3 rfl
            cases hQ
            refine ⟨ps, rule.lhs, v, _, syms idx cs1 ++ δ, ρ, rfl, fun r hr => k2 r hr.1, hsteady, ?_, by simp [k5], ?_⟩
            · have e1 : rule.rhs = syms idx cs1 ++ [.nt X] := by rw [← h4]; simp [Piece.sym]
              rw [e1] at hgen
              rw [List.append_assoc]
              exact hgen.trans (Gen.append (Gen.refl _) k4)
            · rw [← List.append_assoc, ← List.map_append]; exact k6
  | recover t keep drop h1 h2 h3 h4 h5 =>
    cases ho
    have hlt : m.pos < input.length := by rw [List.getElem?_eq_some_iff] at h1; exact h1.1
    have ha : m.ahead idx input = .sym (idx t) := by simp [Mach.ahead, h1]
    have hbase : Base R s idx e m := by
      rcases h.mode with hb | hmid
      · exact hb
      · obtain ⟨ps0, X, v0, i0, δ, ρ, k1, k2, k3, k4, k5, k6⟩ := hmid
        exact absurd (by rw [ha]; exact h2) (k3.move hc)
    obtain ⟨low, high, k1, k2, k3⟩ := hbase
    cases drop with
    | nil =>
      simp only [List.append_nil] at h3
      subst h3
      have hb : b = 1 := by
        have := h.flag
        apply Classical.byContradiction
        intro hne
        rcases h.still (by omega) with h6 | ⟨γ, h6⟩
        · exact absurd (by rw [ha]; exact h2) (h6.move hc)
        · obtain ⟨r, hr⟩ := h4
          refine ht.apart γ ⟨r, ?_⟩
          rw [← h6]; exact hr.1
      refine .inr (.inr (.inl ⟨hb, by simp, by simpa using hpos, by simpa using hbeh, by omega, ?_, .inl ?_⟩))
      · intro _
        exact .inr ⟨syms idx m.pieces, by simp [Mach.read, Piece.sym]⟩
      · exact ⟨m.pieces, [.err _ _], rfl, by simp [Piece.From], guard_err ht k3 h4 _ _⟩
    | cons P drop =>
      have hkeep : ∃ l, keep = low ++ l ∧ high = l ++ (P :: drop) := by
        rcases List.append_eq_append_iff.1 (k1.symm.trans h3) with ⟨l, l1, l2⟩ | ⟨l, l1, l2⟩
        · exact ⟨l, l1, l2⟩
        · by_cases hl : l = []
          · subst hl
            exact ⟨[], by simpa using l1.symm, by simpa using l2.symm⟩
          · exfalso
            have hlen : keep.length < low.length := by
              rw [l1, List.length_append]
              have := List.length_pos_iff.2 hl
              omega
            rcases k3 with ⟨n1, ⟨r1, n2⟩ | n2⟩ | ⟨⟨r1, n1⟩, n2, _⟩
            · exact h5 low high k1 hlen r1 ⟨n2, .inl n1⟩
            · obtain ⟨r1, hr1⟩ := h4
              exact n2 keep l l1 hl ⟨r1, hr1.1⟩
            · exact h5 low high k1 hlen r1 ⟨(n2 r1).1 n1, .inr n1⟩
      obtain ⟨l, rfl, rfl⟩ := hkeep
      have hs := startOf_from hbeh (l := P :: drop) fun Q hQ => k2 Q (List.mem_append_right _ hQ)
      refine .inr (.inr (.inr ⟨min (startOf m.pos (P :: drop)) m.pos + 1, by omega, ?_, ?_, by omega, ?_, .inl ?_⟩))
      · simp only [List.isEmpty_cons]
        simp
        omega
      · simp
      · intro _
        exact .inr ⟨syms idx (low ++ l), by simp [Mach.read, Piece.sym]⟩
      · exact ⟨low ++ l, [.err _ _], rfl, by simp [Piece.From], guard_err ht k3 h4 _ _⟩
  | recoverEnd h1 h2 h3 =>
    cases ho
    have ha : m.ahead idx input = .eoi := by simp [Mach.ahead, h1]
    have hbase : Base R s idx e m := by
      rcases h.mode with hb | hmid
      · exact hb
      · obtain ⟨ps0, X, v0, i0, δ, ρ, k1, k2, k3, k4, k5, k6⟩ := hmid
        exact absurd (by rw [ha]; exact h2) (k3.move hc)
    obtain ⟨low, high, k1, k2, k3⟩ := hbase
    have hb : b = 1 := by
      have := h.flag
      apply Classical.byContradiction
      intro hne
      rcases h.still (by omega) with h6 | ⟨γ, h6⟩
      · exact absurd (by rw [ha]; exact h2) (h6.move hc)
      · obtain ⟨r, hr⟩ := h3
        refine ht.apart γ ⟨r, ?_⟩
        rw [← h6]; exact hr.1
    refine .inr (.inr (.inl ⟨hb, rfl, hpos, hbeh, by omega, ?_, .inl ?_⟩))
    · intro _
      exact .inr ⟨syms idx m.pieces, by simp [Mach.read, Piece.sym]⟩
    · exact ⟨m.pieces, [.err _ _], rfl, by simp [Piece.From], guard_err ht k3 h3 _ _⟩

theorem Inv2.init : Inv2 R s r0 idx input 0 1 (Mach.init : Mach N T) where
  pos := Nat.zero_le _
  behind := Nat.zero_le _
  flag := Nat.le_refl _
  still := fun h => by cases h
  mode := .inl ⟨[], [], rfl, by simp, .inl ⟨fun r h => h, .inr fun l1 l2 h h2 => by simp at h; exact absurd h.2 h2⟩⟩

end Verif.Par
