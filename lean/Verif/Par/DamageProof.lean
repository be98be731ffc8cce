import Verif.Par.Damage
import Verif.Par.StopMain
import Verif.Par.StmtRun
import Verif.Par.FamilyProof
import Verif.Par.PrecTable

/-!
# Damaged inputs: the machine reads the tree
-/

namespace Verif.Par

variable {N T E : Type} {p : Parser N T E} {rules : List (Rule N T E)} {idx : T → Nat} {input : List T} {start fresh : Nat}

theorem stretch_self (i : Nat) : stretch idx input i i = [] := by simp [stretch]

theorem stretch_snoc {i k : Nat} {t : T} (hik : i ≤ k) (ht : input[k]? = some t) : stretch idx input i (k + 1) = stretch idx input i k ++ [.tm (.sym (idx t))] := by
  have h : (input.drop i)[k - i]? = some t := by rw [List.getElem?_drop, show i + (k - i) = k by omega]; exact ht
  rw [stretch, stretch, show k + 1 - i = k - i + 1 by omega, List.take_add_one, h]
  simp

theorem stretch_append {i j k : Nat} (h1 : i ≤ j) (h2 : j ≤ k) : stretch idx input i k = stretch idx input i j ++ stretch idx input j k := by
  rw [stretch, stretch, stretch, ← List.map_append]
  congr 1
  rw [show k - i = (j - i) + (k - j) by omega, List.take_add, List.drop_drop, show i + (j - i) = j by omega]

/-- Pieces without errors that stand for the tokens from one position to another. -/
inductive Covers (g : Gram) (idx : T → Nat) (input : List T) : Nat → List (Piece N T) → Nat → Prop
  | nil (i) : Covers g idx input i [] i
  | tok (i t ps k) : input[i]? = some t → Covers g idx input (i + 1) ps k → Covers g idx input i (.tok t i :: ps) k
  | nt (i j n v x ps k) : i ≤ j → Derives g.rules [.nt n] (stretch idx input i j) → Covers g idx input j ps k → Covers g idx input i (.nt n v x :: ps) k

variable {g : Gram}

theorem Covers.le {i k : Nat} {ps : List (Piece N T)} (h : Covers g idx input i ps k) : i ≤ k := by
  induction h with
  | nil => exact Nat.le_refl _
  | tok => omega
  | nt => omega

theorem Derives.both {R : List PRule} {a b a' b' : List Sym} (h : Derives R a a') (h' : Derives R b b') : Derives R (a ++ b) (a' ++ b') :=
  gen_iff.1 (Gen.append (gen_iff.2 h) (gen_iff.2 h'))

theorem Covers.derives {i k : Nat} {ps : List (Piece N T)} (h : Covers g idx input i ps k) :
    Derives g.rules (ps.map (Piece.sym idx)) (stretch idx input i k) := by
  induction h with
  | nil => rw [stretch_self]; exact .refl _
  | tok i t ps k h1 h2 ih =>
    rw [stretch_append (Nat.le_succ i) h2.le, stretch_snoc (Nat.le_refl _) h1, stretch_self]
    exact Derives.both (a := [.tm (.sym (idx t))]) (.refl _) ih
  | nt i j n v x ps k h1 h2 h3 ih =>
    rw [stretch_append h1 h3.le]
    exact Derives.both (a := [.nt n]) h2 ih

theorem Covers.split {i k : Nat} {ps qs : List (Piece N T)} (h : Covers g idx input i (ps ++ qs) k) : ∃ j, Covers g idx input i ps j ∧ Covers g idx input j qs k := by
  generalize hl : ps ++ qs = l at h
  induction h generalizing ps with
  | nil =>
    obtain ⟨rfl, rfl⟩ := List.append_eq_nil_iff.1 hl
    exact ⟨_, .nil _, .nil _⟩
  | tok i t l k h1 h2 ih =>
    cases ps with
    | nil => subst hl; exact ⟨_, .nil _, .tok _ _ _ _ h1 h2⟩
    | cons P ps =>
      obtain ⟨rfl, hl'⟩ := List.cons.inj hl
      obtain ⟨j, a, b⟩ := ih hl'
      exact ⟨j, .tok _ _ _ _ h1 a, b⟩
  | nt i j n v x l k h1 h2 h3 ih =>
    cases ps with
    | nil => subst hl; exact ⟨_, .nil _, .nt _ _ _ _ _ _ _ h1 h2 h3⟩
    | cons P ps =>
      obtain ⟨rfl, hl'⟩ := List.cons.inj hl
      obtain ⟨j, a, b⟩ := ih hl'
      exact ⟨j, .nt _ _ _ _ _ _ _ h1 h2 a, b⟩

theorem Covers.join {i j k : Nat} {ps qs : List (Piece N T)} (h : Covers g idx input i ps j) (h' : Covers g idx input j qs k) :
    Covers g idx input i (ps ++ qs) k := by
  induction h with
  | nil => exact h'
  | tok i t l k h1 h2 ih => exact .tok _ _ _ _ h1 (ih h')
  | nt i j n v x l k h1 h2 h3 ih => exact .nt _ _ _ _ _ _ _ h1 h2 (ih h')

theorem Covers.noErr {i k : Nat} {ps : List (Piece N T)} (h : Covers g idx input i ps k) : ∀ lo hi, .err lo hi ∉ ps := by
  induction h with
  | nil => simp
  | tok _ _ _ _ _ _ ih => intro lo hi hm; rcases List.mem_cons.1 hm with hm | hm; cases hm; exact ih _ _ hm
  | nt _ _ _ _ _ _ _ _ _ _ ih => intro lo hi hm; rcases List.mem_cons.1 hm with hm | hm; cases hm; exact ih _ _ hm

theorem errStartOf_noErr {d : Nat} {ps : List (Piece N T)} (h : ∀ lo hi, .err lo hi ∉ ps) : errStartOf d ps = d := by
  induction ps with
  | nil => rfl
  | cons P ps ih =>
    cases P with
    | err lo hi => exact absurd List.mem_cons_self (h lo hi)
    | nt => exact ih fun lo hi hm => h lo hi (List.mem_cons_of_mem _ hm)
    | tok => exact ih fun lo hi hm => h lo hi (List.mem_cons_of_mem _ hm)

/-- The symbols for what has been read of a damaged part. -/
structure Inside (g : Gram) (idx : T → Nat) (input : List T) (lo : Nat) (ps : List (Piece N T)) (m : Mach N T) (P : Piece N T) (X : List (Piece N T)) (i : Nat) : Prop where
  pieces : m.pieces = ps ++ P :: X
  first : Covers g idx input lo [P] i
  ahead : lo < i
  index : P.index = some lo
  rest : Covers g idx input i X m.pos
  pending : ∀ r, ¬ m.pending r

/-- A callback fails. -/
def CallbackFails (rules : List (Rule N T E)) (idx : T → Nat) (input : List T) (start fresh : Nat) : Prop :=
  ∃ n e m', MRun rules ((gram rules start).aug fresh) rules.length start idx input n Mach.init (.done (.error (.reducer e)) m')

theorem startOf_index {P : Piece N T} {X : List (Piece N T)} {i d : Nat} (h : P.index = some i) : startOf d (P :: X) = i := by
  cases P <;> simp [Piece.index] at h <;> simp [startOf, h]

/-- The parse cannot go on for ever. -/
def EndsWithin (rules : List (Rule N T E)) (idx : T → Nat) (input : List T) (start fresh : Nat) (K : Nat) : Prop :=
  ∀ n m, MRun rules ((gram rules start).aug fresh) rules.length start idx input n Mach.init (.more m) → n < K

theorem Inside.recovers (hx : Ctx p rules start fresh) (hfr : (gram rules start).Fruitful) {K : Nat} (hK : EndsWithin rules idx input start fresh K) {γ : List Sym} {lo stop : Nat}
    {ps : List (Piece N T)} (hγ : ps.map (Piece.sym idx) = γ) (hs : (gram rules start).Slip idx input γ lo stop) (hstop : stop < input.length)
    (hr : ∃ r, ErrRule ((gram rules start).aug fresh) rules.length γ r) (d : Nat) :
    ∀ {n : Nat} {m : Mach N T} {P : Piece N T} {X : List (Piece N T)} {i : Nat}, K ≤ n + d →
      MRun rules ((gram rules start).aug fresh) rules.length start idx input n Mach.init (.more m) → Inside (gram rules start) idx input lo ps m P X i → m.pos ≤ stop →
      (∃ n' m' hi, MRun rules ((gram rules start).aug fresh) rules.length start idx input n' Mach.init (.more m') ∧ m'.pieces = ps ++ [.err lo hi] ∧ m'.pos = lo + 1 ∧
        lo < hi ∧ hi ≤ stop ∧ m.calls <+: m'.calls ∧ ∀ r, m'.pending r ↔ ErrRule ((gram rules start).aug fresh) rules.length γ r) ∨
      CallbackFails rules idx input start fresh := by
  have hlen : (gram rules start).rules.length = rules.length := by simp [gram]
  have hexp : ∀ {γ X}, Expects ((gram rules start).aug fresh) rules.length γ X → (gram rules start).ViablePrefix (γ ++ [X]) := by
    intro γ X h
    rw [← hlen] at h
    exact (Gram.expects_iff hfr hx.unused).1 h
  induction d with
  | zero =>
    intro n m P X i hd hrun _ _
    have := hK n m hrun
    omega
  | succ d ih =>
    intro n m P X i hd hrun hin hpos
    obtain ⟨_, _, c, hsim⟩ := hrun.known hx hfr MachSim.init (by intro keep lo hi h; simp [Mach.init] at h) (.inl ⟨[], LInv.init⟩)
    obtain ⟨o, ho⟩ := hsim.progress hx
    have hcov : Covers (gram rules start) idx input lo (P :: X) m.pos := hin.first.join hin.rest
    have hile := hin.rest.le
    have hgt := hin.ahead
    have hread : m.read idx = γ ++ (P :: X).map (Piece.sym idx) := by rw [Mach.read, hin.pieces, List.map_append, hγ]
    have hsome : ∃ t, input[m.pos]? = some t := ⟨_, List.getElem?_eq_getElem (by omega)⟩
    -- a reduction does not touch what stands in front
    have hinner : ∀ {r : Nat} {rule : Rule N T E} {ps' cs : List (Piece N T)}, rules[r]? = some rule → m.pieces = ps' ++ cs → cs.map (Piece.sym idx) = rule.rhs →
        ∃ Y, ps' = ps ++ Y ∧ P :: X = Y ++ cs := by
      intro r rule ps' cs h1 h2 h3
      have he := hin.pieces.symm.trans h2
      rcases List.append_eq_append_iff.1 he with ⟨Y, k1, k2⟩ | ⟨Y, k1, k2⟩
      · exact ⟨Y, k1, k2⟩
      · have := hs.apart m.pos ((P :: X).map (Piece.sym idx)) (by omega) hpos hcov.derives rule.plain
          (List.mem_map_of_mem (List.mem_of_getElem? h1)) (Y.map (Piece.sym idx)) (ps'.map (Piece.sym idx)) (by rw [← hγ, k1, List.map_append])
          (by rw [show rule.plain.rhs = rule.rhs from rfl, ← h3, k2, List.map_append])
        cases List.map_eq_nil_iff.1 this
        exact ⟨[], by simpa using k1.symm, by simpa using k2.symm⟩
    have hmore : ∀ {m'}, MStep rules ((gram rules start).aug fresh) rules.length start idx input m (.more m') →
        MRun rules ((gram rules start).aug fresh) rules.length start idx input (n + 1) Mach.init (.more m') := fun h => hrun.then (.more _ _ _ _ h (.zero _))
    cases ho with
    | shift t h1 h2 =>
      have hlt : m.pos < stop := by
        rcases Nat.lt_or_ge m.pos stop with h | h
        · exact h
        · exfalso
          have e : m.pos = stop := by omega
          refine hs.breaks _ (by rw [← e]; exact hcov.derives) ?_
          have := hexp h2
          rw [hread] at this
          rw [tokenAt, ← e, h1]
          exact this
      rcases ih (P := P) (X := X ++ [.tok t m.pos]) (i := i) (by omega) (hmore (.shift t h1 h2))
        ⟨by simp [hin.pieces], hin.first, hin.ahead, hin.index, hin.rest.join (.tok _ _ _ _ h1 (.nil _)), hin.pending⟩ hlt with k | k
      · exact .inl k
      · exact .inr k
    | accept v i h1 h2 => obtain ⟨t, ht⟩ := hsome; rw [h1] at ht; cases ht
    | reduce r rule ps' cs v h1 h2 h3 h4 h5 h6 =>
      obtain ⟨Y, rfl, hY⟩ := hinner h2 h3 h4
      have hcov' := hcov
      rw [hY] at hcov'
      obtain ⟨j, c1, c2⟩ := hcov'.split
      have hder : Derives (gram rules start).rules [.nt rule.lhs] (stretch idx input j m.pos) := by
        have h := c2.derives
        rw [h4] at h
        have h0 : Derives (gram rules start).rules [.nt rule.lhs] rule.rhs := by
          have := Derives.step (R := (gram rules start).rules) [.nt rule.lhs] [] [] rule.plain (.refl _) (List.mem_map_of_mem (List.mem_of_getElem? h2))
          simpa [Rule.plain] using this
        exact h0.trans h
      have hrun' := hmore (.reduce r rule (ps ++ Y) cs v h1 h2 h3 h4 h5 h6)
      have hpend : ∀ r', ¬ (m.pending r' ∧ ¬ m.pending r) := fun r' h => hin.pending r' h.1
      cases Y with
      | nil =>
        simp only [List.nil_append] at hY
        subst hY
        have hj : j = lo := by cases c1; rfl
        subst hj
        rcases ih (P := .nt rule.lhs v (startOf (m.look input).seen (P :: X))) (X := []) (i := m.pos) (by omega) hrun'
          ⟨by simp, .nt _ _ _ _ _ _ _ (by omega) hder (.nil _), by omega, by simp [Piece.index, startOf_index hin.index], .nil _, hpend⟩ hpos with ⟨n', m', hi, k1, k2, k3, k4, k5, k6, k7⟩ | k
        · exact .inl ⟨n', m', hi, k1, k2, k3, k4, k5, (by simp : m.calls <+: _).trans k6, k7⟩
        · exact .inr k
      | cons P' Y =>
        obtain ⟨rfl, rfl⟩ := List.cons.inj hY
        obtain ⟨j', d1, d2⟩ := Covers.split (ps := [P]) (qs := Y) c1
        have hj' : Covers (gram rules start) idx input i (Y ++ [.nt rule.lhs v (startOf (m.look input).seen cs)]) m.pos := by
          obtain ⟨j2, e1, e2⟩ := hin.rest.split
          have hder' : Derives (gram rules start).rules [.nt rule.lhs] (stretch idx input j2 m.pos) := by
            have h := e2.derives
            rw [h4] at h
            have h0 : Derives (gram rules start).rules [.nt rule.lhs] rule.rhs := by
              have := Derives.step (R := (gram rules start).rules) [.nt rule.lhs] [] [] rule.plain (.refl _) (List.mem_map_of_mem (List.mem_of_getElem? h2))
              simpa [Rule.plain] using this
            exact h0.trans h
          exact e1.join (.nt _ _ _ _ _ _ _ e2.le hder' (.nil _))
        rcases ih (P := P) (X := Y ++ [.nt rule.lhs v (startOf (m.look input).seen cs)]) (i := i) (by omega) hrun'
          ⟨by simp, hin.first, hin.ahead, hin.index, hj', hpend⟩ hpos with ⟨n', m', hi, k1, k2, k3, k4, k5, k6, k7⟩ | k
        · exact .inl ⟨n', m', hi, k1, k2, k3, k4, k5, (by simp : m.calls <+: _).trans k6, k7⟩
        · exact .inr k
    | fail r rule ps' cs e h1 h2 h3 h4 h5 h6 => exact .inr ⟨_, e, _, hrun.then (.done 0 _ _ _ (.fail r rule ps' cs e h1 h2 h3 h4 h5 h6))⟩
    | bad r rule ps' cs Q h1 h2 h3 h4 h5 h6 =>
      obtain ⟨Y, rfl, hY⟩ := hinner h2 h3 h4
      cases Q with
      | err a b => exact absurd (by rw [hY]; exact List.mem_append_right _ h5) (hcov.noErr a b)
      | nt => exact h6.elim
      | tok => exact h6.elim
    | recover t keep drop h1 h2 h3 h4 h5 =>
      have hchoice : ∀ γ' r, Choice ((gram rules start).aug fresh) rules.length m.pending γ' r ↔ ErrRule ((gram rules start).aug fresh) rules.length γ' r :=
        fun γ' r => ⟨And.left, fun h => ⟨h, .inl hin.pending⟩⟩
      have hkeep : keep = ps ∧ drop = P :: X := by
        have he := hin.pieces.symm.trans h3
        rcases List.append_eq_append_iff.1 he with ⟨Y, k1, k2⟩ | ⟨Y, k1, k2⟩
        · cases Y with
          | nil => exact ⟨by simpa using k1, by simpa using k2.symm⟩
          | cons P' Y =>
            exfalso
            obtain ⟨rfl, rfl⟩ := List.cons.inj k2
            obtain ⟨r, hr'⟩ := h4
            obtain ⟨j, c1, c2⟩ := Covers.split (ps := P :: Y) (qs := drop) hcov
            have hj : lo < j := by
              obtain ⟨j2, e1, e2⟩ := hin.rest.split
              have : Covers (gram rules start) idx input lo (P :: Y) j2 := hin.first.join e1
              obtain ⟨it, rl, a1, a2, a3, a4⟩ := ((hchoice _ _).1 hr')
              have hle := e1.le
              have := hs.closed j2 ((P :: Y).map (Piece.sym idx)) (by omega) (by have := e2.le; omega) this.derives
              refine absurd ?_ this
              rw [← hγ, ← List.map_append, ← k1]
              exact hexp ⟨it, rl, a1, by rw [a2]; exact a3, a4⟩
            obtain ⟨it, rl, a1, a2, a3, a4⟩ := ((hchoice _ _).1 hr')
            have := hs.closed j ((P :: Y).map (Piece.sym idx)) hj (by have := c2.le; omega) c1.derives
            refine this ?_
            rw [← hγ, ← List.map_append, ← k1]
            exact hexp ⟨it, rl, a1, by rw [a2]; exact a3, a4⟩
        · cases Y with
          | nil => exact ⟨by simpa using k1.symm, by simpa using k2⟩
          | cons P' Y =>
            exfalso
            obtain ⟨r, hr'⟩ := hr
            refine h5 ps (P :: X) hin.pieces ?_ r ((hchoice _ _).2 (by rw [hγ]; exact hr'))
            rw [k1]
            simp
      obtain ⟨rfl, rfl⟩ := hkeep
      refine .inl ⟨_, _, m.pos, hmore (.recover t keep (P :: X) h1 h2 h3 h4 h5), ?_, ?_, by omega, hpos, by simp [Mach.look], ?_⟩
      · rw [startOf_index hin.index, errStartOf_noErr hcov.noErr, Nat.min_eq_left (by omega)]
      · simp only [List.isEmpty_cons, Bool.false_eq_true, if_false, startOf_index hin.index]
        omega
      · intro r
        rw [← hγ]
        exact hchoice _ _
    | recoverEnd h1 => obtain ⟨t, ht⟩ := hsome; rw [h1] at ht; cases ht
    | giveUp t h1 h2 h3 =>
      exfalso
      obtain ⟨r, hr⟩ := hr
      exact h3 _ _ hin.pieces r ⟨by rw [hγ]; exact hr, .inl hin.pending⟩
    | giveUpEnd h1 => obtain ⟨t, ht⟩ := hsome; rw [h1] at ht; cases ht

/-- A token that does not end the `error` is swallowed (with what is pending). -/
theorem swallow_pending {R : List PRule} {s : Nat} (h : StopIn R) {m : Mach N T} {keep : List (Piece N T)} {γ : List Sym} (hγ : keep.map (Piece.sym idx) = γ) {lo hi : Nat} {t : T}
    (hpe : ∀ r, m.pending r ↔ ErrRule R s γ r) (hr : ∃ r, ErrRule R s γ r)
    (hp : m.pieces = keep ++ [.err lo hi]) (ht : input[m.pos]? = some t) (hlo : lo ≤ m.pos)
    (hn : ¬ Expects R s (γ ++ [.tm .err]) (.tm (.sym (idx t)))) :
    ∃ m', MStep rules R s start idx input m (.more m') ∧ m'.pieces = keep ++ [.err lo m.pos] ∧ m'.pos = m.pos + 1 ∧ m'.calls = m.calls ∧
      ∀ r, m'.pending r ↔ ErrRule R s γ r := by
  have hrd : m.read idx = keep.map (Piece.sym idx) ++ [.tm .err] := by simp [Mach.read, hp, Piece.sym]
  have hch : ∀ r, Choice R s m.pending γ r ↔ ErrRule R s γ r := fun r => ⟨And.left, fun h => ⟨h, .inr ((hpe r).2 h)⟩⟩
  subst hγ
  refine ⟨_, .recover t keep [.err lo hi] ht (by rw [hrd]; exact h.noMove hn) hp ?_ ?_, ?_, ?_, rfl, hch⟩
  · obtain ⟨r, hr⟩ := hr
    exact ⟨r, (hch r).2 hr⟩
  · intro keep' drop' he hlt r hc
    have hk : keep' = m.pieces := by
      have h1 := congrArg List.length (hp.symm.trans he)
      simp only [List.length_append, List.length_singleton] at h1
      have : drop' = [] := List.length_eq_zero_iff.1 (by omega)
      rw [he, this, List.append_nil]
    rw [hk] at hc
    have h2 := hc.1
    rw [show m.pieces.map (Piece.sym idx) = _ from hrd] at h2
    exact h.errRule h2
  · simp [startOf, errStartOf, Nat.min_eq_right hlo]
  · simp [startOf]

/-- Up to the token that ends the `error`. -/
theorem swallow_all {R : List PRule} {s : Nat} (h : StopIn R) {keep : List (Piece N T)} {γ : List Sym} (hγ : keep.map (Piece.sym idx) = γ) {lo stop : Nat}
    (hr : ∃ r, ErrRule R s γ r) (hle : stop ≤ input.length) (d : Nat) : ∀ {m : Mach N T} {hi : Nat}, (∀ r, m.pending r ↔ ErrRule R s γ r) →
      m.pieces = keep ++ [.err lo hi] → lo ≤ m.pos → m.pos + d = stop →
      (∀ i u, m.pos ≤ i → i < stop → input[i]? = some u → ¬ Expects R s (γ ++ [.tm .err]) (.tm (.sym (idx u)))) →
      ∃ m', MRun rules R s start idx input d m (.more m') ∧ m'.pieces = keep ++ [.err lo (if d = 0 then hi else stop - 1)] ∧ m'.pos = stop ∧ m'.calls = m.calls ∧
        ∀ r, m'.pending r ↔ ErrRule R s γ r := by
  induction d with
  | zero =>
    intro m hi h1 h2 h3 h4 _
    exact ⟨m, .zero _, by simpa using h2, by omega, rfl, h1⟩
  | succ d ih =>
    intro m hi h1 h2 h3 h4 h5
    have hlt : m.pos < input.length := by omega
    obtain ⟨m', k1, k2, k3, k4, k5⟩ := swallow_pending (rules := rules) (start := start) h hγ h1 hr h2 (List.getElem?_eq_getElem hlt) h3
      (h5 _ _ (Nat.le_refl _) (by omega) (List.getElem?_eq_getElem hlt))
    obtain ⟨m'', g1, g2, g3, g4, g5⟩ := ih k5 k2 (by omega) (by omega) (fun i u a1 a2 => h5 i u (by omega) a2)
    refine ⟨m'', .more _ _ _ _ k1 g1, ?_, g3, g4.trans k4, g5⟩
    rw [g2]
    by_cases hd : d = 0
    · simp [hd]; omega
    · simp [hd]

/-- A damaged part becomes one `error`. -/
theorem slip_read (hx : Ctx p rules start fresh) (hfr : (gram rules start).Fruitful) (hst : StopIn ((gram rules start).aug fresh)) {K : Nat}
    (hK : EndsWithin rules idx input start fresh K) {γ : List Sym} {lo stop : Nat} {ps : List (Piece N T)} (hγ : ps.map (Piece.sym idx) = γ)
    (hs : (gram rules start).Slip idx input γ lo stop) (hstop : stop < input.length) (hr : ∃ r, ErrRule ((gram rules start).aug fresh) rules.length γ r)
    {n : Nat} {m : Mach N T} (hrun : MRun rules ((gram rules start).aug fresh) rules.length start idx input n Mach.init (.more m)) (hp : m.pieces = ps) (hpos : m.pos = lo)
    (hpe : ∀ r, ¬ m.pending r) :
    (∃ n' m' hi, MRun rules ((gram rules start).aug fresh) rules.length start idx input n' Mach.init (.more m') ∧ m'.pieces = ps ++ [.err lo hi] ∧ m'.pos = stop ∧
      hi + 1 = lo + (slipSlice input lo stop).length ∧ m.calls <+: m'.calls ∧ ∀ r, m'.pending r ↔ ErrRule ((gram rules start).aug fresh) rules.length γ r) ∨
    CallbackFails rules idx input start fresh := by
  have hlen : (gram rules start).rules.length = rules.length := by simp [gram]
  have hexp : ∀ {γ X}, Expects ((gram rules start).aug fresh) rules.length γ X ↔ (gram rules start).ViablePrefix (γ ++ [X]) := by
    intro γ X
    rw [← hlen]
    exact Gram.expects_iff hfr hx.unused
  have hlong := hs.long
  have hlt : lo < input.length := by omega
  have ht : input[lo]? = some input[lo] := List.getElem?_eq_getElem hlt
  have h1 : MStep rules ((gram rules start).aug fresh) rules.length start idx input m
      (.more { m.look input with pieces := m.pieces ++ [.tok input[lo] m.pos], pos := m.pos + 1 }) := by
    refine .shift input[lo] (by rw [hpos]; exact ht) ?_
    rw [hexp, Mach.read, hp, hγ]
    have := hs.enters
    rw [tokenAt, ht] at this
    exact this
  have hrun1 := hrun.then (.more _ _ _ _ h1 (.zero _))
  rcases Inside.recovers hx hfr hK hγ hs hstop hr K (P := .tok input[lo] lo) (X := []) (i := lo + 1) (by omega) hrun1
    ⟨by simp [hp, hpos], .tok _ _ _ _ ht (.nil _), by omega, rfl, by simp only [hpos]; exact .nil _, hpe⟩ (by simp only [hpos]; omega) with
    ⟨n', m', hi, k1, k2, k3, k4, k5, k6, k7⟩ | k
  · obtain ⟨m2, g1, g2, g3, g4, g5⟩ := swallow_all (rules := rules) (start := start) (input := input) hst hγ hr (by omega) (stop - (lo + 1)) k7 k2 (by omega) (by omega)
      (fun i u a1 a2 a3 he => hs.skips i u (by omega) a2 a3 (by
        have := hexp.1 he
        rwa [List.append_assoc] at this))
    refine .inl ⟨_, m2, _, k1.then g1, g2, g3, ?_, ?_, g5⟩
    · rw [slipSlice, List.length_take, List.length_drop]
      by_cases he : stop = lo + 1
      · subst he
        simp only [Nat.sub_self, if_true]
        omega
      · rw [if_neg (by omega), if_neg he]
        omega
    · rw [g4]; exact k6
  · exact .inr k

theorem stumble_read (hx : Ctx p rules start fresh) (hfr : (gram rules start).Fruitful) (hst : StopIn ((gram rules start).aug fresh)) {γ : List Sym} {lo stop : Nat}
    {ps : List (Piece N T)} (hγ : ps.map (Piece.sym idx) = γ)
    (hs : (gram rules start).Stumble idx input γ lo stop) (hstop : stop < input.length) (hr : ∃ r, ErrRule ((gram rules start).aug fresh) rules.length γ r)
    {n : Nat} {m : Mach N T} (hrun : MRun rules ((gram rules start).aug fresh) rules.length start idx input n Mach.init (.more m)) (hp : m.pieces = ps) (hpos : m.pos = lo)
    (hpe : ∀ r, ¬ m.pending r) :
    ∃ n' m' hi, MRun rules ((gram rules start).aug fresh) rules.length start idx input n' Mach.init (.more m') ∧ m'.pieces = ps ++ [.err lo hi] ∧ m'.pos = stop ∧
      hi + 1 = lo + (stumbleSlice input lo stop).length ∧ m.calls <+: m'.calls ∧ ∀ r, m'.pending r ↔ ErrRule ((gram rules start).aug fresh) rules.length γ r := by
  have hlen : (gram rules start).rules.length = rules.length := by simp [gram]
  have hexp : ∀ {γ X}, Expects ((gram rules start).aug fresh) rules.length γ X ↔ (gram rules start).ViablePrefix (γ ++ [X]) := by
    intro γ X
    rw [← hlen]
    exact Gram.expects_iff hfr hx.unused
  have horder := hs.order
  have hlt : lo < input.length := by omega
  have ht : input[lo]? = some input[lo] := List.getElem?_eq_getElem hlt
  have htok : tokenAt idx input lo = .sym (idx input[lo]) := by rw [tokenAt, ht]
  have hread : m.read idx = γ := by rw [Mach.read, hp, hγ]
  have hch : ∀ r, Choice ((gram rules start).aug fresh) rules.length m.pending γ r ↔ ErrRule ((gram rules start).aug fresh) rules.length γ r :=
    fun r => ⟨And.left, fun h => ⟨h, .inl hpe⟩⟩
  have h1 := MStep.recover (rules := rules) (R := (gram rules start).aug fresh) (s := rules.length) (start := start) (idx := idx) (m := m) input[lo] ps []
    (by rw [hpos]; exact ht) (by
      rw [hread]
      refine ⟨fun h => hs.blocked (by rw [htok]; exact hexp.1 h), fun h => (by cases h.1), ?_⟩
      intro r h1 h2
      refine hs.whole r ?_
      rw [htok]
      rw [← hlen] at h1 h2
      exact (Gram.complete_iff hfr hx.unused h1).1 h2) (by simp [hp])
    (by
      obtain ⟨r, hr⟩ := hr
      exact ⟨r, by rw [hγ]; exact (hch r).2 hr⟩)
    (by
      intro keep' drop' he hl
      have := congrArg List.length he
      rw [hp] at this
      simp only [List.length_append] at this
      omega)
  obtain ⟨m2, g1, g2, g3, g4, g5⟩ := swallow_all (rules := rules) (start := start) (input := input) hst hγ hr (by omega) (stop - lo) (lo := lo) (hi := lo) (keep := ps) (stop := stop)
    (m := { m.look input with
          pieces := ps ++ [.err (min (startOf m.pos ([] : List (Piece N T))) (errStartOf m.pos ([] : List (Piece N T)))) m.pos]
          pos := if ([] : List (Piece N T)).isEmpty then m.pos else min (startOf m.pos ([] : List (Piece N T))) m.pos + 1
          pending := Choice ((gram rules start).aug fresh) rules.length m.pending (ps.map (Piece.sym idx)) })
    (by simp only [hγ]; exact hch) (by simp [startOf, errStartOf, hpos]) (by simp [hpos]) (by simp [hpos]; omega)
    (by
      intro i u a1 a2 a3 he
      refine hs.skips i u (by simpa [hpos] using a1) a2 a3 ?_
      have := hexp.1 he
      rwa [List.append_assoc] at this)
  refine ⟨_, m2, _, hrun.then (.more _ _ _ _ h1 g1), g2, g3, ?_, ?_, g5⟩
  · rw [stumbleSlice, List.length_take, List.length_drop]
    by_cases he : stop = lo
    · subst he
      simp only [Nat.sub_self, if_true]
      omega
    · rw [if_neg (by omega), if_neg he]
      omega
  · rw [g4]
    simp [Mach.look]

/-- A damaged part becomes one `error`. -/
theorem hurt_read (hx : Ctx p rules start fresh) (hfr : (gram rules start).Fruitful) (hst : StopIn ((gram rules start).aug fresh)) {K : Nat}
    (hK : EndsWithin rules idx input start fresh K) {γ : List Sym} {lo stop : Nat} {l : List T} {ps : List (Piece N T)} (hγ : ps.map (Piece.sym idx) = γ)
    (hs : (gram rules start).Hurt idx input γ lo stop l) (hstop : stop < input.length) (hr : ∃ r, ErrRule ((gram rules start).aug fresh) rules.length γ r)
    {n : Nat} {m : Mach N T} (hrun : MRun rules ((gram rules start).aug fresh) rules.length start idx input n Mach.init (.more m)) (hp : m.pieces = ps) (hpos : m.pos = lo)
    (hpe : ∀ r, ¬ m.pending r) :
    (∃ n' m' hi, MRun rules ((gram rules start).aug fresh) rules.length start idx input n' Mach.init (.more m') ∧ m'.pieces = ps ++ [.err lo hi] ∧ m'.pos = stop ∧
      hi + 1 = lo + l.length ∧ m.calls <+: m'.calls ∧ ∀ r, m'.pending r ↔ ErrRule ((gram rules start).aug fresh) rules.length γ r) ∨
    CallbackFails rules idx input start fresh := by
  cases hs with
  | slip hs => exact slip_read hx hfr hst hK hγ hs hstop hr hrun hp hpos hpe
  | stumble hs => exact .inl (stumble_read hx hfr hst hγ hs hstop hr hrun hp hpos hpe)

theorem Gram.Hurt.slice {γ : List Sym} {lo stop : Nat} {l : List T} (h : g.Hurt idx input γ lo stop l) : l = (input.drop lo).take l.length ∧ l.length ≤ input.length - lo ∧ lo ≤ stop := by
  cases h with
  | slip h =>
    have := h.long
    refine ⟨?_, ?_, by omega⟩
    · rw [slipSlice, List.length_take, List.take_eq_take_iff]; omega
    · rw [slipSlice, List.length_take, List.length_drop]; exact Nat.min_le_right _ _
  | stumble h =>
    refine ⟨?_, ?_, h.order⟩
    · rw [stumbleSlice, List.length_take, List.take_eq_take_iff]; omega
    · rw [stumbleSlice, List.length_take, List.length_drop]; exact Nat.min_le_right _ _

theorem Damaged.noErr {γ us : List Sym} {j k : Nat} {fs : List (Tree T)} (h : Damaged g idx input γ us j fs k) (he : errs fs = []) : .tm .err ∉ us := by
  induction h with
  | nil => simp
  | leaf γ j t us fs k _ _ ih =>
    simp only [errs, Tree.errs, List.nil_append] at he
    simpa using ih he
  | err => simp [errs, Tree.errs] at he
  | node γ j r rule cs k us fs k' _ _ _ _ _ ih2 =>
    simp only [errs, List.append_eq_nil_iff] at he
    simpa using ih2 he.2

/-- The rule has `error` in it. -/
def HasError (rules : List (Rule N T E)) (r : Nat) : Prop := ∃ rule, rules[r]? = some rule ∧ .tm .err ∈ rule.rhs

theorem ErrRule.hasError {γ : List Sym} {r : Nat} (h : ErrRule ((gram rules start).aug fresh) rules.length γ r) : HasError rules r := by
  obtain ⟨i, rule, h1, rfl, h2, h3⟩ := h
  have hlen : (gram rules start).rules.length = rules.length := by simp [gram]
  have hne : i.rule ≠ (gram rules start).rules.length := by
    intro e
    rw [e, Gram.aug_start] at h2
    cases h2
    cases hq : i.pos <;> simp [hq] at h3
  have h4 := Gram.aug_get' h2 hne
  simp only [gram, List.getElem?_map, Option.map_eq_some_iff] at h4
  obtain ⟨rule', h5, rfl⟩ := h4
  exact ⟨rule', h5, List.mem_of_getElem? h3⟩

theorem reduces_of (hx : Ctx p rules start fresh) (hnw : NoConflict p rules start fresh) (hcy : ¬ (gram rules start).Cyclic) (hne : fresh ≠ start) {γ : List Sym} {q r : Nat} {a : Term}
    (hq : p.tab.walk γ = some q) (hr : r ≠ rules.length) (hc : Complete ((gram rules start).aug fresh) rules.length γ r a) :
    Reduces ((gram rules start).aug fresh) rules.length start γ a r := by
  rcases hnw γ q r a hq hr hc with h | ⟨rfl, h⟩
  · obtain ⟨h1, h2, h3, h4, h5⟩ := (hx.canon.reduce γ q a r hq).1 h
    exact ⟨h3, fun ⟨e1, e2⟩ => h4 ⟨e1, (accepts_iff_start hx).2 e2⟩, h1, h2, h5⟩
  · obtain ⟨_, h2⟩ := (hx.canon.accept γ q _ hq).1 h
    have := (accepts_iff_start hx).1 h2
    subst this
    exact absurd (hx.cyclic hne hr hc) hcy

/-- The machine reads the damaged input according to the tree. -/
theorem Damaged.reads (hx : Ctx p rules start fresh) (hnw : NoConflict p rules start fresh) (hcy : ¬ (gram rules start).Cyclic) (hfr : (gram rules start).Fruitful)
    (hst : StopIn ((gram rules start).aug fresh)) {K : Nat} (hK : EndsWithin rules idx input start fresh K) {γ us : List Sym} {j k : Nat} {fs : List (Tree T)}
    (h : Damaged (gram rules start) idx input γ us j fs k) : ∀ {lg : List (Call N T)} {as : List (Arg N T)} {n : Nat} {m : Mach N T} {i : Item} {rule : PRule},
      Evals rules fs lg (.ok as) → MRun rules ((gram rules start).aug fresh) rules.length start idx input n Mach.init (.more m) →
      m.read idx = γ → m.pos = j → Valid ((gram rules start).aug fresh) rules.length γ i → ((gram rules start).aug fresh)[i.rule]? = some rule →
      rule.rhs.drop i.pos = us → (∀ r, m.pending r → HasError rules r) → ((∀ r, ¬ m.pending r) ∨ errs fs = []) →
      (∃ n' m' qs, MRun rules ((gram rules start).aug fresh) rules.length start idx input n' Mach.init (.more m') ∧ m'.pieces = m.pieces ++ qs ∧ qs.map (Piece.sym idx) = us ∧
        qs.map (Piece.arg input) = as ∧ (∀ P ∈ qs, ¬ P.Bad input) ∧ m'.pos = k ∧ (∃ cl, m'.calls = m.calls ++ cl ∧ lg.Sublist cl) ∧
        (.tm .err ∉ us → ∀ r, m'.pending r ↔ m.pending r) ∧ (.tm .err ∈ us → m'.pending i.rule)) ∨
      CallbackFails rules idx input start fresh := by
  have hlen : (gram rules start).rules.length = rules.length := by simp [gram]
  have hne : fresh ≠ start := Gram.Fruitful.fresh_ne hfr hx.unused
  have hat : ∀ {rule : PRule} {pos : Nat} {X : Sym} {us : List Sym}, rule.rhs.drop pos = X :: us → rule.rhs[pos]? = some X ∧ rule.rhs.drop (pos + 1) = us := by
    intro rule pos X us h
    constructor
    · have := congrArg (·[0]?) h
      simpa using this
    · rw [← List.drop_drop, h]; rfl
  induction h with
  | nil γ j =>
    intro lg as n m i rule hev hrun hread hpos hv hr hd hp1 hp2
    cases hev
    exact .inl ⟨n, m, [], hrun, by simp, rfl, rfl, by simp, hpos, ⟨[], by simp, .slnil⟩, fun _ _ => Iff.rfl, fun h => (by simp at h)⟩
  | leaf γ j t us fs k ht hdm ih =>
    intro lg as n m i rule hev hrun hread hpos hv hr hd hp1 hp2
    obtain ⟨d1, d2⟩ := hat hd
    cases hev with
    | leaf _ _ _ _ as hev =>
      have hst1 : MStep rules ((gram rules start).aug fresh) rules.length start idx input m
          (.more { m.look input with pieces := m.pieces ++ [.tok t m.pos], pos := m.pos + 1 }) :=
        .shift t (by rw [hpos]; exact ht) (by rw [hread]; exact ⟨i, rule, hv, hr, d1⟩)
      rcases ih hev (hrun.then (.more _ _ _ _ hst1 (.zero _))) (by simp [Mach.read, Piece.sym] at hread ⊢; exact hread) (by simp [hpos])
        (Valid.advance γ i rule _ hv hr d1) hr d2 hp1 (hp2.imp id (by simp [errs, Tree.errs])) with ⟨n', m', qs, k1, k2, k3, k4, k5, k6, ⟨cl, k7, k7'⟩, k8, k9⟩ | k
      · refine .inl ⟨n', m', .tok t m.pos :: qs, k1, by simp [k2], by simp [Piece.sym, k3], by simp [Piece.arg, k4], ?_, k6, ⟨cl, k7, k7'⟩, ?_, ?_⟩
        · intro P hP
          rcases List.mem_cons.1 hP with rfl | hP
          · exact id
          · exact k5 P hP
        · intro hno r
          exact k8 (fun h => hno (List.mem_cons_of_mem _ h)) r
        · intro hm
          rcases List.mem_cons.1 hm with hm | hm
          · cases hm
          · exact k9 hm
      · exact .inr k
  | err γ j stop l us fs k hs hno hdm ih =>
    intro lg as n m i rule hev hrun hread hpos hv hr hd hp1 hp2
    obtain ⟨d1, d2⟩ := hat hd
    have hpe : ∀ r, ¬ m.pending r := by
      rcases hp2 with h | h
      · exact h
      · simp [errs, Tree.errs] at h
    have herr : ErrRule ((gram rules start).aug fresh) rules.length γ i.rule := ⟨i, rule, hv, rfl, hr, d1⟩
    have hstop : stop < input.length := by
      obtain ⟨t, ht⟩ := hst _ _ hr _ d1
      have hus : ∃ us', us = .tm (.sym t) :: us' := by
        cases us with
        | nil =>
          rw [List.drop_eq_nil_iff] at d2
          rw [List.getElem?_eq_none d2] at ht
          cases ht
        | cons X us' =>
          obtain ⟨e1, _⟩ := hat d2
          rw [ht] at e1
          cases e1
          exact ⟨us', rfl⟩
      obtain ⟨us', rfl⟩ := hus
      generalize hu : Sym.tm (.sym t) :: us' = us0 at hdm
      cases hdm with
      | leaf γ j t' us fs k ht' _ => exact (List.getElem?_eq_some_iff.1 ht').1
      | nil => cases hu
      | err => cases hu
      | node => cases hu
    cases hev with
    | err _ _ _ _ as hev =>
      rcases hurt_read hx hfr hst hK (ps := m.pieces) hread hs hstop ⟨_, herr⟩ hrun rfl hpos hpe with ⟨n1, m1, hi, g1, g2, g3, g4, g5, g6⟩ | k
      · rcases ih hev g1 (by rw [Mach.read, g2, List.map_append]; rw [Mach.read] at hread; rw [hread]; rfl) g3 (Valid.advance γ i rule _ hv hr d1) hr d2
          (fun r h => ErrRule.hasError ((g6 r).1 h)) (.inr hno) with ⟨n', m', qs, k1, k2, k3, k4, k5, k6, ⟨cl, k7, k7'⟩, k8, k9⟩ | k
        · obtain ⟨hsl, hle, horder⟩ := hs.slice
          obtain ⟨cl1, hcl⟩ := g5
          refine .inl ⟨n', m', .err j hi :: qs, k1, by rw [k2, g2]; simp, by simp [Piece.sym, k3], ?_, ?_, k6, ⟨cl1 ++ cl, by rw [k7, ← hcl, List.append_assoc],
            k7'.trans (List.sublist_append_right _ _)⟩, ?_, ?_⟩
          · rw [List.map_cons, k4, Piece.arg, show hi + 1 - j = l.length by omega, ← hsl]
          · intro P hP
            rcases List.mem_cons.1 hP with rfl | hP
            · simp only [Piece.Bad]; omega
            · exact k5 P hP
          · intro h; exact absurd List.mem_cons_self h
          · intro _
            exact (k8 (hdm.noErr hno) _).2 ((g6 _).2 herr)
        · exact .inr k
      · exact .inr k
  | node γ j r rule' cs k us fs k' hrl hdm1 hha hdm2 ih1 ih2 =>
    intro lg as n m i rule hev hrun hread hpos hv hr hd hp1 hp2
    obtain ⟨d1, d2⟩ := hat hd
    obtain ⟨hr', hrne⟩ := Gram.aug_get (fresh := fresh) hrl
    rw [hlen] at hrne
    obtain ⟨a, hv'⟩ := Expects.item (r0 := ⟨fresh, [.nt start]⟩) (by rw [← hlen]; exact Gram.aug_start) (hfr.aug hx.unused) hr' ⟨i, rule, hv, hr, d1⟩
    simp only [gram, List.getElem?_map, Option.map_eq_some_iff] at hrl
    obtain ⟨rule0, hrule0, rfl⟩ := hrl
    cases hev with
    | node _ rule1 _ lg1 args v _ lg2 as hr1 hev1 hgen hev2 =>
      rw [hrule0] at hr1
      cases hr1
      rcases ih1 hev1 hrun hread hpos hv' hr' (by simp) hp1 (hp2.imp id (by simp only [errs, Tree.errs, List.append_eq_nil_iff]; exact And.left)) with
        ⟨n1, m1, qs, k1, k2, k3, k4, k5, k6, ⟨cl, k7, k7'⟩, k8, k9⟩ | kf
      · have hread1 : m1.read idx = γ ++ rule0.rhs := by
          rw [Mach.read, k2, List.map_append, k3]
          rw [Mach.read] at hread
          rw [hread]
          rfl
        have hahead : m1.ahead idx input = tokenAt idx input k := by rw [Mach.ahead, k6]; rfl
        obtain ⟨_, _, c, hsim⟩ := k1.known hx hfr MachSim.init (by intro keep lo hi h; simp [Mach.init] at h) (.inl ⟨[], LInv.init⟩)
        have hwalk : p.tab.walk (m1.read idx) = some c.state := hsim.seg.walk
        have hred := reduces_of hx hnw hcy hne (r := r) (a := m1.ahead idx input) hwalk hrne (by
          rw [← hlen, Gram.complete_iff hfr hx.unused (by rw [hlen]; exact hrne), hread1, hahead]
          exact hha)
        have hstep : MStep rules ((gram rules start).aug fresh) rules.length start idx input m1 _ :=
          .reduce r rule0 m.pieces qs v hred hrule0 k2 k3 k5 (by rw [k4]; exact hgen)
        have hpend : ∀ r', (m1.pending r' ∧ ¬ m1.pending r) ↔ m.pending r' := by
          intro r'
          by_cases he : Sym.tm .err ∈ rule0.rhs
          · have h1 := k9 he
            have h2 : ∀ r, ¬ m.pending r := by
              rcases hp2 with h | h
              · exact h
              · simp only [errs, Tree.errs, List.append_eq_nil_iff] at h
                exact absurd he (hdm1.noErr h.1)
            exact ⟨fun h => absurd h1 h.2, fun h => absurd h (h2 r')⟩
          · have h1 := k8 he
            rw [h1, h1]
            refine ⟨And.left, fun h => ⟨h, fun hr => he ?_⟩⟩
            obtain ⟨rule2, e1, e2⟩ := hp1 r hr
            rw [hrule0] at e1
            cases e1
            exact e2
        rcases ih2 hev2 (k1.then (.more _ _ _ _ hstep (.zero _))) (by
            rw [Mach.read] at hread ⊢
            simp only [List.map_append, hread]
            rfl) k6 (Valid.advance γ i rule _ hv hr d1) hr d2 (fun r' h => hp1 r' ((hpend r').1 h))
          (by
            rcases hp2 with h | h
            · exact .inl fun r' h' => h r' ((hpend r').1 h')
            · simp only [errs, Tree.errs, List.append_eq_nil_iff] at h
              exact .inr h.2) with ⟨n', m', qs', b1, b2, b3, b4, b5, b6, ⟨cl', b7, b7'⟩, b8, b9⟩ | kf
        · refine .inl ⟨n', m', .nt rule0.lhs v (startOf (m1.look input).seen qs) :: qs', b1, by simp [b2], by simp [Piece.sym, b3, Rule.plain], by simp [Piece.arg, b4], ?_, b6,
            ⟨cl ++ (r, args) :: cl', by rw [b7]; simp [k7, k4], k7'.append (b7'.cons_cons _)⟩, ?_, ?_⟩
          · intro P hP
            rcases List.mem_cons.1 hP with rfl | hP
            · exact id
            · exact b5 P hP
          · intro hno r'
            rw [b8 (fun h => hno (List.mem_cons_of_mem _ h)) r']
            exact hpend r'
          · intro hm
            rcases List.mem_cons.1 hm with hm | hm
            · cases hm
            · exact b9 hm
        · exact .inr kf
      · exact .inr kf

theorem endsWithin {p : Parser N T E} (hx : Ctx p rules start fresh) {n : Nat} (hn : ∀ c, run idx p n (Cfg.init p input) ≠ .more c) : EndsWithin rules idx input start fresh n := by
  intro k m hk
  rcases Nat.lt_or_ge k n with h | h
  · exact h
  · exfalso
    have := ((MachSim.init (p := p) (idx := idx) (input := input)).run hx _).2 _ hk
    obtain ⟨d, rfl⟩ : ∃ d, k = n + d := ⟨k - n, by omega⟩
    rw [run_add] at this
    cases hr : run idx p n (Cfg.init p input) with
    | more c => exact hn c hr
    | done x c => rw [hr] at this; exact this
    | panic => rw [hr] at this; exact this

theorem Gram.ErrorsStop.errorsApart (h : g.ErrorsStop) : g.ErrorsApart := by
  intro r hr α β he ρ hd
  obtain ⟨t, β', rfl⟩ := h r hr α β he
  cases derives_head hd

theorem Damaged.unfailing (hc : Unfailing rules) {γ us : List Sym} {j k : Nat} {fs : List (Tree T)} (h : Damaged (gram rules start) idx input γ us j fs k) :
    ∃ lg as, Evals rules fs lg (.ok as) := by
  induction h with
  | nil => exact ⟨_, _, .nil⟩
  | leaf _ _ _ _ _ _ _ _ ih => obtain ⟨lg, as, ih⟩ := ih; exact ⟨_, _, .leaf _ _ _ _ _ ih⟩
  | err _ _ _ _ _ _ _ _ _ _ ih => obtain ⟨lg, as, ih⟩ := ih; exact ⟨_, _, .err _ _ _ _ _ ih⟩
  | node _ _ r rule _ _ _ _ _ h1 _ _ _ ih1 ih2 =>
    obtain ⟨lg1, as1, ih1⟩ := ih1
    obtain ⟨lg2, as2, ih2⟩ := ih2
    simp only [gram, List.getElem?_map, Option.map_eq_some_iff] at h1
    obtain ⟨rule0, h1, _⟩ := h1
    obtain ⟨v, hv⟩ := hc rule0 (List.mem_of_getElem? h1) as1
    exact ⟨_, _, .node _ _ _ _ _ _ _ _ _ h1 ih1 hv ih2⟩

end Verif.Par
