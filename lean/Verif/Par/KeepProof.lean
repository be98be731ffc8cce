import Verif.Par.Keep
import Verif.Par.TraceMain

/-!
# What error recovery keeps: the invariant
-/

namespace Verif.Par

variable {N T E : Type} {rules : List (Rule N T E)} {R : List PRule} {s start : Nat} {r0 : PRule} {idx : T → Nat} {input : List T}

/-- The entries of the stack, the lowest of which contains the tree `f0` of the phrase `X0`. -/
structure KInv (g : Gram) (X0 : Nat) (f0 : Tree T) (rules : List (Rule N T E)) (R : List PRule) (s start : Nat) (idx : T → Nat) (input : List T)
    (m : Mach N T) (es : List (Entry N T)) : Prop where
  pieces : m.pieces = es.map Prod.fst
  pos : m.pos ≤ input.length
  stand : ∀ e ∈ es, Stands rules idx input e
  calls : (madeBy es).Sublist m.calls
  inc : (leaves (trees es)).Pairwise fun x y => x.2 < y.2
  low : ∀ x ∈ marks (trees es), x ≤ m.pos
  before : ∀ l e k, es = l ++ e :: k → ∀ i, e.1.index = some i → ∀ x ∈ marks (trees l), x ≤ i
  move : ∀ ps X v i, m.pieces = ps ++ [.nt X v i] → ¬ NoMove R s start (m.read idx) (m.ahead idx input)
  bottom : ∃ Z v i f lg rest, es = (.nt Z v i, f, lg) :: rest ∧ AtLeft f0 f ∧ g.Corner X0 Z

theorem KInv.step {g : Gram} {X0 : Nat} {f0 : Tree T} (hc : TreeCtx g rules R s start r0)
    (hk : ∀ Z Y r, g.Corner X0 Z → Expects R s [.nt Z] Y → ErrRule R s [] r → ErrRule R s [.nt Z] r ∨ ErrRule R s [.nt Z, Y] r) (hne : input ≠ []) {m m' : Mach N T} {es : List (Entry N T)}
    (h : KInv g X0 f0 rules R s start idx input m es) (hv : ∃ i, Valid R s (m.read idx) i)
    (hst : MStep rules R s start idx input m (.more m')) : ∃ es', KInv g X0 f0 rules R s start idx input m' es' := by
  have hpos := h.pos
  have hmove := h.move
  generalize ho : MOut.more m' = o at hst
  cases hst with
  | accept v i h1 h2 => cases ho
  | fail r rule ps cs e h1 h2 h3 h4 h5 h6 => cases ho
  | bad r rule ps cs P h1 h2 h3 h4 h5 h6 => cases ho
  | giveUp t h1 h2 h3 => cases ho
  | giveUpEnd h1 h2 h3 => cases ho
  | shift t h1 h2 =>
    cases ho
    have hlt : m.pos < input.length := by rw [List.getElem?_eq_some_iff] at h1; exact h1.1
    refine ⟨es ++ [(.tok t m.pos, .leaf m.pos t, [])], ?_, hlt, ?_, ?_, ?_, ?_, ?_, ?_, ?_⟩
    · simp [h.pieces]
    · intro e he
      rcases List.mem_append.1 he with he | he
      · exact h.stand e he
      · cases List.mem_singleton.1 he
        exact ⟨rfl, rfl, h1⟩
    · simpa [madeBy, Mach.look] using h.calls
    · rw [trees, List.map_append, leaves_append]
      refine List.pairwise_append.2 ⟨h.inc, by simp [leaves, Tree.leaves], ?_⟩
      intro x hx y hy
      simp [leaves, Tree.leaves] at hy
      subst hy
      exact marks_leaves h.low x hx
    · intro x hx
      rw [trees, List.map_append, mem_marks_append] at hx
      rcases hx with hx | hx
      · exact Nat.le_succ_of_le (h.low x hx)
      · simp [marks, leaves, Tree.leaves, errs, Tree.errs] at hx
        subst hx
        exact Nat.le_refl _
    · intro l e k hk i hi x hx
      rcases snoc_split hk with ⟨rfl, rfl, rfl⟩ | ⟨k', rfl, hk'⟩
      · cases hi
        exact h.low x hx
      · exact h.before l e k' hk' i hi x hx
    · intro ps X v i hps
      have := (List.append_inj' hps rfl).2
      cases this
    · obtain ⟨Z, v, i, f, lg, rest, rfl, k1, k2⟩ := h.bottom
      exact ⟨Z, v, i, f, lg, _, rfl, k1, k2⟩
  | reduce r rule ps cs v h1 h2 h3 h4 h5 h6 =>
    cases ho
    obtain ⟨es0, es1, rfl, e0, e1⟩ := List.map_eq_append_iff.1 (h.pieces.symm.trans h3)
    subst e0 e1
    obtain ⟨p1, p2, p3⟩ := hc.plain r rule h2
    have hstand1 : ∀ e ∈ es1, Stands rules idx input e := fun e he => h.stand e (List.mem_append_right _ he)
    obtain ⟨q1, q2⟩ := stands_args hstand1
    have hsym : (es1.map fun e => e.1.sym idx) = rule.rhs := by rw [← h4, List.map_map]; rfl
    have harg : (es1.map fun e => e.1.arg input) = (es1.map Prod.fst).map (Piece.arg input) := by rw [List.map_map]; rfl
    rw [hsym] at q1
    rw [harg] at q2
    have hlow0 : ∀ x ∈ marks (trees es0), x ≤ m.pos := by
      intro x hx
      refine h.low x ?_
      rw [trees, List.map_append, mem_marks_append]
      exact .inl hx
    refine ⟨es0 ++ [(.nt rule.lhs v (startOf (m.look input).seen (es1.map Prod.fst)), .node r (trees es1), madeBy es1 ++ [(r, (es1.map Prod.fst).map (Piece.arg input))])],
      ?_, hpos, ?_, ?_, ?_, ?_, ?_, ?_, ?_⟩
    · simp
    · intro e he
      rcases List.mem_append.1 he with he | he
      · exact h.stand e (List.mem_append_left _ he)
      · cases List.mem_singleton.1 he
        exact ⟨Built.node r rule.plain _ _ _ p3 q1 .nil, by simpa using Evals.node r rule _ _ _ v _ _ _ h2 q2 h6 .nil⟩
    · have := h.calls
      simp only [madeBy, List.flatMap_append] at this ⊢
      simp only [List.flatMap_cons, List.flatMap_nil, List.append_nil, ← List.append_assoc]
      exact List.Sublist.append this (List.Sublist.refl _)
    · have := h.inc
      rw [trees, List.map_append, leaves_append] at this ⊢
      simp only [List.map_cons, List.map_nil, leaves_node]
      exact this
    · intro x hx
      refine h.low x ?_
      rw [trees, List.map_append, mem_marks_append] at hx ⊢
      simpa [marks, leaves_node, errs_node] using hx
    · intro l e k hk i hi x hx
      rcases snoc_split hk with ⟨rfl, rfl, rfl⟩ | ⟨k', rfl, hk'⟩
      · cases hi
        refine startOf_below (es := es1) ?_ h.before x hx
        intro y hy
        have := hlow0 y hy
        simp only [Mach.look]
        omega
      · exact h.before l e (k' ++ es1) (by rw [hk']; simp) i hi x hx
    · intro ps X v' i hps
      have hread : m.read idx = (es0.map Prod.fst).map (Piece.sym idx) ++ rule.plain.rhs := by
        rw [Mach.read, h3, List.map_append, h4]; rfl
      have hcomp := h1.2.2.2.1
      rw [hread] at hcomp
      obtain ⟨n, hn⟩ := hcomp.reduced hc.start_rule hc.only hc.fruitful p1 h1.2.2.1
      have hr' : Mach.read idx { m.look input with
          pieces := es0.map Prod.fst ++ [.nt rule.lhs v (startOf (m.look input).seen (es1.map Prod.fst))]
          pending := fun r' => m.pending r' ∧ ¬ m.pending r
          calls := m.calls ++ [(r, (es1.map Prod.fst).map (Piece.arg input))] } = (es0.map Prod.fst).map (Piece.sym idx) ++ [.nt rule.plain.lhs] := by
        simp [Mach.read, Piece.sym, Rule.plain]
      rw [hr']
      intro hno
      rcases hn.cases hc.only with g2 | ⟨j, r', x', g2, g3, g4, g5⟩
      · exact hno.1 g2
      · by_cases hj : j = s
        · subst hj
          obtain ⟨k1, k2⟩ := hc.accepts _ _ g3
          exact hno.2.1 ⟨k2, k1⟩
        · exact hno.2.2 j hj g3
    · obtain ⟨Z, v', i, f, lg, rest, e, k1, k2⟩ := h.bottom
      cases es0 with
      | nil =>
        simp only [List.nil_append] at e
        subst e
        refine ⟨_, _, _, _, _, [], rfl, .node _ _ _ k1, ?_⟩
        refine .up rule.plain Z (rest.map fun e => e.1.sym idx) p2 ?_ k2
        have : rule.plain.rhs = rule.rhs := rfl
        rw [this, ← hsym]
        rfl
      | cons e0 es0 =>
        simp only [List.cons_append, List.cons.injEq] at e
        obtain ⟨rfl, rfl⟩ := e
        exact ⟨Z, v', i, f, lg, _, rfl, k1, k2⟩
  | recover t keep drop h1 h2 h3 h4 h5 =>
    cases ho
    have hlt : m.pos < input.length := by rw [List.getElem?_eq_some_iff] at h1; exact h1.1
    have ha : m.ahead idx input = .sym (idx t) := by simp [Mach.ahead, h1]
    obtain ⟨es0, es1, rfl, e0, e1⟩ := List.map_eq_append_iff.1 (h.pieces.symm.trans h3)
    subst e0 e1
    have hlow0 : ∀ x ∈ marks (trees es0), x ≤ m.pos := by
      intro x hx
      refine h.low x ?_
      rw [trees, List.map_append, mem_marks_append]
      exact .inl hx
    have hbot : ∃ Z v i f lg rest, es0 = (.nt Z v i, f, lg) :: rest ∧ AtLeft f0 f ∧ g.Corner X0 Z := by
      obtain ⟨Z, v, i, f, lg, rest, e, k1, k2⟩ := h.bottom
      cases es0 with
      | cons e0 es0 =>
        simp only [List.cons_append, List.cons.injEq] at e
        obtain ⟨rfl, rfl⟩ := e
        exact ⟨Z, v, i, f, lg, _, rfl, k1, k2⟩
      | nil =>
        exfalso
        simp only [List.nil_append] at e
        subst e
        cases rest with
        | nil => exact hmove [] Z v i h3 (by rw [ha]; exact h2)
        | cons e2 es1 =>
          obtain ⟨rc, hrc, hpend⟩ := h4
          obtain ⟨it, hit⟩ := hv
          have hex : Expects R s [.nt Z] (e2.1.sym idx) := by
            refine hit.expects_prefix _ _ ((es1.map Prod.fst).map (Piece.sym idx)) ?_
            rw [Mach.read, h3]
            simp [Piece.sym]
          rcases hk _ _ _ k2 hex hrc with h7 | h7
          · refine h5 [.nt Z v i] ((e2 :: es1).map Prod.fst) (by rw [h3]; simp) (by simp) rc ⟨?_, hpend⟩
            simpa [Piece.sym] using h7
          · refine h5 [.nt Z v i, e2.1] (es1.map Prod.fst) (by rw [h3]; simp) (by simp) rc ⟨?_, hpend⟩
            simpa [Piece.sym] using h7
    generalize hlo : min (startOf m.pos (es1.map Prod.fst)) (errStartOf m.pos (es1.map Prod.fst)) = lo
    have hle : lo ≤ m.pos := by
      have : startOf m.pos (es1.map Prod.fst) ≤ m.pos ∨ errStartOf m.pos (es1.map Prod.fst) ≤ m.pos := by
        right
        rcases errStartOf_or m.pos (es1.map Prod.fst) with k | ⟨hi, k⟩
        · omega
        · obtain ⟨⟨P, f, lg⟩, k1, k2⟩ := List.mem_map.1 k
          simp only at k2
          subst k2
          obtain ⟨rfl, _⟩ := h.stand _ (List.mem_append_right _ k1)
          refine h.low _ ?_
          rw [trees, List.map_append, mem_marks_append]
          exact .inr (mem_marks_err (List.mem_map.2 ⟨_, k1, rfl⟩))
      omega
    refine ⟨es0 ++ [(.err lo m.pos, .err lo (slice input lo m.pos), [])], ?_, ?_, ?_, ?_, ?_, ?_, ?_, ?_, ?_⟩
    · simp
    · simp only
      split <;> omega
    · intro e he
      rcases List.mem_append.1 he with he | he
      · exact h.stand e (List.mem_append_left _ he)
      · cases List.mem_singleton.1 he
        exact ⟨rfl, rfl, hle, hlt⟩
    · have := h.calls
      simp only [madeBy, List.flatMap_append] at this ⊢
      simp only [List.flatMap_cons, List.flatMap_nil, List.append_nil]
      exact (List.sublist_append_left _ _).trans this
    · have := h.inc
      rw [trees, List.map_append, leaves_append] at this ⊢
      simp only [List.map_cons, List.map_nil]
      simpa [leaves, Tree.leaves] using (List.pairwise_append.1 this).1
    · intro x hx
      rw [trees, List.map_append, mem_marks_append] at hx
      rcases hx with hx | hx
      · have k1 := hlow0 x hx
        have k2 := startOf_below (es := es1) hlow0 h.before x hx
        simp only
        split <;> omega
      · simp [marks, leaves, Tree.leaves, errs, Tree.errs] at hx
        subst hx
        simp only
        split <;> omega
    · intro l e k hk i hi x hx
      rcases snoc_split hk with ⟨rfl, rfl, rfl⟩ | ⟨k', rfl, hk'⟩
      · cases hi
      · exact h.before l e (k' ++ es1) (by rw [hk']; simp) i hi x hx
    · intro ps X v i hps
      have := (List.append_inj' hps rfl).2
      cases this
    · obtain ⟨Z, v, i, f, lg, rest, rfl, k1, k2⟩ := hbot
      exact ⟨Z, v, i, f, lg, _, rfl, k1, k2⟩
  | recoverEnd h1 h2 h3 =>
    cases ho
    have hlen : 0 < input.length := List.length_pos_iff.2 hne
    refine ⟨es ++ [(.err 0 0, .err 0 (slice input 0 0), [])], ?_, hpos, ?_, ?_, ?_, ?_, ?_, ?_, ?_⟩
    · simp [h.pieces]
    · intro e he
      rcases List.mem_append.1 he with he | he
      · exact h.stand e he
      · cases List.mem_singleton.1 he
        exact ⟨rfl, rfl, Nat.le_refl _, hlen⟩
    · simpa [madeBy, Mach.look] using h.calls
    · have := h.inc
      rw [trees, List.map_append, leaves_append]
      simpa [leaves, Tree.leaves] using this
    · intro x hx
      rw [trees, List.map_append, mem_marks_append] at hx
      rcases hx with hx | hx
      · exact h.low x hx
      · simp [marks, leaves, Tree.leaves, errs, Tree.errs] at hx
        subst hx
        exact Nat.zero_le _
    · intro l e k hk i hi x hx
      rcases snoc_split hk with ⟨rfl, rfl, rfl⟩ | ⟨k', rfl, hk'⟩
      · cases hi
      · exact h.before l e k' hk' i hi x hx
    · intro ps X v i hps
      have := (List.append_inj' hps rfl).2
      cases this
    · obtain ⟨Z, v, i, f, lg, rest, rfl, k1, k2⟩ := h.bottom
      exact ⟨Z, v, i, f, lg, _, rfl, k1, k2⟩

end Verif.Par
