import Verif.Par.Lasting
import Verif.Par.KeepProof

/-!
# Callbacks that error recovery never undoes: the invariant
-/

namespace Verif.Par

variable {N T E : Type} {rules : List (Rule N T E)} {R : List PRule} {s start : Nat} {r0 : PRule} {idx : T → Nat} {input : List T}

theorem callsOf_append (Q : Nat → Bool) (l k : List (Call N T)) : callsOf rules Q (l ++ k) = callsOf rules Q l ++ callsOf rules Q k := by
  simp [callsOf]

/-- In a phrase that is not in `Q`, there are no calls for `Q`. -/
theorem Evals.none_of {g : Gram} {Q : Nat → Bool} (hQ : g.UpClosed Q) (hg : ∀ (r : Nat) (rule : Rule N T E), rules[r]? = some rule → rule.plain ∈ g.rules)
    {fs : List (Tree T)} {lg : List (Call N T)} {x : Except E (List (Arg N T))} (h : Evals rules fs lg x) : ∀ us,
      Built (rules.map Rule.plain) idx input us fs → (∀ n, .nt n ∈ us → Q n = false) → callsOf rules Q lg = [] := by
  have key : ∀ (r : Nat) (rule : Rule N T E) (cs : List (Tree T)) (fs : List (Tree T)) us, rules[r]? = some rule →
      Built (rules.map Rule.plain) idx input us (.node r cs :: fs) → (∀ n, .nt n ∈ us → Q n = false) →
      Q rule.lhs = false ∧ (Built (rules.map Rule.plain) idx input rule.rhs cs ∧ ∀ n, .nt n ∈ rule.rhs → Q n = false) ∧
      ∃ us', Built (rules.map Rule.plain) idx input us' fs ∧ ∀ n, .nt n ∈ us' → Q n = false := by
    intro r rule cs fs us hr hb hu
    generalize hfs : Tree.node r cs :: fs = fs' at hb
    cases hb with
    | nil => cases hfs
    | leaf => cases hfs
    | err => cases hfs
    | node r' rule' cs' us fs1 h1 h2 h3 =>
      cases hfs
      simp only [List.getElem?_map, hr, Option.map_some, Option.some.injEq] at h1
      subst h1
      have hl : Q rule.lhs = false := hu _ (List.mem_cons_self)
      refine ⟨hl, ⟨h2, fun n hn => ?_⟩, us, h3, fun n hn => hu n (List.mem_cons_of_mem _ hn)⟩
      cases hc : Q n with
      | false => rfl
      | true =>
        have : Q rule.lhs = true := hQ rule.plain (hg r rule hr) n hn hc
        rw [hl] at this
        cases this
  have one : ∀ (r : Nat) (rule : Rule N T E) (args : List (Arg N T)) (l : List (Call N T)), rules[r]? = some rule → Q rule.lhs = false →
      callsOf rules Q ((r, args) :: l) = callsOf rules Q l := by
    intro r rule args l h1 h2
    rw [callsOf, List.filter_cons]
    simp [h1, h2, callsOf]
  have tl : ∀ {f : Tree T} {fs us}, Built (rules.map Rule.plain) idx input us (f :: fs) → (∀ n, .nt n ∈ us → Q n = false) →
      ∃ us', Built (rules.map Rule.plain) idx input us' fs ∧ ∀ n, .nt n ∈ us' → Q n = false := by
    intro f fs us hb hu
    generalize hfs : f :: fs = fs' at hb
    cases hb with
    | nil => cases hfs
    | leaf i t us fs1 h1 h2 => cases hfs; exact ⟨_, h2, fun n hn => hu n (List.mem_cons_of_mem _ hn)⟩
    | err lo l us fs1 h1 h2 h3 => cases hfs; exact ⟨_, h3, fun n hn => hu n (List.mem_cons_of_mem _ hn)⟩
    | node r' rule' cs' us fs1 h1 h2 h3 => cases hfs; exact ⟨_, h3, fun n hn => hu n (List.mem_cons_of_mem _ hn)⟩
  induction h with
  | nil => intros; rfl
  | leaf i t fs lg as _ ih => intro us hb hu; obtain ⟨us', k1, k2⟩ := tl hb hu; exact ih us' k1 k2
  | leafE i t fs lg e _ ih => intro us hb hu; obtain ⟨us', k1, k2⟩ := tl hb hu; exact ih us' k1 k2
  | err lo l fs lg as _ ih => intro us hb hu; obtain ⟨us', k1, k2⟩ := tl hb hu; exact ih us' k1 k2
  | errE lo l fs lg e _ ih => intro us hb hu; obtain ⟨us', k1, k2⟩ := tl hb hu; exact ih us' k1 k2
  | node r rule cs lg1 args v fs lg2 as hr _ _ _ ih1 ih2 =>
    intro us hb hu
    obtain ⟨k1, ⟨k2, k3⟩, us', k4, k5⟩ := key r rule cs fs us hr hb hu
    rw [callsOf_append, one _ _ _ _ hr k1, ih1 _ k2 k3, ih2 _ k4 k5]; rfl
  | nodeE r rule cs lg1 args v fs lg2 e hr _ _ _ ih1 ih2 =>
    intro us hb hu
    obtain ⟨k1, ⟨k2, k3⟩, us', k4, k5⟩ := key r rule cs fs us hr hb hu
    rw [callsOf_append, one _ _ _ _ hr k1, ih1 _ k2 k3, ih2 _ k4 k5]; rfl
  | fail r rule cs lg1 args e fs hr _ _ ih1 =>
    intro us hb hu
    obtain ⟨k1, ⟨k2, k3⟩, us', k4, k5⟩ := key r rule cs fs us hr hb hu
    rw [callsOf_append, one _ _ _ _ hr k1, ih1 _ k2 k3]; rfl
  | inner r cs lg1 e fs _ ih1 =>
    intro us hb hu
    generalize hfs : Tree.node r cs :: fs = fs' at hb
    cases hb with
    | nil => cases hfs
    | leaf => cases hfs
    | err => cases hfs
    | node r' rule' cs' us fs1 h1 h2 h3 =>
      cases hfs
      rw [List.getElem?_map, Option.map_eq_some_iff] at h1
      obtain ⟨rule, hr, rfl⟩ := h1
      obtain ⟨k1, ⟨k2, k3⟩, us', k4, k5⟩ := key r rule cs fs _ hr (.node r rule.plain cs us fs (by simp [hr]) h2 h3) hu
      exact ih1 _ k2 k3

/-- The entries of the stack contain all the calls for `Q`. -/
structure LInv (Q : Nat → Bool) (rules : List (Rule N T E)) (R : List PRule) (s start : Nat) (idx : T → Nat) (input : List T)
    (m : Mach N T) (es : List (Entry N T)) : Prop where
  pieces : m.pieces = es.map Prod.fst
  pos : m.pos ≤ input.length
  stand : ∀ e ∈ es, Stands rules idx input e
  calls : (madeBy es).Sublist m.calls
  all : callsOf rules Q (madeBy es) = callsOf rules Q m.calls
  inc : (leaves (trees es)).Pairwise fun x y => x.2 < y.2
  low : ∀ x ∈ marks (trees es), x ≤ m.pos
  before : ∀ l e k, es = l ++ e :: k → ∀ i, e.1.index = some i → ∀ x ∈ marks (trees l), x ≤ i
  move : ∀ ps X v i, m.pieces = ps ++ [.nt X v i] → ¬ NoMove R s start (m.read idx) (m.ahead idx input)

/-- No input, and an `error` on the stack: this ends in a panic. -/
def Doomed (input : List T) (m : Mach N T) : Prop := input = [] ∧ ∃ P ∈ m.pieces, P.Bad input

theorem Doomed.step {m m' : Mach N T} (h : Doomed input m) (hst : MStep rules R s start idx input m (.more m')) : Doomed input m' := by
  obtain ⟨rfl, P, hP, hb⟩ := h
  refine ⟨rfl, ?_⟩
  generalize ho : MOut.more m' = o at hst
  cases hst with
  | accept v i h1 h2 => cases ho
  | fail r rule ps cs e h1 h2 h3 h4 h5 h6 => cases ho
  | bad r rule ps cs P h1 h2 h3 h4 h5 h6 => cases ho
  | giveUp t h1 h2 h3 => cases ho
  | giveUpEnd h1 h2 h3 => cases ho
  | shift t h1 h2 => simp at h1
  | reduce r rule ps cs v h1 h2 h3 h4 h5 h6 =>
    cases ho
    rw [h3] at hP
    rcases List.mem_append.1 hP with hP | hP
    · exact ⟨P, List.mem_append_left _ hP, hb⟩
    · exact absurd hb (h5 P hP)
  | recover t keep drop h1 h2 h3 h4 h5 => simp at h1
  | recoverEnd h1 h2 h3 =>
    cases ho
    exact ⟨P, List.mem_append_left _ hP, hb⟩

theorem LInv.step {g : Gram} {Q : Nat → Bool} (hc : TreeCtx g rules R s start r0) (hQ : g.UpClosed Q)
    (hk : ∀ γ δ X Y r, Q X = true → Expects R s (γ ++ δ ++ [.nt X]) Y → ErrRule R s γ r →
      ErrRule R s (γ ++ δ ++ [.nt X]) r ∨ ErrRule R s (γ ++ δ ++ [.nt X, Y]) r) {m m' : Mach N T} {es : List (Entry N T)}
    (h : LInv Q rules R s start idx input m es) (hv : ∃ i, Valid R s (m.read idx) i)
    (hst : MStep rules R s start idx input m (.more m')) : (∃ es', LInv Q rules R s start idx input m' es') ∨ Doomed input m' := by
  have hpos := h.pos
  have hmove := h.move
  generalize ho : MOut.more m' = o at hst
  cases hst with
  | accept v i h1 h2 => cases ho
  | fail r rule ps cs e h1 h2 h3 h4 h5 h6 => cases ho
  | bad r rule ps cs P h1 h2 h3 h4 h5 h6 => cases ho
  | giveUp t h1 h2 h3 => cases ho
  | giveUpEnd h1 h2 h3 => cases ho
  | shift t h1 h2 =>
    cases ho
    have hlt : m.pos < input.length := by rw [List.getElem?_eq_some_iff] at h1; exact h1.1
    refine .inl ⟨es ++ [(.tok t m.pos, .leaf m.pos t, [])], ?_, hlt, ?_, ?_, ?_, ?_, ?_, ?_, ?_⟩
    · simp [h.pieces]
    · intro e he
      rcases List.mem_append.1 he with he | he
      · exact h.stand e he
      · cases List.mem_singleton.1 he
        exact ⟨rfl, rfl, h1⟩
    · simpa [madeBy, Mach.look] using h.calls
    · simpa [madeBy, Mach.look] using h.all
    · rw [trees, List.map_append, leaves_append]
      refine List.pairwise_append.2 ⟨h.inc, by simp [leaves, Tree.leaves], ?_⟩
      intro x hx y hy
      simp [leaves, Tree.leaves] at hy
      subst hy
      exact marks_leaves h.low x hx
    · intro x hx
      rw [trees, List.map_append, mem_marks_append] at hx
      rcases hx with hx | hx
      · exact Nat.le_succ_of_le (h.low x hx)
      · simp [marks, leaves, Tree.leaves, errs, Tree.errs] at hx
        subst hx
        exact Nat.le_refl _
    · intro l e k hk i hi x hx
      rcases snoc_split hk with ⟨rfl, rfl, rfl⟩ | ⟨k', rfl, hk'⟩
      · cases hi
        exact h.low x hx
      · exact h.before l e k' hk' i hi x hx
    · intro ps X v i hps
      have := (List.append_inj' hps rfl).2
      cases this
  | reduce r rule ps cs v h1 h2 h3 h4 h5 h6 =>
    cases ho
    obtain ⟨es0, es1, rfl, e0, e1⟩ := List.map_eq_append_iff.1 (h.pieces.symm.trans h3)
    subst e0 e1
    obtain ⟨p1, p2, p3⟩ := hc.plain r rule h2
    have hstand1 : ∀ e ∈ es1, Stands rules idx input e := fun e he => h.stand e (List.mem_append_right _ he)
    obtain ⟨q1, q2⟩ := stands_args hstand1
    have hsym : (es1.map fun e => e.1.sym idx) = rule.rhs := by rw [← h4, List.map_map]; rfl
    have harg : (es1.map fun e => e.1.arg input) = (es1.map Prod.fst).map (Piece.arg input) := by rw [List.map_map]; rfl
    rw [hsym] at q1
    rw [harg] at q2
    have hlow0 : ∀ x ∈ marks (trees es0), x ≤ m.pos := by
      intro x hx
      refine h.low x ?_
      rw [trees, List.map_append, mem_marks_append]
      exact .inl hx
    refine .inl ⟨es0 ++ [(.nt rule.lhs v (startOf (m.look input).seen (es1.map Prod.fst)), .node r (trees es1), madeBy es1 ++ [(r, (es1.map Prod.fst).map (Piece.arg input))])],
      ?_, hpos, ?_, ?_, ?_, ?_, ?_, ?_, ?_⟩
    · simp
    · intro e he
      rcases List.mem_append.1 he with he | he
      · exact h.stand e (List.mem_append_left _ he)
      · cases List.mem_singleton.1 he
        exact ⟨Built.node r rule.plain _ _ _ p3 q1 .nil, by simpa using Evals.node r rule _ _ _ v _ _ _ h2 q2 h6 .nil⟩
    · have := h.calls
      simp only [madeBy, List.flatMap_append] at this ⊢
      simp only [List.flatMap_cons, List.flatMap_nil, List.append_nil, ← List.append_assoc]
      exact List.Sublist.append this (List.Sublist.refl _)
    · have := h.all
      simp only [madeBy, List.flatMap_append] at this ⊢
      simp only [List.flatMap_cons, List.flatMap_nil, List.append_nil, ← List.append_assoc]
      rw [callsOf_append, this, ← callsOf_append]
    · have := h.inc
      rw [trees, List.map_append, leaves_append] at this ⊢
      simp only [List.map_cons, List.map_nil, leaves_node]
      exact this
    · intro x hx
      refine h.low x ?_
      rw [trees, List.map_append, mem_marks_append] at hx ⊢
      simpa [marks, leaves_node, errs_node] using hx
    · intro l e k hk i hi x hx
      rcases snoc_split hk with ⟨rfl, rfl, rfl⟩ | ⟨k', rfl, hk'⟩
      · cases hi
        refine startOf_below (es := es1) ?_ h.before x hx
        intro y hy
        have := hlow0 y hy
        simp only [Mach.look]
        omega
      · exact h.before l e (k' ++ es1) (by rw [hk']; simp) i hi x hx
    · intro ps X v' i hps
      have hread : m.read idx = (es0.map Prod.fst).map (Piece.sym idx) ++ rule.plain.rhs := by
        rw [Mach.read, h3, List.map_append, h4]; rfl
      have hcomp := h1.2.2.2.1
      rw [hread] at hcomp
      obtain ⟨n, hn⟩ := hcomp.reduced hc.start_rule hc.only hc.fruitful p1 h1.2.2.1
      have hr' : Mach.read idx { m.look input with
          pieces := es0.map Prod.fst ++ [.nt rule.lhs v (startOf (m.look input).seen (es1.map Prod.fst))]
          pending := fun r' => m.pending r' ∧ ¬ m.pending r
          calls := m.calls ++ [(r, (es1.map Prod.fst).map (Piece.arg input))] } = (es0.map Prod.fst).map (Piece.sym idx) ++ [.nt rule.plain.lhs] := by
        simp [Mach.read, Piece.sym, Rule.plain]
      rw [hr']
      intro hno
      rcases hn.cases hc.only with g2 | ⟨j, r', x', g2, g3, g4, g5⟩
      · exact hno.1 g2
      · by_cases hj : j = s
        · subst hj
          obtain ⟨k1, k2⟩ := hc.accepts _ _ g3
          exact hno.2.1 ⟨k2, k1⟩
        · exact hno.2.2 j hj g3
  | recover t keep drop h1 h2 h3 h4 h5 =>
    cases ho
    have hlt : m.pos < input.length := by rw [List.getElem?_eq_some_iff] at h1; exact h1.1
    have ha : m.ahead idx input = .sym (idx t) := by simp [Mach.ahead, h1]
    obtain ⟨es0, es1, rfl, e0, e1⟩ := List.map_eq_append_iff.1 (h.pieces.symm.trans h3)
    subst e0 e1
    have hlow0 : ∀ x ∈ marks (trees es0), x ≤ m.pos := by
      intro x hx
      refine h.low x ?_
      rw [trees, List.map_append, mem_marks_append]
      exact .inl hx
    -- nothing that is given up contains calls for `Q`
    have hnone : callsOf rules Q (madeBy es1) = [] := by
      have : ∀ e ∈ es1, callsOf rules Q e.2.2 = [] := by
        intro e he
        obtain ⟨P, f, lg⟩ := e
        have hs := h.stand _ (List.mem_append_right es0 he)
        cases P with
        | tok t' i' => obtain ⟨_, rfl, _⟩ := hs; rfl
        | err lo' hi' => obtain ⟨_, rfl, _⟩ := hs; rfl
        | nt X v i =>
          obtain ⟨b1, b2⟩ := hs
          cases hX : Q X with
          | false =>
            refine b2.none_of hQ (fun r rule hr => (hc.plain r rule hr).2.1) _ b1 ?_
            intro n hn
            simp only [List.mem_singleton, Sym.nt.injEq] at hn
            rw [hn]; exact hX
          | true =>
            exfalso
            obtain ⟨l, k, rfl⟩ := List.append_of_mem he
            cases k with
            | nil => exact hmove ((es0 ++ l).map Prod.fst) X v i (by rw [h3]; simp) (by rw [ha]; exact h2)
            | cons e2 k =>
              obtain ⟨rc, hrc, hpend⟩ := h4
              obtain ⟨it, hit⟩ := hv
              have hex : Expects R s ((es0.map Prod.fst).map (Piece.sym idx) ++ (l.map Prod.fst).map (Piece.sym idx) ++ [.nt X]) (e2.1.sym idx) := by
                refine hit.expects_prefix _ _ ((k.map Prod.fst).map (Piece.sym idx)) ?_
                rw [Mach.read, h3]
                simp [Piece.sym]
              rcases hk _ _ _ _ _ hX hex hrc with h7 | h7
              · refine h5 ((es0 ++ l).map Prod.fst ++ [.nt X v i]) ((e2 :: k).map Prod.fst) (by rw [h3]; simp) (by simp) rc ⟨?_, hpend⟩
                simpa [Piece.sym] using h7
              · refine h5 ((es0 ++ l).map Prod.fst ++ [.nt X v i, e2.1]) (k.map Prod.fst) (by rw [h3]; simp) (by simp) rc ⟨?_, hpend⟩
                simpa [Piece.sym] using h7
      clear h h3 h5 hlow0
      induction es1 with
      | nil => rfl
      | cons e es1 ih =>
        rw [madeBy, List.flatMap_cons, callsOf_append, this e List.mem_cons_self, List.nil_append]
        exact ih fun e he => this e (List.mem_cons_of_mem _ he)
    generalize hlo : min (startOf m.pos (es1.map Prod.fst)) (errStartOf m.pos (es1.map Prod.fst)) = lo
    have hle : lo ≤ m.pos := by
      have : startOf m.pos (es1.map Prod.fst) ≤ m.pos ∨ errStartOf m.pos (es1.map Prod.fst) ≤ m.pos := by
        right
        rcases errStartOf_or m.pos (es1.map Prod.fst) with k | ⟨hi, k⟩
        · omega
        · obtain ⟨⟨P, f, lg⟩, k1, k2⟩ := List.mem_map.1 k
          simp only at k2
          subst k2
          obtain ⟨rfl, _⟩ := h.stand _ (List.mem_append_right _ k1)
          refine h.low _ ?_
          rw [trees, List.map_append, mem_marks_append]
          exact .inr (mem_marks_err (List.mem_map.2 ⟨_, k1, rfl⟩))
      omega
    refine .inl ⟨es0 ++ [(.err lo m.pos, .err lo (slice input lo m.pos), [])], ?_, ?_, ?_, ?_, ?_, ?_, ?_, ?_, ?_⟩
    · simp
    · simp only
      split <;> omega
    · intro e he
      rcases List.mem_append.1 he with he | he
      · exact h.stand e (List.mem_append_left _ he)
      · cases List.mem_singleton.1 he
        exact ⟨rfl, rfl, hle, hlt⟩
    · have := h.calls
      simp only [madeBy, List.flatMap_append] at this ⊢
      simp only [List.flatMap_cons, List.flatMap_nil, List.append_nil]
      exact (List.sublist_append_left _ _).trans this
    · have := h.all
      simp only [madeBy, List.flatMap_append] at this ⊢
      simp only [List.flatMap_cons, List.flatMap_nil, List.append_nil]
      rw [show callsOf rules Q (Mach.look input m).calls = callsOf rules Q m.calls from rfl, ← this, callsOf_append, hnone, List.append_nil]
    · have := h.inc
      rw [trees, List.map_append, leaves_append] at this ⊢
      simp only [List.map_cons, List.map_nil]
      simpa [leaves, Tree.leaves] using (List.pairwise_append.1 this).1
    · intro x hx
      rw [trees, List.map_append, mem_marks_append] at hx
      rcases hx with hx | hx
      · have k1 := hlow0 x hx
        have k2 := startOf_below (es := es1) hlow0 h.before x hx
        simp only
        split <;> omega
      · simp [marks, leaves, Tree.leaves, errs, Tree.errs] at hx
        subst hx
        simp only
        split <;> omega
    · intro l e k hk i hi x hx
      rcases snoc_split hk with ⟨rfl, rfl, rfl⟩ | ⟨k', rfl, hk'⟩
      · cases hi
      · exact h.before l e (k' ++ es1) (by rw [hk']; simp) i hi x hx
    · intro ps X v i hps
      have := (List.append_inj' hps rfl).2
      cases this
  | recoverEnd h1 h2 h3 =>
    cases ho
    by_cases hne : input = []
    · right
      subst hne
      exact ⟨rfl, .err 0 0, by simp, Nat.le_refl _⟩
    have hlen : 0 < input.length := List.length_pos_iff.2 hne
    refine .inl ⟨es ++ [(.err 0 0, .err 0 (slice input 0 0), [])], ?_, hpos, ?_, ?_, ?_, ?_, ?_, ?_, ?_⟩
    · simp [h.pieces]
    · intro e he
      rcases List.mem_append.1 he with he | he
      · exact h.stand e he
      · cases List.mem_singleton.1 he
        exact ⟨rfl, rfl, Nat.le_refl _, hlen⟩
    · simpa [madeBy, Mach.look] using h.calls
    · simpa [madeBy, Mach.look] using h.all
    · have := h.inc
      rw [trees, List.map_append, leaves_append]
      simpa [leaves, Tree.leaves] using this
    · intro x hx
      rw [trees, List.map_append, mem_marks_append] at hx
      rcases hx with hx | hx
      · exact h.low x hx
      · simp [marks, leaves, Tree.leaves, errs, Tree.errs] at hx
        subst hx
        exact Nat.zero_le _
    · intro l e k hk i hi x hx
      rcases snoc_split hk with ⟨rfl, rfl, rfl⟩ | ⟨k', rfl, hk'⟩
      · cases hi
      · exact h.before l e k' hk' i hi x hx
    · intro ps X v i hps
      have := (List.append_inj' hps rfl).2
      cases this

end Verif.Par
