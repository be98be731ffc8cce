import Verif.Par.Trace
import Verif.Par.SettleMain

/-!
# No token gets lost: the invariant
-/

namespace Verif.Par

variable {N T E : Type} {rules : List (Rule N T E)} {R : List PRule} {s start : Nat} {r0 : PRule} {idx : T → Nat} {input : List T}

theorem covered_append {fs gs : List (Tree T)} {i : Nat} : Covered (fs ++ gs) i ↔ Covered fs i ∨ Covered gs i := by
  simp only [Covered, leaves_append, errs_append, List.mem_append]
  constructor
  · rintro (⟨t, h | h⟩ | ⟨x, h | h, k⟩)
    · exact .inl (.inl ⟨t, h⟩)
    · exact .inr (.inl ⟨t, h⟩)
    · exact .inl (.inr ⟨x, h, k⟩)
    · exact .inr (.inr ⟨x, h, k⟩)
  · rintro ((⟨t, h⟩ | ⟨x, h, k⟩) | (⟨t, h⟩ | ⟨x, h, k⟩))
    · exact .inl ⟨t, .inl h⟩
    · exact .inr ⟨x, .inl h, k⟩
    · exact .inl ⟨t, .inr h⟩
    · exact .inr ⟨x, .inr h, k⟩

theorem leaves_node (r : Nat) (cs : List (Tree T)) : leaves [Tree.node r cs] = leaves cs := by
  simp [leaves, Tree.leaves]

theorem errs_node (r : Nat) (cs : List (Tree T)) : errs [Tree.node r cs] = errs cs := by
  simp [errs, Tree.errs]

theorem covered_node {r : Nat} {cs : List (Tree T)} {i : Nat} : Covered [Tree.node r cs] i ↔ Covered cs i := by
  simp only [Covered, leaves_node, errs_node]

/-- A complete rule, once reduced, is again part of a right sentential form. -/
theorem Complete.reduced (hs : R[s]? = some r0) (hu : ∀ j r', R[j]? = some r' → r'.lhs = r0.lhs → j = s)
    (hfr : ∀ x n y, Gen R [.nt r0.lhs, .tm .eoi] (x ++ .nt n :: y) → ∃ w, Gen R [.nt n] (tms w))
    {x : List Sym} {r : Nat} {rule : PRule} {a : Term} (hr : R[r]? = some rule) (hne : r ≠ s) (h : Complete R s (x ++ rule.rhs) r a) :
    ∃ n, RmAt R r0 n (x ++ [.nt rule.lhs]) a := by
  obtain ⟨rule', h1, h2⟩ := h
  rw [hr] at h1
  cases h1
  obtain ⟨r', δ, w, n, k1, k2, k3, k4⟩ := h2.rm hs hfr
  simp only at k1 k3 k4
  rw [hr] at k1
  cases k1
  rw [List.take_length] at k3
  have hx := List.append_cancel_right k3
  subst hx
  generalize hform : x ++ .nt rule.lhs :: tms (a :: w) = ζ at k4
  cases k4 with
  | zero =>
    exfalso
    cases x with
    | nil =>
      simp only [List.nil_append, List.cons.injEq, Sym.nt.injEq] at hform
      exact hne (hu r rule hr hform.1)
    | cons Z x =>
      cases x with
      | nil => simp at hform
      | cons Z' x => simp at hform
  | step n x1 r1 w1 h0 hr1 =>
    obtain ⟨j1, hj1⟩ := List.getElem?_of_mem hr1
    refine ⟨n, x1, j1, r1, w1, w, hj1, h0, by rw [← hform]; simp, ?_⟩
    rcases nt_before hform.symm with ⟨c, k1, k2⟩ | ⟨c, d, k1, k2, k3⟩
    · rw [k1]; simp
    · rw [k1, k2]; simp

/-- A piece with its tree and the calls made for it. -/
abbrev Entry (N T : Type) := Piece N T × Tree T × List (Call N T)

/-- The piece stands for the tree. -/
def Stands (rules : List (Rule N T E)) (idx : T → Nat) (input : List T) : Entry N T → Prop
  | (.nt n v _, f, lg) => Built (rules.map Rule.plain) idx input [.nt n] [f] ∧ Evals rules [f] lg (.ok [.nt v])
  | (.tok t i, f, lg) => f = .leaf i t ∧ lg = [] ∧ input[i]? = some t
  | (.err lo hi, f, lg) => f = .err lo (slice input lo hi) ∧ lg = [] ∧ lo ≤ hi ∧ hi < input.length

abbrev trees (es : List (Entry N T)) : List (Tree T) := es.map fun e => e.2.1
abbrev madeBy (es : List (Entry N T)) : List (Call N T) := es.flatMap fun e => e.2.2

def Piece.index : Piece N T → Option Nat
  | .nt _ _ i => some i
  | .tok _ i => some i
  | .err _ _ => none

/-- Where the piece begins, if that is known. -/
def Piece.Begins (g : Gram) : Piece N T → Nat → Prop
  | .nt X _ i, b => g.Firm X ∧ b = i
  | .tok _ i, b => b = i
  | .err lo _, b => b = lo

structure TInv (g : Gram) (rules : List (Rule N T E)) (R : List PRule) (r0 : PRule) (idx : T → Nat) (input : List T) (m : Mach N T)
    (es : List (Entry N T)) : Prop where
  pieces : m.pieces = es.map Prod.fst
  pos : m.pos ≤ input.length
  stand : ∀ e ∈ es, Stands rules idx input e
  calls : (madeBy es).Sublist m.calls
  top : ∀ i < m.pos, Covered (trees es) i
  below : ∀ l e k, es = l ++ e :: k → ∀ b, e.1.Begins g b → ∀ i < b, Covered (trees l) i
  inc : (leaves (trees es)).Pairwise fun x y => x.2 < y.2
  low : ∀ x ∈ marks (trees es), x ≤ m.pos
  before : ∀ l e k, es = l ++ e :: k → ∀ i, e.1.index = some i → ∀ x ∈ marks (trees l), x ≤ i
  move : ∀ ps X v i, m.pieces = ps ++ [.nt X v i] → Steady R r0 idx input m

theorem slice_length {lo hi : Nat} (h : hi < input.length) (h' : lo ≤ hi) : (slice input lo hi).length = hi + 1 - lo := by
  simp only [slice, List.length_take, List.length_drop]
  omega

theorem slice_built {lo hi : Nat} (h : hi < input.length) (h' : lo ≤ hi) : slice input lo hi ≠ [] ∧
    (input.drop lo).take (slice input lo hi).length = slice input lo hi := by
  have hl := slice_length h h'
  constructor
  · intro he
    rw [he] at hl
    simp at hl
    omega
  · rw [hl]; rfl

/-- Pieces that stand for trees give the arguments of a callback. -/
theorem stands_args {es : List (Entry N T)} (h : ∀ e ∈ es, Stands rules idx input e) :
    Built (rules.map Rule.plain) idx input (es.map fun e => e.1.sym idx) (trees es) ∧
    Evals rules (trees es) (madeBy es) (.ok (es.map fun e => e.1.arg input)) := by
  induction es with
  | nil => exact ⟨.nil, .nil⟩
  | cons e es ih =>
    obtain ⟨h1, h2⟩ := ih fun e' he' => h e' (List.mem_cons_of_mem _ he')
    have he := h e List.mem_cons_self
    obtain ⟨P, f, lg⟩ := e
    cases P with
    | nt n v i =>
      obtain ⟨k1, k2⟩ := he
      exact ⟨by simpa [Piece.sym] using k1.append h1, by simpa [Piece.arg] using k2.append h2⟩
    | tok t i =>
      obtain ⟨rfl, rfl, k3⟩ := he
      exact ⟨by simpa [Piece.sym] using Built.leaf i t _ _ k3 h1, by simpa [Piece.arg] using Evals.leaf i t _ _ _ h2⟩
    | err lo hi =>
      obtain ⟨rfl, rfl, k3, k4⟩ := he
      obtain ⟨k5, k6⟩ := slice_built k4 k3
      exact ⟨by simpa [Piece.sym] using Built.err lo _ _ _ k5 k6 h1, by simpa [Piece.arg, slice] using Evals.err lo _ _ _ _ h2⟩

theorem startOf_below {es l : List (Entry N T)} {d : Nat} (hd : ∀ x ∈ marks (trees l), x ≤ d)
    (h : ∀ l' e k, l ++ es = l' ++ e :: k → ∀ i, e.1.index = some i → ∀ x ∈ marks (trees l'), x ≤ i) :
    ∀ x ∈ marks (trees l), x ≤ startOf d (es.map Prod.fst) := by
  suffices ∀ l1, (∀ x ∈ marks (trees l), x ∈ marks (trees l1)) → (∀ l' e k, l1 ++ es = l' ++ e :: k → ∀ i, e.1.index = some i → ∀ x ∈ marks (trees l'), x ≤ i) →
      ∀ x ∈ marks (trees l), x ≤ startOf d (es.map Prod.fst) from this l (fun _ h => h) h
  clear h
  induction es with
  | nil => intro _ _ _; simpa [startOf] using hd
  | cons e es ih =>
    intro l1 hl1 h x hx
    have h0 := h l1 e es rfl
    obtain ⟨P, f, lg⟩ := e
    cases P with
    | nt n v i => exact h0 i rfl x (hl1 x hx)
    | tok t i => exact h0 i rfl x (hl1 x hx)
    | err lo hi =>
      refine ih (l1 ++ [(.err lo hi, f, lg)]) ?_ ?_ x hx
      · intro y hy
        rw [trees, List.map_append, mem_marks_append]
        exact .inl (hl1 y hy)
      · intro l' e k hk
        exact h l' e k (by simpa using hk)

theorem errStartOf_or (d : Nat) (l : List (Piece N T)) : errStartOf d l = d ∨ ∃ hi, .err (errStartOf d l) hi ∈ l := by
  induction l with
  | nil => exact .inl rfl
  | cons P l ih =>
    cases P with
    | err lo hi => exact .inr ⟨hi, List.mem_cons_self⟩
    | tok t i =>
      rcases ih with h | ⟨hi, h⟩
      · exact .inl h
      · exact .inr ⟨hi, List.mem_cons_of_mem _ h⟩
    | nt n v i =>
      rcases ih with h | ⟨hi, h⟩
      · exact .inl h
      · exact .inr ⟨hi, List.mem_cons_of_mem _ h⟩

theorem mem_marks_err {fs : List (Tree T)} {lo : Nat} {l : List T} (h : Tree.err lo l ∈ fs) : lo ∈ marks fs := by
  obtain ⟨a, b, rfl⟩ := List.append_of_mem h
  rw [mem_marks_append]
  right
  simp [marks, errs, Tree.errs]

/-- Splitting a list with one more element. -/
theorem snoc_split {α : Type} {es l k : List α} {x e : α} (h : es ++ [x] = l ++ e :: k) : (l = es ∧ e = x ∧ k = []) ∨ ∃ k', k = k' ++ [x] ∧ es = l ++ e :: k' := by
  rcases List.eq_nil_or_concat k with rfl | ⟨k', y, rfl⟩
  · obtain ⟨h1, h2⟩ := List.append_inj' h rfl
    cases h2
    exact .inl ⟨h1.symm, rfl, rfl⟩
  · right
    rw [List.concat_eq_append, ← List.cons_append, ← List.append_assoc] at h
    obtain ⟨h1, h2⟩ := List.append_inj' h rfl
    cases h2
    exact ⟨k', by simp, h1⟩

theorem Gram.Firm.rule {g : Gram} {r : PRule} (hr : r ∈ g.rules) (h : g.Firm r.lhs) :
    (∃ t β, r.rhs = .tm t :: β ∧ t ≠ .err) ∨ ∃ n β, r.rhs = .nt n :: β ∧ g.Firm n := by
  obtain ⟨h1, h2⟩ := h r hr [] (.refl _)
  cases hrhs : r.rhs with
  | nil => exact absurd hrhs h1
  | cons X β =>
    cases X with
    | tm t =>
      left
      refine ⟨t, β, rfl, ?_⟩
      rintro rfl
      exact h2 β hrhs
    | nt n =>
      right
      refine ⟨n, β, rfl, ?_⟩
      intro r' hr' ρ hd
      have h3 : Derives g.rules [.nt r.lhs] (.nt n :: β) := by
        have := Derives.step [.nt r.lhs] [] [] r (.refl _) hr
        simpa [hrhs] using this
      exact h r' hr' (ρ ++ β) (h3.trans (by simpa using hd.context [] β))

/-- What the invariants need to know about the grammar. -/
structure TreeCtx (g : Gram) (rules : List (Rule N T E)) (R : List PRule) (s start : Nat) (r0 : PRule) : Prop where
  start_rule : R[s]? = some r0
  only : ∀ j r', R[j]? = some r' → r'.lhs = r0.lhs → j = s
  accepts : ∀ γ a, Complete R s γ s a → γ = [.nt start] ∧ a = .eoi
  fruitful : ∀ x n y, Gen R [.nt r0.lhs, .tm .eoi] (x ++ .nt n :: y) → ∃ w, Gen R [.nt n] (tms w)
  plain : ∀ (r : Nat) (rule : Rule N T E), rules[r]? = some rule → R[r]? = some rule.plain ∧ rule.plain ∈ g.rules ∧ (rules.map Rule.plain)[r]? = some rule.plain

/-- The same with the condition of C85. -/
structure TraceCtx (g : Gram) (rules : List (Rule N T E)) (R : List PRule) (s start : Nat) (r0 : PRule) : Prop
    extends TreeCtx g rules R s start r0 where
  traced : ∀ γ X Y r, Expects R s (γ ++ [.nt X]) Y → ErrRule R s γ r →
    ErrRule R s (γ ++ [.nt X]) r ∨ ErrRule R s (γ ++ [.nt X, Y]) r ∨ g.Firm X

theorem TInv.step {g : Gram} (hc : TraceCtx g rules R s start r0) (hne : input ≠ []) {m m' : Mach N T} {es : List (Entry N T)}
    (h : TInv g rules R r0 idx input m es) (hv : ∃ i, Valid R s (m.read idx) i)
    (hst : MStep rules R s start idx input m (.more m')) : ∃ es', TInv g rules R r0 idx input m' es' := by
  have hpos := h.pos
  have hmove : NoMove R s start (m.read idx) (m.ahead idx input) → ∀ ps X v i, m.pieces ≠ ps ++ [.nt X v i] := by
    intro h1 ps X v i h2
    obtain ⟨n, hn⟩ := h.move ps X v i h2
    rcases hn.cases hc.only with h2 | ⟨j, r, x, h2, h3, h4, h5⟩
    · exact h1.1 h2
    · by_cases hj : j = s
      · subst hj
        obtain ⟨k1, k2⟩ := hc.accepts _ _ h3
        exact h1.2.1 ⟨k2, k1⟩
      · exact h1.2.2 j hj h3
  generalize ho : MOut.more m' = o at hst
  cases hst with
  | accept v i h1 h2 => cases ho
  | fail r rule ps cs e h1 h2 h3 h4 h5 h6 => cases ho
  | bad r rule ps cs P h1 h2 h3 h4 h5 h6 => cases ho
  | giveUp t h1 h2 h3 => cases ho
  | giveUpEnd h1 h2 h3 => cases ho
  | shift t h1 h2 =>
    cases ho
    have hlt : m.pos < input.length := by rw [List.getElem?_eq_some_iff] at h1; exact h1.1
    refine ⟨es ++ [(.tok t m.pos, .leaf m.pos t, [])], ?_, hlt, ?_, ?_, ?_, ?_, ?_, ?_, ?_, ?_⟩
    · simp [h.pieces]
    · intro e he
      rcases List.mem_append.1 he with he | he
      · exact h.stand e he
      · cases List.mem_singleton.1 he
        exact ⟨rfl, rfl, h1⟩
    · simpa [madeBy, Mach.look] using h.calls
    · intro i hi
      rw [trees, List.map_append, covered_append]
      simp only at hi
      by_cases hi' : i < m.pos
      · exact .inl (h.top i hi')
      · right
        left
        exact ⟨t, by simp [leaves, Tree.leaves]; omega⟩
    · intro l e k hk b hb i hi
      rcases snoc_split hk with ⟨rfl, rfl, rfl⟩ | ⟨k', rfl, hk'⟩
      · cases hb
        exact h.top i hi
      · exact h.below l e k' hk' b hb i hi
    · rw [trees, List.map_append, leaves_append]
      refine List.pairwise_append.2 ⟨h.inc, by simp [leaves, Tree.leaves], ?_⟩
      intro x hx y hy
      simp [leaves, Tree.leaves] at hy
      subst hy
      exact marks_leaves h.low x hx
    · intro x hx
      rw [trees, List.map_append, mem_marks_append] at hx
      rcases hx with hx | hx
      · exact Nat.le_succ_of_le (h.low x hx)
      · simp [marks, leaves, Tree.leaves, errs, Tree.errs] at hx
        subst hx
        exact Nat.le_refl _
    · intro l e k hk i hi x hx
      rcases snoc_split hk with ⟨rfl, rfl, rfl⟩ | ⟨k', rfl, hk'⟩
      · cases hi
        exact h.low x hx
      · exact h.before l e k' hk' i hi x hx
    · intro ps X v i hps
      have := (List.append_inj' hps rfl).2
      cases this
  | reduce r rule ps cs v h1 h2 h3 h4 h5 h6 =>
    cases ho
    obtain ⟨es0, es1, rfl, e0, e1⟩ := List.map_eq_append_iff.1 (h.pieces.symm.trans h3)
    subst e0 e1
    obtain ⟨p1, p2, p3⟩ := hc.plain r rule h2
    have hstand1 : ∀ e ∈ es1, Stands rules idx input e := fun e he => h.stand e (List.mem_append_right _ he)
    obtain ⟨q1, q2⟩ := stands_args hstand1
    have hsym : (es1.map fun e => e.1.sym idx) = rule.rhs := by rw [← h4, List.map_map]; rfl
    have harg : (es1.map fun e => e.1.arg input) = (es1.map Prod.fst).map (Piece.arg input) := by rw [List.map_map]; rfl
    rw [hsym] at q1
    rw [harg] at q2
    have hlow0 : ∀ x ∈ marks (trees es0), x ≤ m.pos := by
      intro x hx
      refine h.low x ?_
      rw [trees, List.map_append, mem_marks_append]
      exact .inl hx
    refine ⟨es0 ++ [(.nt rule.lhs v (startOf (m.look input).seen (es1.map Prod.fst)), .node r (trees es1), madeBy es1 ++ [(r, (es1.map Prod.fst).map (Piece.arg input))])],
      ?_, hpos, ?_, ?_, ?_, ?_, ?_, ?_, ?_, ?_⟩
    · simp
    · intro e he
      rcases List.mem_append.1 he with he | he
      · exact h.stand e (List.mem_append_left _ he)
      · cases List.mem_singleton.1 he
        exact ⟨Built.node r rule.plain _ _ _ p3 q1 .nil, by simpa using Evals.node r rule _ _ _ v _ _ _ h2 q2 h6 .nil⟩
    · have := h.calls
      simp only [madeBy, List.flatMap_append] at this ⊢
      simp only [List.flatMap_cons, List.flatMap_nil, List.append_nil, ← List.append_assoc]
      exact List.Sublist.append this (List.Sublist.refl _)
    · intro i hi
      have := h.top i hi
      rw [trees, List.map_append, covered_append] at this ⊢
      rcases this with this | this
      · exact .inl this
      · exact .inr (covered_node.2 this)
    · intro l e k hk b hb i hi
      rcases snoc_split hk with ⟨rfl, rfl, rfl⟩ | ⟨k', rfl, hk'⟩
      · obtain ⟨k1, rfl⟩ := hb
        cases es1 with
        | nil =>
          exfalso
          simp only [List.map_nil] at hsym
          exact (k1 rule.plain p2 [] (.refl _)).1 hsym.symm
        | cons e1 es1 =>
          simp only [List.map_cons] at hsym hi
          obtain ⟨P, f, lg⟩ := e1
          rcases Gram.Firm.rule p2 k1 with ⟨t, β, n1, n2⟩ | ⟨n, β, n1, n2⟩
          · have n1 : rule.rhs = .tm t :: β := n1
            rw [n1] at hsym
            cases P with
            | nt n v i => simp [Piece.sym] at hsym
            | tok t' i' => exact h.below _ _ _ rfl i' rfl i hi
            | err lo' hi' =>
              simp only [Piece.sym, List.cons.injEq, Sym.tm.injEq] at hsym
              exact absurd hsym.1.symm n2
          · have n1 : rule.rhs = .nt n :: β := n1
            rw [n1] at hsym
            cases P with
            | nt n' v i' =>
              simp only [Piece.sym, List.cons.injEq, Sym.nt.injEq] at hsym
              obtain ⟨rfl, _⟩ := hsym
              exact h.below _ _ _ rfl i' ⟨n2, rfl⟩ i hi
            | tok t' i' => simp [Piece.sym] at hsym
            | err lo' hi' => simp [Piece.sym] at hsym
      · exact h.below l e (k' ++ es1) (by rw [hk']; simp) b hb i hi
    · have := h.inc
      rw [trees, List.map_append, leaves_append] at this ⊢
      simp only [List.map_cons, List.map_nil, leaves_node]
      exact this
    · intro x hx
      refine h.low x ?_
      rw [trees, List.map_append, mem_marks_append] at hx ⊢
      simpa [marks, leaves_node, errs_node] using hx
    · intro l e k hk i hi x hx
      rcases snoc_split hk with ⟨rfl, rfl, rfl⟩ | ⟨k', rfl, hk'⟩
      · cases hi
        refine startOf_below (es := es1) ?_ h.before x hx
        intro y hy
        have := hlow0 y hy
        simp only [Mach.look]
        omega
      · exact h.before l e (k' ++ es1) (by rw [hk']; simp) i hi x hx
    · intro ps X v' i hps
      have hread : m.read idx = (es0.map Prod.fst).map (Piece.sym idx) ++ rule.plain.rhs := by
        rw [Mach.read, h3, List.map_append, h4]; rfl
      have hcomp := h1.2.2.2.1
      rw [hread] at hcomp
      obtain ⟨n, hn⟩ := hcomp.reduced hc.start_rule hc.only hc.fruitful p1 h1.2.2.1
      refine ⟨n, ?_⟩
      have hr' : Mach.read idx { m.look input with
          pieces := es0.map Prod.fst ++ [.nt rule.lhs v (startOf (m.look input).seen (es1.map Prod.fst))]
          pending := fun r' => m.pending r' ∧ ¬ m.pending r
          calls := m.calls ++ [(r, (es1.map Prod.fst).map (Piece.arg input))] } = (es0.map Prod.fst).map (Piece.sym idx) ++ [.nt rule.plain.lhs] := by
        simp [Mach.read, Piece.sym, Rule.plain]
      rw [hr']
      exact hn
  | recover t keep drop h1 h2 h3 h4 h5 =>
    cases ho
    have hlt : m.pos < input.length := by rw [List.getElem?_eq_some_iff] at h1; exact h1.1
    have ha : m.ahead idx input = .sym (idx t) := by simp [Mach.ahead, h1]
    obtain ⟨es0, es1, rfl, e0, e1⟩ := List.map_eq_append_iff.1 (h.pieces.symm.trans h3)
    subst e0 e1
    have hlow0 : ∀ x ∈ marks (trees es0), x ≤ m.pos := by
      intro x hx
      refine h.low x ?_
      rw [trees, List.map_append, mem_marks_append]
      exact .inl hx
    -- everything in front of the slice is covered
    have hcov : ∀ i < min (startOf m.pos (es1.map Prod.fst)) (errStartOf m.pos (es1.map Prod.fst)), Covered (trees es0) i := by
      cases es1 with
      | nil =>
        intro i hi
        simp only [List.append_nil] at h
        refine h.top i ?_
        simpa [startOf, errStartOf] using hi
      | cons e1 es1 =>
        obtain ⟨P, f, lg⟩ := e1
        intro i hi
        have hb := h.below es0 (P, f, lg) es1 rfl
        cases P with
        | tok t' i' =>
          simp only [List.map_cons, startOf] at hi
          exact hb i' rfl i (by omega)
        | err lo' hi' =>
          simp only [List.map_cons, errStartOf] at hi
          exact hb lo' rfl i (by omega)
        | nt X v i' =>
          simp only [List.map_cons, startOf] at hi
          cases es1 with
          | nil => exact absurd h3 (hmove (by rw [ha]; exact h2) _ X v i')
          | cons e2 es1 =>
            obtain ⟨rc, hrc, hpend⟩ := h4
            obtain ⟨it, hit⟩ := hv
            have hex : Expects R s ((es0.map Prod.fst).map (Piece.sym idx) ++ [.nt X]) (e2.1.sym idx) := by
              refine hit.expects_prefix _ _ ((es1.map Prod.fst).map (Piece.sym idx)) ?_
              rw [Mach.read, h3]
              simp [Piece.sym]
            rcases hc.traced _ _ _ _ hex hrc with h7 | h7 | h7
            · exfalso
              refine h5 (es0.map Prod.fst ++ [.nt X v i']) ((e2 :: es1).map Prod.fst) (by rw [h3]; simp) (by simp) rc ⟨?_, hpend⟩
              simpa [Piece.sym] using h7
            · exfalso
              refine h5 (es0.map Prod.fst ++ [.nt X v i', e2.1]) (es1.map Prod.fst) (by rw [h3]; simp) (by simp) rc ⟨?_, hpend⟩
              simpa [Piece.sym] using h7
            · exact hb i' ⟨h7, rfl⟩ i (by omega)
    generalize hlo : min (startOf m.pos (es1.map Prod.fst)) (errStartOf m.pos (es1.map Prod.fst)) = lo at hcov ⊢
    have hle : lo ≤ m.pos := by
      have : startOf m.pos (es1.map Prod.fst) ≤ m.pos ∨ errStartOf m.pos (es1.map Prod.fst) ≤ m.pos := by
        right
        rcases errStartOf_or m.pos (es1.map Prod.fst) with k | ⟨hi, k⟩
        · omega
        · obtain ⟨⟨P, f, lg⟩, k1, k2⟩ := List.mem_map.1 k
          simp only at k2
          subst k2
          obtain ⟨rfl, _⟩ := h.stand _ (List.mem_append_right _ k1)
          refine h.low _ ?_
          rw [trees, List.map_append, mem_marks_append]
          exact .inr (mem_marks_err (List.mem_map.2 ⟨_, k1, rfl⟩))
      omega
    refine ⟨es0 ++ [(.err lo m.pos, .err lo (slice input lo m.pos), [])], ?_, ?_, ?_, ?_, ?_, ?_, ?_, ?_, ?_, ?_⟩
    · simp
    · simp only
      split <;> omega
    · intro e he
      rcases List.mem_append.1 he with he | he
      · exact h.stand e (List.mem_append_left _ he)
      · cases List.mem_singleton.1 he
        exact ⟨rfl, rfl, hle, hlt⟩
    · have := h.calls
      simp only [madeBy, List.flatMap_append] at this ⊢
      simp only [List.flatMap_cons, List.flatMap_nil, List.append_nil]
      exact (List.sublist_append_left _ _).trans this
    · intro i hi
      have hi : i ≤ m.pos := by
        revert hi
        simp only
        split <;> intro hi <;> omega
      rw [trees, List.map_append, covered_append]
      by_cases hlo' : i < lo
      · exact .inl (hcov i hlo')
      · right
        right
        refine ⟨(lo, slice input lo m.pos), by simp [errs, Tree.errs], by simp only; omega, ?_⟩
        rw [slice_length hlt hle]
        simp only; omega
    · intro l e k hk b hb i hi
      rcases snoc_split hk with ⟨rfl, rfl, rfl⟩ | ⟨k', rfl, hk'⟩
      · cases hb
        exact hcov i hi
      · exact h.below l e (k' ++ es1) (by rw [hk']; simp) b hb i hi
    · have := h.inc
      rw [trees, List.map_append, leaves_append] at this ⊢
      simp only [List.map_cons, List.map_nil]
      simpa [leaves, Tree.leaves] using (List.pairwise_append.1 this).1
    · intro x hx
      rw [trees, List.map_append, mem_marks_append] at hx
      rcases hx with hx | hx
      · have k1 := hlow0 x hx
        have k2 := startOf_below (es := es1) hlow0 h.before x hx
        simp only
        split <;> omega
      · simp [marks, leaves, Tree.leaves, errs, Tree.errs] at hx
        subst hx
        simp only
        split <;> omega
    · intro l e k hk i hi x hx
      rcases snoc_split hk with ⟨rfl, rfl, rfl⟩ | ⟨k', rfl, hk'⟩
      · cases hi
      · exact h.before l e (k' ++ es1) (by rw [hk']; simp) i hi x hx
    · intro ps X v i hps
      have := (List.append_inj' hps rfl).2
      cases this
  | recoverEnd h1 h2 h3 =>
    cases ho
    have hlen : 0 < input.length := List.length_pos_iff.2 hne
    refine ⟨es ++ [(.err 0 0, .err 0 (slice input 0 0), [])], ?_, hpos, ?_, ?_, ?_, ?_, ?_, ?_, ?_, ?_⟩
    · simp [h.pieces]
    · intro e he
      rcases List.mem_append.1 he with he | he
      · exact h.stand e he
      · cases List.mem_singleton.1 he
        exact ⟨rfl, rfl, Nat.le_refl _, hlen⟩
    · simpa [madeBy, Mach.look] using h.calls
    · intro i hi
      rw [trees, List.map_append, covered_append]
      exact .inl (h.top i hi)
    · intro l e k hk b hb i hi
      rcases snoc_split hk with ⟨rfl, rfl, rfl⟩ | ⟨k', rfl, hk'⟩
      · cases hb
        omega
      · exact h.below l e k' hk' b hb i hi
    · have := h.inc
      rw [trees, List.map_append, leaves_append]
      simpa [leaves, Tree.leaves] using this
    · intro x hx
      rw [trees, List.map_append, mem_marks_append] at hx
      rcases hx with hx | hx
      · exact h.low x hx
      · simp [marks, leaves, Tree.leaves, errs, Tree.errs] at hx
        subst hx
        exact Nat.zero_le _
    · intro l e k hk i hi x hx
      rcases snoc_split hk with ⟨rfl, rfl, rfl⟩ | ⟨k', rfl, hk'⟩
      · cases hi
      · exact h.before l e k' hk' i hi x hx
    · intro ps X v i hps
      have := (List.append_inj' hps rfl).2
      cases this

theorem TInv.init {g : Gram} : TInv g rules R r0 idx input (Mach.init : Mach N T) [] where
  pieces := rfl
  pos := Nat.zero_le _
  stand := by simp
  calls := by simp [Mach.init]
  top := by intro i hi; simp [Mach.init] at hi
  below := by intro l e k hk; simp at hk
  inc := by simp [leaves]
  low := by simp [marks, leaves, errs]
  before := by intro l e k hk; simp at hk
  move := by intro ps X v i hps; simp [Mach.init] at hps

end Verif.Par
