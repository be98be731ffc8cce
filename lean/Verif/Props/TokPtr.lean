import Verif.Tok.PtrAll
import Verif.Props.TokHeap
import Verif.Props.TokGen

/-!
# Property C58: pointers to the nodes of the deterministic automaton

The deterministic automaton is built, minimised and turned into tables in a memory with an arbitrary allocator `al`
(`al.Fair`: it gives out no address that is in use) that already contains arbitrary other nodes and arbitrary other data.
The orders in which the hash maps keyed by address are visited are arbitrary (`PSeeds.Fair`).
-/

namespace Verif.Tok

variable {al : Alloc} {s : PSeeds}

/-! ## Specification -/

/-- Following a pointer, whatever its label. -/
def DHeap.Edge (h : DHeap) (a b : Addr) : Prop := ∃ r, (r, b) ∈ h.cell a

/-- Everything that can be reached by following pointers. -/
inductive DHeap.Reach (h : DHeap) : Addr → Addr → Prop
  | refl (a) : DHeap.Reach h a a
  | step {a b c} : DHeap.Reach h a b → h.Edge b c → DHeap.Reach h a c

/-- An automaton whose nodes are distinct live nodes that `h0` did not have, which can reach only its own nodes, in a memory
that is otherwise as `h0`. -/
structure DHeap.Owns (h0 h : DHeap) (p : PDFA) : Prop where
  nodup : p.node.Nodup
  live : ∀ a, a ∈ h.nodes ↔ a ∈ p.node ∨ a ∈ h0.nodes
  other : h.other = h0.other
  fresh : ∀ a ∈ p.node, a ∉ h0.nodes ∧ a ∉ h0.other
  same : ∀ a ∈ h0.nodes, h.cell a = h0.cell a
  closed : ∀ x ∈ p.b :: p.ends.map Prod.fst, ∀ a, h.Reach x a → a ∈ p.node

theorem DSim.owns {h0 h : DHeap} {p : PDFA} {d : DFA} (D : DSim h0 h p d) : h0.Owns h p := by
  refine ⟨D.held.nodup, ?_, D.held.other, D.held.fresh, D.held.frame, ?_⟩
  · intro a; rw [D.held.nodes]; simp
  · intro x hx a hr
    induction hr with
    | refl =>
      rcases List.mem_cons.1 hx with rfl | hx
      · rw [D.b]; exact nmOf_mem (by rw [D.held.len]; exact D.blt)
      · exact D.keysIn x hx
    | step _ he ih =>
      obtain ⟨i, hi, rfl⟩ := mem_node ih
      obtain ⟨r, hr⟩ := he
      obtain ⟨_, r2, r3⟩ := D.held.row hi
      rw [r2] at hr
      obtain ⟨y, hy, e⟩ := List.mem_map.1 hr
      cases e
      exact nmOf_mem (r3 y hy)

/-! ## Concrete values for examples -/

/-- A memory with a node of somebody else at address 1 and other things at 2 and 4. -/
def dheap0 : DHeap := { nodes := [1], other := [2, 4], cell := fun _ => [((0, 5), 1)], clock := 0 }

/-- Sets are visited backwards. -/
def pseeds0 : PSeeds :=
  { ord := List.reverse
    min := { visit := fun _ _ l => l.reverse, order := fun _ _ l => l.reverse, collide := fun _ _ _ _ _ => false, pick := fun l => l.getLastD 0 }
    endsMin := List.reverse
    endsNew := List.reverse }

theorem pseeds0_fair : pseeds0.Fair := by
  refine ⟨fun l => List.reverse_perm l, ⟨fun _ _ l => List.reverse_perm l, fun _ _ l => List.reverse_perm l, ?_⟩,
    fun l => List.reverse_perm l, fun l => List.reverse_perm l⟩
  intro l hl
  show l.getLastD 0 ∈ l
  rw [List.getLastD_eq_getLast?, List.getLast?_eq_some_getLast hl]
  exact List.getLast_mem hl

/-- `ab|cb`, whose automaton has two nodes more than necessary. -/
def nfa0 : TNFA := match buildAll [.alt [.concat [ra, rb], .concat [rx, rb]]] with
  | .ok t => t
  | .error _ => ⟨[], 0, []⟩

/-- Nodes, begin and ends of an automaton, the addresses of live nodes, and what the begin node holds. -/
structure Ptrs where
  node : List Nat
  b : Nat
  ends : List (Nat × Nat)
  live : List Nat
  edges : List ((Nat × Nat) × Nat)
  deriving DecidableEq

/-- These after the construction. -/
def ptrs1 (al : Alloc) : Option Ptrs :=
  match fromNfaP al 20 pseeds0 nfa0 dheap0 with
  | .ok (p, _) h => some ⟨p.node, p.b, p.ends, h.nodes, h.cell p.b⟩
  | _ => none

/-- The same after `minify`. -/
def ptrs2 (al : Alloc) : Option Ptrs :=
  match fromNfaP al 20 pseeds0 nfa0 dheap0 with
  | .ok (p, _) h =>
    match minifyP al pseeds0 p h with
    | .ok p h => some ⟨p.node, p.b, p.ends, h.nodes, h.cell p.b⟩
    | _ => none
  | _ => none

/-- The tables and the addresses in use at the end. -/
def ptrs3 (al : Alloc) : Option (DFA × List Addr × List Addr) :=
  match tablesP al 20 pseeds0 nfa0 [4] dheap0 with
  | .ok (d, _) h => some (d, h.nodes, h.other)
  | _ => none

/-! ## C58 -/

/-- C58: the automaton that `From<TokenizerNFA>` builds consists of nodes of its own, everything that can be reached from
its begin and its ends by following raw pointers is one of these nodes, and nothing else in memory changed; no pointer is
followed that does not lead to a live node, no index and no key is missing.  `minify` then leaves an automaton of which the
same is true; the old nodes are not in use any more and nothing points to them. -/
theorem c58_owned (hal : al.Fair) (hs : s.Fair) (fuel : Nat) (t : TNFA) (h0 : DHeap) :
    (∀ b, fromNfaP al fuel s t h0 ≠ .bad b) ∧
    ∀ p ws h, fromNfaP al fuel s t h0 = .ok (p, ws) h → h0.Owns h p ∧
      ∃ p' h', minifyP al s p h = .ok p' h' ∧ h0.Owns h' p' ∧ (∀ a ∈ p'.node, a ∉ p.node) ∧ ∀ a ∈ p.node, a ∉ h'.nodes := by
  have F := fromNfaP_sim hal hs.ord fuel t h0
  cases hd : fromNfa fuel (ordOf s.ord) t with
  | none =>
    rw [hd] at F
    rw [F]
    exact ⟨fun _ hc => (nomatch hc), fun _ _ _ hc => (nomatch hc)⟩
  | some r =>
    obtain ⟨d, ws⟩ := r
    rw [hd] at F
    obtain ⟨p, h, e, D⟩ := F
    rw [e]
    refine ⟨fun _ hc => (nomatch hc), ?_⟩
    intro p1 ws1 h1 hc
    cases hc
    refine ⟨D.owns, ?_⟩
    obtain ⟨d', p', h', _, e2, D'⟩ := minifyP_sim hal hs.endsMin D (pullMin_match hs.min) (pullMin_fair D.held.nodup hs.min)
    have hdis : ∀ a ∈ p'.node, a ∉ p.node := by
      -- the new nodes were allocated while the old ones were in use
      have e3 := e2
      unfold minifyP at e3
      obtain ⟨gm, h1, g1, e3⟩ := DMem.bind_inv e3
      have W := initGroups_weak D.endsLen
      obtain ⟨gm', m1, W1, m, hlt, hdense⟩ := minLoop_weak (pullMin_fair D.held.nodup hs.min) (d.rows.length + 1) 0 (initGroups d)
        (initGroups d) W W.len (by omega)
      obtain ⟨p2, h2, g2, e3⟩ := DMem.bind_inv e3
      obtain ⟨_, h3, _, e3⟩ := DMem.bind_inv e3
      cases e3
      intro a ha hc
      have : a ∉ h'.nodes := by
        intro hin
        have hh : h'.nodes = h2.nodes.filter fun a => !p.node.contains a := by
          rename_i g3
          cases g3
          rfl
        rw [hh, List.mem_filter] at hin
        simp [hc] at hin
      exact this (by rw [D'.held.nodes]; simp [ha])
    refine ⟨p', h', e2, D'.owns, hdis, ?_⟩
    intro a ha hin
    rw [D'.held.nodes, List.mem_append, List.mem_reverse] at hin
    rcases hin with hin | hin
    · exact hdis a hin ha
    · exact (D.held.fresh a ha).1 hin

/-- `ab|xb`: five nodes after the construction, three after `minify`, besides the foreign node 1. -/
example : ptrs1 alReuse = some ⟨[5, 0, 3, 6, 7], 5, [(7, 0), (6, 0)], [7, 6, 3, 0, 5, 1], [((97, 98), 0), ((120, 121), 3)]⟩ := by decide +kernel
example : ptrs2 alReuse = some ⟨[8, 9, 10], 8, [(10, 0)], [10, 9, 8, 1], [((97, 98), 9), ((120, 121), 9)]⟩ := by decide +kernel

/-- C58: all of `build` from the nondeterministic automaton to the tables: no pointer is followed that does not lead to a live
node, no index and no key is missing, no first element of an empty set is taken.  In the end all nodes that were allocated
are gone, as are those of the nondeterministic automaton (`nfa`), and everything else is as it was. -/
theorem c58_memory (hal : al.Fair) (hs : s.Fair) (fuel : Nat) (t : TNFA) (nfa : List Addr) (h0 : DHeap) :
    (∀ b, tablesP al fuel s t nfa h0 ≠ .bad b) ∧
    ∀ r h, tablesP al fuel s t nfa h0 = .ok r h →
      h.nodes = h0.nodes ∧ (∀ a, a ∈ h.other ↔ a ∈ h0.other ∧ a ∉ nfa) ∧ ∀ a ∈ h0.nodes, h.cell a = h0.cell a := by
  obtain ⟨s', _, _, T⟩ := tablesP_pull hal hs fuel t nfa h0
  cases hb : buildTables fuel s'.ord s'.min t with
  | none =>
    rw [hb] at T
    rw [T]
    exact ⟨fun _ hc => (nomatch hc), fun _ _ hc => (nomatch hc)⟩
  | some r =>
    rw [hb] at T
    obtain ⟨h', e, e1, e2, e3⟩ := T
    rw [e]
    refine ⟨fun _ hc => (nomatch hc), ?_⟩
    intro r h hc
    cases hc
    refine ⟨e1, ?_, e3⟩
    intro a
    rw [e2, List.mem_filter]
    simp

/-- `ab|xb`: address 4 belonged to the nondeterministic automaton; the tables are the same for both allocators. -/
example : ptrs3 alReuse = some (⟨[[((97, 98), 1), ((120, 121), 1)], [((98, 99), 2)], []], 0, [none, none, some 0]⟩, [1], [2]) := by
  decide +kernel
example : ptrs3 alUp = ptrs3 alReuse := by decide +kernel

/-- C58: the tables that come out with orders by address come out with some orders by position, and conversely (the warnings
perhaps in another order). -/
theorem c58_tables (hal : al.Fair) (fuel : Nat) (t : TNFA) (nfa : List Addr) (h0 : DHeap) :
    (∀ s : PSeeds, s.Fair → ∃ s' : Seeds, s'.Fair ∧ s'.min.collide = s.min.collide ∧
      ∀ r, (∃ h, tablesP al fuel s t nfa h0 = .ok r h) ↔ buildTables fuel s'.ord s'.min t = some r) ∧
    (∀ s' : Seeds, s'.Fair → ∀ d ws', buildTables fuel s'.ord s'.min t = some (d, ws') →
      ∃ s : PSeeds, s.Fair ∧ ∃ ws h, tablesP al fuel s t nfa h0 = .ok (d, ws) h ∧ ws.Perm ws') := by
  refine ⟨?_, ?_⟩
  · intro s hs
    obtain ⟨s', hs', hc, T⟩ := tablesP_pull hal hs fuel t nfa h0
    refine ⟨s', hs', hc, ?_⟩
    intro r
    cases hb : buildTables fuel s'.ord s'.min t with
    | none =>
      rw [hb] at T
      rw [T]
      exact ⟨fun ⟨_, hc⟩ => (nomatch hc), fun hc => (nomatch hc)⟩
    | some r' =>
      rw [hb] at T
      obtain ⟨h', e, _⟩ := T
      rw [e]
      constructor
      · rintro ⟨_, hc⟩; cases hc; rfl
      · intro hc; cases hc; exact ⟨h', rfl⟩
  · intro s' hs' d ws' hb
    obtain ⟨s, hs, T⟩ := tablesP_push hal hs' fuel t nfa h0
    rw [hb] at T
    obtain ⟨ws, h', e, hp⟩ := T
    exact ⟨s, hs, ws, h', e, hp⟩

section
variable {h0 : Heap} {π ρ α E : Type} {parse : π → Except ρ Hir} {ps : List (π × (List Nat → List α → E))}
  {view : Heap → List Addr → List Node}

/-- The outcome of `build` with all nodes in memory. -/
def BuildsToP (al : Alloc) (h0 : Heap) (view : Heap → List Addr → List Node) (s : PSeeds) (parse : π → Except ρ Hir)
    (ps : List (π × (List Nat → List α → E))) (r : Except Misuse (Except (BuildError ρ) (Tokenizer α E × List (Nat × Nat)))) : Prop :=
  ∃ fuel, builderBuildP al h0 view fuel s parse ps = some r

/-- The same, for both models of memory. -/
def liftMisuse {X : Type} : Option (Except Bad X) → Option (Except Misuse X)
  | none => none
  | some (.error b) => some (.error (.nfa b))
  | some (.ok x) => some (.ok x)

theorem builderBuildP_pull (hal : al.Fair) (hs : s.Fair) (fuel : Nat) :
    ∃ s' : Seeds, s'.Fair ∧ s'.min.collide = s.min.collide ∧
      builderBuildP al h0 view fuel s parse ps = liftMisuse (builderBuildH al h0 view fuel s' parse ps) := by
  have triv : ∃ s' : Seeds, s'.Fair ∧ s'.min.collide = s.min.collide :=
    ⟨⟨id, { plainMin with collide := s.min.collide }⟩, ⟨fun _ => .refl _, ⟨plainMin_fair.visit, plainMin_fair.order, plainMin_fair.pick⟩⟩, rfl⟩
  unfold builderBuildP builderBuildH
  cases parseAll parse (ps.map Prod.fst) with
  | error e => obtain ⟨s', h1, h2⟩ := triv; exact ⟨s', h1, h2, rfl⟩
  | ok hs1 =>
    simp only
    cases buildAllH al hs1 h0 with
    | bad b => obtain ⟨s', h1, h2⟩ := triv; exact ⟨s', h1, h2, rfl⟩
    | err e => obtain ⟨s', h1, h2⟩ := triv; exact ⟨s', h1, h2, rfl⟩
    | ok T h =>
      simp only
      obtain ⟨s', h1, h2, h3⟩ := tablesP_pull hal hs fuel ⟨view h T.node, T.b, T.ends⟩ T.node ⟨[], h.live, fun _ => [], h.clock⟩
      refine ⟨s', h1, h2, ?_⟩
      cases hb : buildTables fuel s'.ord s'.min ⟨view h T.node, T.b, T.ends⟩ with
      | none => rw [hb] at h3; rw [h3]; rfl
      | some r =>
        rw [hb] at h3
        obtain ⟨h', e, _⟩ := h3
        rw [e]
        rfl

theorem builderBuildP_push (hal : al.Fair) {s' : Seeds} (hs' : s'.Fair) (fuel : Nat)
    {r' : Except (BuildError ρ) (Tokenizer α E × List (Nat × Nat))}
    (hb : builderBuildH al h0 view fuel s' parse ps = some (.ok r')) :
    ∃ s : PSeeds, s.Fair ∧ ∃ r, builderBuildP al h0 view fuel s parse ps = some (.ok r) ∧ SameBuild r r' := by
  have triv : PSeeds.Fair ⟨id, plainMin, id, id⟩ := ⟨fun _ => .refl _, plainMin_fair, fun _ => .refl _, fun _ => .refl _⟩
  unfold builderBuildH at hb
  unfold builderBuildP
  cases hp : parseAll parse (ps.map Prod.fst) with
  | error e => rw [hp] at hb; cases hb; exact ⟨_, triv, _, rfl, rfl⟩
  | ok hs1 =>
    rw [hp] at hb
    simp only at hb ⊢
    cases ha : buildAllH al hs1 h0 with
    | bad b => rw [ha] at hb; cases hb
    | err e => rw [ha] at hb; cases hb; exact ⟨_, triv, _, rfl, rfl⟩
    | ok T h =>
      rw [ha] at hb
      simp only at hb ⊢
      obtain ⟨s, hs, h3⟩ := tablesP_push hal hs' fuel ⟨view h T.node, T.b, T.ends⟩ T.node ⟨[], h.live, fun _ => [], h.clock⟩
      refine ⟨s, hs, ?_⟩
      cases hbt : buildTables fuel s'.ord s'.min ⟨view h T.node, T.b, T.ends⟩ with
      | none => rw [hbt] at hb; cases hb
      | some r =>
        rw [hbt] at h3 hb
        obtain ⟨ws, h', e, hw⟩ := h3
        rw [e]
        cases hb
        exact ⟨_, rfl, rfl, hw⟩

theorem fuel_total (hparse : ParserOk parse) (ps : List (π × (List Nat → List α → E))) :
    ∃ fuel, ∀ s : Seeds, s.Fair → ∃ r, builderBuild fuel s parse ps = some r := by
  have hfair : Seeds.Fair ⟨id, plainMin⟩ := ⟨fun _ => .refl _, plainMin_fair⟩
  obtain ⟨r, fuel, hr⟩ := builds_total hparse hfair ps
  refine ⟨fuel, ?_⟩
  intro s hs
  unfold builderBuild at hr ⊢
  cases hp : parseAll parse (ps.map Prod.fst) with
  | error e => exact ⟨_, rfl⟩
  | ok hs1 =>
    rw [hp] at hr
    simp only at hr ⊢
    cases ha : buildAll hs1 with
    | error e => exact ⟨_, rfl⟩
    | ok t =>
      rw [ha] at hr
      simp only at hr ⊢
      unfold buildTables fromNfa at hr ⊢
      simp only at hr ⊢
      cases hl : subLoop t.node fuel { rows := [[]], sets := [closure t.node t.b], queue := [closure t.node t.b], processed := [] } with
      | none => rw [hl] at hr; cases hr
      | some st =>
        rw [hl] at hr
        simp only at hr ⊢
        have W : WeakInv { rows := st.rows, b := 0, ends := st.sets.map fun s => (markEnds t.ends s).1 } _ :=
          initGroups_weak (by
            have S := subLoopP_sim alUp_fair t.node fuel
              { node := [1], refs := [(closure t.node t.b, 0)], queue := [closure t.node t.b], processed := [] }
              { rows := [[]], sets := [closure t.node t.b], queue := [closure t.node t.b], processed := [] }
              { nodes := [1], other := [], cell := fun _ => [], clock := 0 } (h0 := { nodes := [], other := [], cell := fun _ => [], clock := 0 }) (b0 := 1)
              ⟨rfl, ⟨rfl, by simp, by intro i r hr; cases i <;> simp at hr; subst hr; rfl, by simp, rfl, rfl, by simp, by simp⟩, by simp, rfl, rfl, rfl, by simp⟩
            rw [hl] at S
            obtain ⟨p', h', _, P⟩ := S
            simp [P.setsLen])
        obtain ⟨gm, e1, _⟩ := minLoop_weak hs.min (st.rows.length + 1) 0 _ _ W W.len (Nat.lt_succ_of_le (Nat.sub_le _ _))
        unfold minify
        simp only at e1 ⊢
        rw [e1]
        exact ⟨_, rfl⟩

/-- C58: with the nodes of both automata at any addresses, and whatever order the hash maps keyed by address are visited in,
`build` has an outcome, and every outcome is, up to the order of the warnings, an outcome of the model without addresses on
which the other theorems are based; and conversely.  In particular none is a misuse of memory or a panic. -/
theorem c58_same_outcomes (hparse : ParserOk parse) (hal : al.Fair) (hok : h0.Ok) (hv : ViewOk view) :
    (∀ s : PSeeds, s.Fair →
      (∃ r, BuildsToP al h0 view s parse ps (.ok r)) ∧
      (∀ b, ¬ BuildsToP al h0 view s parse ps (.error b)) ∧
      ∀ r, BuildsToP al h0 view s parse ps (.ok r) →
        ∃ s' : Seeds, s'.Fair ∧ s'.min.collide = s.min.collide ∧ ∃ r', BuildsTo s' parse ps r' ∧ SameBuild r r') ∧
    (∀ s' : Seeds, s'.Fair → ∀ r', BuildsTo s' parse ps r' →
      ∃ s : PSeeds, s.Fair ∧ ∃ r, BuildsToP al h0 view s parse ps (.ok r) ∧ SameBuild r r') := by
  refine ⟨?_, ?_⟩
  · intro s hs
    refine ⟨?_, ?_, ?_⟩
    · obtain ⟨fuel, hf⟩ := fuel_total hparse ps
      obtain ⟨s', h1, h2, h3⟩ := builderBuildP_pull (h0 := h0) (view := view) (parse := parse) (ps := ps) hal hs fuel
      obtain ⟨r', hr'⟩ := hf s' h1
      rcases builderBuildH_same (parse := parse) (ps := ps) hal hok hv fuel h1 h1 rfl with ⟨_, g⟩ | ⟨a, b, g1, _, _⟩
      · rw [g] at hr'; cases hr'
      · exact ⟨a, fuel, by rw [h3, g1]; rfl⟩
    · rintro b ⟨fuel, hr⟩
      obtain ⟨s', h1, h2, h3⟩ := builderBuildP_pull (h0 := h0) (view := view) (parse := parse) (ps := ps) hal hs fuel
      rcases builderBuildH_same (parse := parse) (ps := ps) hal hok hv fuel h1 h1 rfl with ⟨g, _⟩ | ⟨a, c, g1, _, _⟩
      · rw [h3, g] at hr; cases hr
      · rw [h3, g1] at hr; cases hr
    · rintro r ⟨fuel, hr⟩
      obtain ⟨s', h1, h2, h3⟩ := builderBuildP_pull (h0 := h0) (view := view) (parse := parse) (ps := ps) hal hs fuel
      refine ⟨s', h1, h2, ?_⟩
      rcases builderBuildH_same (parse := parse) (ps := ps) hal hok hv fuel h1 h1 rfl with ⟨g, _⟩ | ⟨a, c, g1, g2, g3⟩
      · rw [h3, g] at hr; cases hr
      · rw [h3, g1] at hr; cases hr
        exact ⟨c, ⟨fuel, g2⟩, g3⟩
  · intro s' hs' r' hr'
    obtain ⟨r1, ⟨fuel, e1⟩, hsame⟩ := (c56_same_outcomes hparse hal hok hv hs').2.2.2 r' hr'
    obtain ⟨s, hs, r, e, h⟩ := builderBuildP_push (h0 := h0) (view := view) (parse := parse) (ps := ps) hal hs' fuel e1
    exact ⟨s, hs, r, ⟨fuel, e⟩, h.trans hsame⟩

/-- C58: two builds at different addresses, with different allocators, in different memories and with different hash seeds,
none of which confuses different keys, give tokenizers that behave alike in every call of `next` in every state. -/
theorem c58_addresses {al' : Alloc} {h0' : Heap} {view' : Heap → List Addr → List Node} {s s' : PSeeds} (hparse : ParserOk parse)
    (hal : al.Fair) (hal' : al'.Fair) (hok : h0.Ok) (hok' : h0'.Ok) (hv : ViewOk view) (hv' : ViewOk view') (hs : s.Fair) (hs' : s'.Fair)
    (hc : ∀ r g t k k', s.min.collide r g t k k' = false) (hc' : ∀ r g t k k', s'.min.collide r g t k k' = false) {t t' : Tokenizer α E} {ws ws' : List (Nat × Nat)}
    (hb : BuildsToP al h0 view s parse ps (.ok (.ok (t, ws)))) (hb' : BuildsToP al' h0' view' s' parse ps (.ok (.ok (t', ws')))) (map : α → Nat) :
    (∀ it, t.next map it = t'.next map it) ∧ (∀ n it, t.calls map n it = t'.calls map n it) ∧ (∀ w, t.accepts w = t'.accepts w) ∧
      ∀ a b, (a, b) ∈ ws ↔ (a, b) ∈ ws' := by
  obtain ⟨s1, f1, c1, r1, b1, e1⟩ := ((c58_same_outcomes (ps := ps) hparse hal hok hv).1 s hs).2.2 _ hb
  obtain ⟨s2, f2, c2, r2, b2, e2⟩ := ((c58_same_outcomes (ps := ps) hparse hal' hok' hv').1 s' hs').2.2 _ hb'
  have calm : ∀ s : Seeds, (∀ r g t k k', s.min.collide r g t k k' = false) → Calm s parse ps := by
    intro s hcol r
    have : s.calm = s := by
      obtain ⟨ord, min⟩ := s
      unfold Seeds.calm
      obtain ⟨v, o, c, p⟩ := min
      have : c = fun _ _ _ _ _ => false := by funext r g t k k'; exact hcol r g t k k'
      subst this
      rfl
    rw [this]
  cases r1 with
  | error e => exact e1.elim
  | ok x =>
    cases r2 with
    | error e => exact e2.elim
    | ok y =>
      obtain ⟨t1, ws1⟩ := x
      obtain ⟨t2, ws2⟩ := y
      obtain ⟨rfl, p1⟩ := e1
      obtain ⟨rfl, p2⟩ := e2
      obtain ⟨q1, q2, q3, q4⟩ := c39_seeds_irrelevant hparse f1 (calm s1 (by rw [c1]; exact hc)) b1 f2 (calm s2 (by rw [c2]; exact hc')) b2 map
      refine ⟨q1, q2, q3, ?_⟩
      intro a b
      rw [p1.mem_iff, q4 a b, p2.mem_iff]

end

/-- What the tokenizer for `a*|b`, `ab` answers to `w`, and its warnings. -/
def accP (al : Alloc) (w : List Nat) : Option (Option Nat × List (Nat × Nat)) :=
  match builderBuildP al heap0 view0 50 pseeds0 parse0 (tagged [.alt [.rep .zeroOrMore ra, rb], .concat [ra, rb], rb]) with
  | some (.ok (.ok (t, ws))) => some (t.accepts w, ws)
  | _ => none

example : accP alUp [97, 98] = some (some 1, [(2, 0)]) := by decide +kernel
example : accP alReuse [97, 98] = some (some 1, [(2, 0)]) := by decide +kernel
example : accP alReuse [98] = some (some 0, [(2, 0)]) := by decide +kernel

/-- The hypotheses of `c58_addresses` can be met. -/
example : ∃ t ws t' ws',
    BuildsToP alUp heap0 view0 pseeds0 parse0 (tagged [.alt [.rep .zeroOrMore ra, rb], .concat [ra, rb], rb]) (.ok (.ok (t, ws))) ∧
    BuildsToP alReuse heap0 view0 pseeds0 parse0 (tagged [.alt [.rep .zeroOrMore ra, rb], .concat [ra, rb], rb]) (.ok (.ok (t', ws'))) := by
  have key : ∀ al, (accP al []).isSome = true → ∃ t ws, BuildsToP al heap0 view0 pseeds0 parse0
      (tagged [.alt [.rep .zeroOrMore ra, rb], .concat [ra, rb], rb]) (.ok (.ok (t, ws))) := by
    intro al h
    unfold accP at h
    split at h
    · rename_i t ws e; exact ⟨t, ws, 50, e⟩
    · cases h
  obtain ⟨t, ws, h⟩ := key alUp (by decide +kernel)
  obtain ⟨t', ws', h'⟩ := key alReuse (by decide +kernel)
  exact ⟨t, ws, t', ws', h, h'⟩

end Verif.Tok
