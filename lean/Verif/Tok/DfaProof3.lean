import Verif.Tok.DfaProof2

/-! # Helper lemmas: correctness of the subset construction -/

namespace Verif.Tok

/-! ## The loop ends -/

/-- All sorted sublists. -/
def subs : List Nat → List (List Nat)
  | [] => [[]]
  | a :: l => subs l ++ (subs l).map (a :: ·)

theorem mem_subs {n : Nat} : ∀ {a : Nat} {s : List Nat}, OSet.Sorted s → (∀ x ∈ s, a ≤ x ∧ x < a + n) → s ∈ subs (List.range' a n) := by
  induction n with
  | zero =>
    intro a s _ h
    cases s with
    | nil => simp [subs]
    | cons x s => have := h x (by simp); omega
  | succ n ih =>
    intro a s hs h
    rw [List.range'_succ, subs, List.mem_append]
    cases s with
    | nil => exact Or.inl (ih OSet.sorted_nil (by simp))
    | cons x s =>
      have hs' := List.pairwise_cons.1 hs
      have hgt : ∀ y ∈ s, x < y := fun y hy => by simpa [SLT.lt] using hs'.1 y hy
      have hx := h x (by simp)
      by_cases hxa : x = a
      · subst hxa
        refine Or.inr (List.mem_map.2 ⟨s, ih hs'.2 ?_, rfl⟩)
        intro y hy
        have h1 := hgt y hy
        have h2 := h y (List.mem_cons_of_mem _ hy)
        omega
      · refine Or.inl (ih hs ?_)
        intro y hy
        have h2 := h y hy
        rcases List.mem_cons.1 hy with rfl | hy
        · omega
        · have h1 := hgt y hy; omega

theorem path_lt {ns : List Node} (he : ∀ p q, Eps ns p q → q < ns.length) (hs : ∀ p c q, Stp ns p c q → q < ns.length)
    {p w q} (h : NPath ns p w q) (hp : p < ns.length) : q < ns.length := by
  induction h with
  | nil => exact hp
  | eps h _ ih => exact ih (he _ _ h)
  | step h _ ih => exact ih (hs _ _ _ h)

theorem sets_bound {t : TNFA} (ht : t.WF) {s0 st R} (h : SI t.node t.b s0 st R) :
    st.sets.length ≤ (subs (List.range' 0 t.node.length)).length := by
  refine length_le_of_nodup_subset h.nodup ?_
  intro s hs
  obtain ⟨h1, _, w, h2⟩ := h.reached s hs
  refine mem_subs h1 ?_
  intro x hx
  have := path_lt ht.eps ht.stp ((h2 x).1 hx) ht.b
  omega

theorem proc_bound {t : TNFA} (ht : t.WF) {s0 st R} (h : SI t.node t.b s0 st R) :
    st.processed.length ≤ (subs (List.range' 0 t.node.length)).length := by
  refine Nat.le_trans ?_ (sets_bound ht h)
  have := length_le_of_nodup_subset h.procNodup (t := List.range st.sets.length) (by
    intro i hi; exact List.mem_range.2 (h.procLt i hi))
  simpa using this

theorem subLoop_some {t : TNFA} (ht : t.WF) (hns : EdgesOk t.node) {s0} :
    ∀ (k : Nat) (st : Sub), SI t.node t.b s0 st (full t.node st) →
      (subs (List.range' 0 t.node.length)).length - st.processed.length = k → ∃ f r, subLoop t.node f st = some r := by
  intro k
  induction k with
  | zero =>
    intro st h hk
    have : ∀ (q : List (List Nat)) (st : Sub), st.queue = q → SI t.node t.b s0 st (full t.node st) →
        (subs (List.range' 0 t.node.length)).length - st.processed.length = 0 → ∃ f r, subLoop t.node f st = some r := by
      intro q
      induction q with
      | nil => intro st hq _ _; exact ⟨0, st, by simp [subLoop, hq]⟩
      | cons cur q ih =>
        intro st hq h hk
        by_cases hp : st.find cur ∈ st.processed
        · obtain ⟨f, r, hf⟩ := ih _ rfl (skip_inv h hq hp) hk
          refine ⟨f + 1, r, ?_⟩
          simp only [subLoop, hq]
          rw [if_pos (by exact hp)]
          exact hf
        · have h1 := turn_inv hns h hq hp
          have h2 := proc_bound ht h1.1
          rw [h1.2] at h2
          simp at h2
          omega
    exact this st.queue st rfl h hk
  | succ k ihk =>
    intro st h hk
    have : ∀ (q : List (List Nat)) (st : Sub), st.queue = q → SI t.node t.b s0 st (full t.node st) →
        (subs (List.range' 0 t.node.length)).length - st.processed.length = k + 1 → ∃ f r, subLoop t.node f st = some r := by
      intro q
      induction q with
      | nil => intro st hq _ _; exact ⟨0, st, by simp [subLoop, hq]⟩
      | cons cur q ih =>
        intro st hq h hk
        by_cases hp : st.find cur ∈ st.processed
        · obtain ⟨f, r, hf⟩ := ih _ rfl (skip_inv h hq hp) hk
          refine ⟨f + 1, r, ?_⟩
          simp only [subLoop, hq]
          rw [if_pos (by exact hp)]
          exact hf
        · have h1 := turn_inv hns h hq hp
          obtain ⟨f, r, hf⟩ := ihk _ h1.1 (by rw [h1.2]; simp; omega)
          refine ⟨f + 1, r, ?_⟩
          simp only [subLoop, hq]
          rw [if_neg (by exact hp)]
          exact hf
    exact this st.queue st rfl h hk

theorem start_inv {t : TNFA} : SI t.node t.b (closure t.node t.b)
    { rows := [[]], sets := [closure t.node t.b], queue := [closure t.node t.b], processed := [] }
    (full t.node { rows := [[]], sets := [closure t.node t.b], queue := [closure t.node t.b], processed := [] }) := by
  refine ⟨rfl, by simp, ?_, rfl, by simp, ?_, ?_, ?_, by simp, by simp, ?_⟩
  · intro s hs
    simp at hs
    subst hs
    refine ⟨sorted_closure, ?_, [], fun q => mem_closure⟩
    intro h0
    have : t.b ∈ closure t.node t.b := mem_closure.2 (.nil _)
    rw [h0] at this
    simp at this
  · intro i hi
    simp at hi
    subst hi
    simp [full]
  · intro i _; simp [full]
  · intro i x hx; simp [full] at hx
  · intro i s hs _
    exact List.mem_of_getElem? hs

/-! ## Marking the ends -/

/-- A marked node in the set. -/
def Hit (l : List (Nat × Nat)) (set : List Nat) (i : Nat) : Prop := ∃ p, (p, i) ∈ l ∧ p ∈ set

theorem mark_spec {set : List Nat} : ∀ {l : List (Nat × Nat)}, (l.Pairwise fun a b => a.2 < b.2) →
    let r := l.foldr (fun (pi : Nat × Nat) (acc : Option Nat × List (Nat × Nat)) =>
      if pi.1 ∈ set then (some pi.2, match acc.1 with
        | some old => acc.2 ++ [(old, pi.2)]
        | none => acc.2) else acc) (none, [])
    (∀ i, r.1 = some i ↔ Hit l set i ∧ ∀ j < i, ¬ Hit l set j) ∧
    (r.1 = none → ∀ i, ¬ Hit l set i) ∧
    (∀ a b, (a, b) ∈ r.2 ↔ Hit l set a ∧ Hit l set b ∧ b < a ∧ ∀ j, b < j → j < a → ¬ Hit l set j) := by
  intro l
  induction l with
  | nil =>
    intro _
    simp [Hit]
  | cons x l ih =>
    obtain ⟨p, k⟩ := x
    intro hl
    have hl' := List.pairwise_cons.1 hl
    obtain ⟨h1, h2, h3⟩ := ih hl'.2
    have hgt : ∀ i, Hit l set i → k < i := fun i ⟨p', hm, _⟩ => hl'.1 _ hm
    have hcons : ∀ i, Hit ((p, k) :: l) set i ↔ (i = k ∧ p ∈ set) ∨ Hit l set i := by
      intro i
      unfold Hit
      constructor
      · rintro ⟨p', hm, hs⟩
        rcases List.mem_cons.1 hm with hm | hm
        · cases hm; exact Or.inl ⟨rfl, hs⟩
        · exact Or.inr ⟨p', hm, hs⟩
      · rintro (⟨rfl, hs⟩ | ⟨p', hm, hs⟩)
        · exact ⟨p, by simp, hs⟩
        · exact ⟨p', List.mem_cons_of_mem _ hm, hs⟩
    simp only [List.foldr_cons]
    generalize hacc : l.foldr (fun (pi : Nat × Nat) (acc : Option Nat × List (Nat × Nat)) =>
      if pi.1 ∈ set then (some pi.2, match acc.1 with
        | some old => acc.2 ++ [(old, pi.2)]
        | none => acc.2) else acc) (none, []) = acc at h1 h2 h3
    by_cases hp : p ∈ set
    · rw [if_pos hp]
      refine ⟨?_, by simp, ?_⟩
      · intro i
        simp only [Option.some.injEq, hcons]
        constructor
        · rintro rfl
          refine ⟨Or.inl ⟨rfl, hp⟩, ?_⟩
          rintro j hj (⟨rfl, _⟩ | hh)
          · omega
          · have := hgt j hh; omega
        · rintro ⟨h4, h5⟩
          rcases h4 with ⟨rfl, _⟩ | h4
          · rfl
          · exact absurd (Or.inl ⟨rfl, hp⟩) (h5 k (hgt i h4))
      · intro a b
        cases hold : acc.1 with
        | none =>
          have hno := h2 hold
          simp only [hcons, h3]
          constructor
          · rintro ⟨h4, _⟩; exact absurd h4 (hno a)
          · rintro ⟨h4 | h4, h5 | h5, h6, _⟩
            · omega
            · exact absurd h5 (hno _)
            · exact absurd h4 (hno _)
            · exact absurd h4 (hno _)
        | some old =>
          have hmin := (h1 old).1 hold
          simp only [List.mem_append, List.mem_singleton, Prod.mk.injEq, hcons, h3]
          constructor
          · rintro (⟨h4, h5, h6, h7⟩ | ⟨rfl, rfl⟩)
            · refine ⟨Or.inr h4, Or.inr h5, h6, ?_⟩
              rintro j hj1 hj2 (⟨rfl, _⟩ | hh)
              · have := hgt b h5; omega
              · exact h7 j hj1 hj2 hh
            · refine ⟨Or.inr hmin.1, Or.inl ⟨rfl, hp⟩, hgt _ hmin.1, ?_⟩
              rintro j hj1 hj2 (⟨rfl, _⟩ | hh)
              · omega
              · exact hmin.2 j hj2 hh
          · rintro ⟨h4, h5, h6, h7⟩
            rcases h5 with ⟨rfl, _⟩ | h5
            · right
              rcases h4 with ⟨rfl, _⟩ | h4
              · omega
              · refine ⟨?_, rfl⟩
                rcases Nat.lt_trichotomy a old with hlt | heq | hgt'
                · exact absurd h4 (hmin.2 a hlt)
                · exact heq
                · exact absurd (Or.inr hmin.1) (h7 old (hgt _ hmin.1) hgt')
            · left
              rcases h4 with ⟨rfl, _⟩ | h4
              · have := hgt b h5; omega
              · exact ⟨h4, h5, h6, fun j hj1 hj2 hh => h7 j hj1 hj2 (Or.inr hh)⟩
    · rw [if_neg hp]
      have hc : ∀ i, Hit ((p, k) :: l) set i ↔ Hit l set i := by
        intro i; rw [hcons]; simp [hp]
      simp only [hc]
      exact ⟨h1, h2, h3⟩

theorem zipIdx_sorted (l : List Nat) (k : Nat) : (l.zipIdx k).Pairwise fun a b => a.2 < b.2 := by
  induction l generalizing k with
  | nil => simp
  | cons a l ih =>
    rw [List.zipIdx_cons, List.pairwise_cons]
    refine ⟨?_, ih (k + 1)⟩
    rintro ⟨x, i⟩ hx
    have := List.le_snd_of_mem_zipIdx hx
    simp only at this ⊢
    omega

/-- Index `i` is hit in a set. -/
def Acc (ends set : List Nat) (i : Nat) : Prop := ∃ p, ends[i]? = some p ∧ p ∈ set

theorem markEnds_spec {ends set : List Nat} :
    (∀ i, (markEnds ends set).1 = some i ↔ Acc ends set i ∧ ∀ j < i, ¬ Acc ends set j) ∧
    ((markEnds ends set).1 = none → ∀ i, ¬ Acc ends set i) ∧
    (∀ a b, (a, b) ∈ (markEnds ends set).2 ↔ Acc ends set a ∧ Acc ends set b ∧ b < a ∧ ∀ j, b < j → j < a → ¬ Acc ends set j) := by
  have := mark_spec (set := set) (zipIdx_sorted ends 0)
  have hh : ∀ i, Hit (ends.zipIdx 0) set i ↔ Acc ends set i := by
    intro i
    unfold Hit Acc
    simp only [List.mk_mem_zipIdx_iff_getElem?]
  simp only [hh] at this
  unfold markEnds
  rw [List.foldl_reverse]
  exact this

/-! ## Words -/

theorem snoc_ind {P : List Nat → Prop} (h0 : P []) (hs : ∀ w c, P w → P (w ++ [c])) : ∀ w, P w := by
  intro w
  have : ∀ r : List Nat, P r.reverse := by
    intro r
    induction r with
    | nil => exact h0
    | cons a r ih => rw [List.reverse_cons]; exact hs _ _ ih
  have := this w.reverse
  rwa [List.reverse_reverse] at this

theorem DFA.run_append (d : DFA) (n : Nat) (u v : List Nat) : d.run n (u ++ v) = (d.run n u).bind fun m => d.run m v := by
  induction u generalizing n with
  | nil => rfl
  | cons c u ih =>
    simp only [List.cons_append, DFA.run]
    cases d.next n c with
    | none => rfl
    | some m => simp [ih]

theorem DFA.run_snoc (d : DFA) (n : Nat) (u : List Nat) (c : Nat) : d.run n (u ++ [c]) = (d.run n u).bind fun m => d.next m c := by
  rw [DFA.run_append]
  congr 1
  funext m
  simp [DFA.run]

/-- What the subset construction guarantees. -/
structure DfaOf (t : TNFA) (d : DFA) : Prop where
  wf : d.WF t.ends.length
  stuck : ∀ w, d.obs w = none ↔ ∀ q, ¬ NPath t.node t.b w q
  acc : ∀ w k, d.obs w = some (some k) ↔ t.Accepts k w ∧ ∀ j < k, ¬ t.Accepts j w
  reach : ∀ i, i < d.rows.length → ∃ w, d.run d.b w = some i
  same : ∀ u v, d.run d.b u = d.run d.b v ↔ ∀ q, NPath t.node t.b u q ↔ NPath t.node t.b v q

theorem fromNfa_spec {fuel ord t d ws} (hns : EdgesOk t.node) (hord : ∀ l, (ord l).Perm l)
    (h : fromNfa fuel ord t = some (d, ws)) :
    DfaOf t d ∧ ∀ a b, (a, b) ∈ ws ↔
      ∃ w, t.Accepts a w ∧ t.Accepts b w ∧ b < a ∧ ∀ j, b < j → j < a → ¬ t.Accepts j w := by
  unfold fromNfa at h
  simp only at h
  split at h
  · cases h
  rename_i st hst
  obtain ⟨inv, hq⟩ := subLoop_inv hns _ _ _ start_inv hst
  simp only [Option.some.injEq, Prod.mk.injEq] at h
  obtain ⟨rfl, rfl⟩ := h
  have hproc : ∀ i : Nat, i < st.sets.length → i ∈ st.processed := by
    intro i hi
    apply Classical.byContradiction
    intro hn
    have := inv.pend i _ (List.getElem?_eq_getElem hi) hn
    rw [hq] at this
    simp at this
  have hrow : ∀ (i : Nat) s, st.sets[i]? = some s →
      st.rows[i]? = some ((outRanges t.node s).map fun x => (x.1, st.sets.idxOf x.2)) ∧
        ∀ x ∈ outRanges t.node s, x.2 ∈ st.sets := by
    intro i s hs
    have hi : i < st.sets.length := (List.getElem?_eq_some_iff.1 hs).1
    have hf : full t.node st i = outRanges t.node s := by
      unfold full
      rw [if_pos (hproc i hi), List.getD_eq_getElem?_getD, hs]
      rfl
    refine ⟨?_, ?_⟩
    · rw [inv.rowsEq i hi, hf]
    · intro x hx
      exact inv.rowsIn i x (by rw [hf]; exact hx)
  have hrowWF : ∀ (i : Nat) r, st.rows[i]? = some r → RowWF r st.rows.length := by
    intro i r hr
    have hi : i < st.sets.length := by rw [← inv.len]; exact (List.getElem?_eq_some_iff.1 hr).1
    obtain ⟨h1, h2⟩ := hrow i _ (List.getElem?_eq_getElem hi)
    rw [h1] at hr
    cases hr
    obtain ⟨o1, o2, _⟩ := outRanges_spec (set := st.sets[i]) hns
    refine ⟨?_, ?_, ?_⟩
    · intro x hx
      obtain ⟨y, hy, rfl⟩ := List.mem_map.1 hx
      exact (o1 y hy).1
    · rw [List.pairwise_map]
      exact o2
    · intro x hx
      obtain ⟨y, hy, rfl⟩ := List.mem_map.1 hx
      rw [inv.len]
      exact List.idxOf_lt_length_iff.2 (h2 y hy)
  generalize hd : ({ rows := st.rows, b := 0, ends := st.sets.map fun s => (markEnds t.ends s).1 } : DFA) = d
  have hdr : d.rows = st.rows := by rw [← hd]
  have hdb : d.b = 0 := by rw [← hd]
  have hde : d.ends = st.sets.map fun s => (markEnds t.ends s).1 := by rw [← hd]
  -- the run of the table
  have hrun : ∀ w, match d.run 0 w with
      | some i => ∃ s, st.sets[i]? = some s ∧ ∀ q, q ∈ s ↔ NPath t.node t.b w q
      | none => ∀ q, ¬ NPath t.node t.b w q := by
    apply snoc_ind
    · exact ⟨_, inv.head, fun q => mem_closure⟩
    · intro w c ih
      rw [DFA.run_snoc]
      cases hr : d.run 0 w with
      | none =>
        rw [hr] at ih
        simp only [Option.bind_none]
        intro q hpath
        obtain ⟨p, hp, _⟩ := (delta_path (s := []) (w := w) (by intro q; simpa using ih q)).2 hpath
        simp at hp
      | some i =>
        rw [hr] at ih
        obtain ⟨s, hs, hsq⟩ := ih
        obtain ⟨h1, h2⟩ := hrow i s hs
        obtain ⟨o1, o2, o3⟩ := outRanges_spec (set := s) hns
        have hwf := hrowWF i _ h1
        simp only [Option.bind_some]
        have hnext : d.next i c = nextInRow ((outRanges t.node s).map fun x => (x.1, st.sets.idxOf x.2)) c := by
          unfold DFA.next
          rw [hdr, h1]
          rfl
        cases hn : d.next i c with
        | none =>
          intro q hpath
          obtain ⟨x, hx, h3, h4⟩ := o3 c q ((delta_path hsq).2 hpath)
          have := (nextInRow_iff (c := c) (n := st.sets.idxOf x.2) hwf).2
            ⟨x.1.1, x.1.2, List.mem_map.2 ⟨x, hx, rfl⟩, h3, h4⟩
          rw [← hnext, hn] at this
          cases this
        | some m =>
          rw [hnext] at hn
          obtain ⟨lo, hi, h3, h4, h5⟩ := (nextInRow_iff hwf).1 hn
          obtain ⟨x, hx, hxe⟩ := List.mem_map.1 h3
          simp only [Prod.mk.injEq] at hxe
          obtain ⟨hx1, hx2⟩ := hxe
          refine ⟨x.2, ?_, ?_⟩
          · rw [← hx2]
            have hlt := List.idxOf_lt_length_iff.2 (h2 x hx)
            rw [List.getElem?_eq_getElem hlt]
            simp
          · intro q
            have hx1a : x.1.1 = lo := by rw [hx1]
            have hx1b : x.1.2 = hi := by rw [hx1]
            rw [(o1 x hx).2.2.2 c q (by omega) (by omega), delta_path hsq]
  have hacc : ∀ (i : Nat) s w, st.sets[i]? = some s → (∀ q, q ∈ s ↔ NPath t.node t.b w q) →
      d.accept i = (markEnds t.ends s).1 ∧ ∀ k, Acc t.ends s k ↔ t.Accepts k w := by
    intro i s w hs hsq
    refine ⟨?_, ?_⟩
    · unfold DFA.accept
      rw [hde, List.getElem?_map, hs]
      rfl
    · intro k
      unfold Acc TNFA.Accepts
      simp only [hsq]
  have hreach : ∀ s ∈ st.sets, ∃ w i, st.sets[i]? = some s ∧ d.run 0 w = some i ∧ ∀ q, q ∈ s ↔ NPath t.node t.b w q := by
    intro s hs
    obtain ⟨hsort, hne, w, hw⟩ := inv.reached s hs
    have := hrun w
    cases hr : d.run 0 w with
    | none =>
      rw [hr] at this
      exfalso
      cases s with
      | nil => exact hne rfl
      | cons q s => exact this q ((hw q).1 (by simp))
    | some i =>
      rw [hr] at this
      obtain ⟨s', hs', hsq⟩ := this
      have : s = s' := OSet.ext hsort (inv.reached s' (List.mem_of_getElem? hs')).1 (fun q => by rw [hw, hsq])
      subst this
      exact ⟨w, i, hs', hr, hw⟩
  refine ⟨⟨⟨?_, ?_, ?_, ?_⟩, ?_, ?_, ?_, ?_⟩, ?_⟩
  · intro r hr
    rw [hdr] at hr ⊢
    obtain ⟨i, hi⟩ := List.getElem?_of_mem hr
    exact hrowWF i r hi
  · rw [hdb, hdr, inv.len]
    exact (List.getElem?_eq_some_iff.1 inv.head).1
  · rw [hde, hdr, inv.len]; simp
  · intro e he
    rw [hde, List.mem_map] at he
    obtain ⟨s, _, hs⟩ := he
    obtain ⟨⟨p, hp, _⟩, _⟩ := (markEnds_spec.1 e).1 hs
    exact (List.getElem?_eq_some_iff.1 hp).1
  · intro w
    unfold DFA.obs
    rw [hdb]
    have := hrun w
    cases hr : d.run 0 w with
    | none => rw [hr] at this; simpa using this
    | some i =>
      rw [hr] at this
      obtain ⟨s, hs, hsq⟩ := this
      simp only [Option.map_some, reduceCtorEq, false_iff]
      intro hno
      obtain ⟨_, hne, _⟩ := inv.reached s (List.mem_of_getElem? hs)
      cases s with
      | nil => exact hne rfl
      | cons q s => exact hno q ((hsq q).1 (by simp))
  · intro w k
    unfold DFA.obs
    rw [hdb]
    have := hrun w
    cases hr : d.run 0 w with
    | none =>
      rw [hr] at this
      simp only [Option.map_none, reduceCtorEq, false_iff]
      rintro ⟨⟨e, _, he⟩, _⟩
      exact this e he
    | some i =>
      rw [hr] at this
      obtain ⟨s, hs, hsq⟩ := this
      obtain ⟨h1, h2⟩ := hacc i s w hs hsq
      simp only [Option.map_some, Option.some.injEq, h1]
      rw [markEnds_spec.1 k]
      simp only [h2]
  · intro i hi
    rw [hdr, inv.len] at hi
    rw [hdb]
    obtain ⟨w, j, h1, h2, _⟩ := hreach st.sets[i] (List.getElem_mem hi)
    have : i = j := (List.getElem?_inj hi inv.nodup).1 (by rw [h1, List.getElem?_eq_getElem hi])
    subst this
    exact ⟨w, h2⟩
  · intro u v
    rw [hdb]
    have hu := hrun u
    have hv := hrun v
    cases hru : d.run 0 u with
    | none =>
      rw [hru] at hu
      cases hrv : d.run 0 v with
      | none =>
        rw [hrv] at hv
        simp only [true_iff]
        exact fun q => ⟨fun h => absurd h (hu q), fun h => absurd h (hv q)⟩
      | some j =>
        rw [hrv] at hv
        obtain ⟨s', hs', hsq'⟩ := hv
        obtain ⟨_, hne, _⟩ := inv.reached s' (List.mem_of_getElem? hs')
        obtain ⟨q, hq⟩ := List.exists_mem_of_ne_nil _ hne
        simp only [reduceCtorEq, false_iff]
        exact fun h => hu q ((h q).2 ((hsq' q).1 hq))
    | some i =>
      rw [hru] at hu
      obtain ⟨s, hs, hsq⟩ := hu
      have hrs := inv.reached s (List.mem_of_getElem? hs)
      cases hrv : d.run 0 v with
      | none =>
        rw [hrv] at hv
        obtain ⟨q, hq⟩ := List.exists_mem_of_ne_nil _ hrs.2.1
        simp only [reduceCtorEq, false_iff]
        exact fun h => hv q ((h q).1 ((hsq q).1 hq))
      | some j =>
        rw [hrv] at hv
        obtain ⟨s', hs', hsq'⟩ := hv
        have hrs' := inv.reached s' (List.mem_of_getElem? hs')
        simp only [Option.some.injEq]
        constructor
        · rintro rfl q
          rw [hs] at hs'
          cases hs'
          rw [← hsq, ← hsq']
        · intro h
          have : s = s' := OSet.ext hrs.1 hrs'.1 (fun q => by rw [hsq, hsq', h])
          subst this
          exact (List.getElem?_inj (List.getElem?_eq_some_iff.1 hs).1 inv.nodup).1 (by rw [hs, hs'])
  · intro a b
    rw [List.mem_flatMap]
    constructor
    · rintro ⟨s, hs, hm⟩
      have hs := (hord st.sets).mem_iff.1 hs
      obtain ⟨w, i, h1, h2, h3⟩ := hreach s hs
      obtain ⟨_, h4⟩ := hacc i s w h1 h3
      have := (markEnds_spec.2.2 a b).1 hm
      simp only [h4] at this
      exact ⟨w, this⟩
    · rintro ⟨w, hw⟩
      have := hrun w
      cases hr : d.run 0 w with
      | none =>
        rw [hr] at this
        obtain ⟨⟨e, _, he⟩, _⟩ := hw
        exact absurd he (this e)
      | some i =>
        rw [hr] at this
        obtain ⟨s, hs, hsq⟩ := this
        obtain ⟨_, h4⟩ := hacc i s w hs hsq
        refine ⟨s, (hord st.sets).mem_iff.2 (List.mem_of_getElem? hs), ?_⟩
        rw [markEnds_spec.2.2 a b]
        simp only [h4]
        exact hw

theorem fromNfa_some {ord t} (ht : t.WF) (hns : EdgesOk t.node) : ∃ fuel d, fromNfa fuel ord t = some d := by
  obtain ⟨f, r, h⟩ := subLoop_some ht hns _ _ start_inv rfl
  refine ⟨f, ?_⟩
  unfold fromNfa
  simp only [h]
  exact ⟨_, rfl⟩

theorem subLoop_mono {ns} : ∀ (f : Nat) (st r : Sub), subLoop ns f st = some r → ∀ k, subLoop ns (f + k) st = some r := by
  intro f
  induction f with
  | zero =>
    intro st r h k
    simp only [subLoop] at h
    split at h
    · cases h
      rename_i he
      have : st.queue = [] := by simpa using he
      cases k <;> simp [subLoop, this]
    · cases h
  | succ f ih =>
    intro st r h k
    rw [Nat.succ_add]
    simp only [subLoop] at h ⊢
    split at h
    · exact h
    · split at h
      · rename_i hp
        rw [if_pos hp]; exact ih _ _ h k
      · rename_i hp
        rw [if_neg hp]; exact ih _ _ h k

/-- The fuel does not matter. -/
theorem fromNfa_fuel {f f' ord t d d'} (h : fromNfa f ord t = some d) (h' : fromNfa f' ord t = some d') : d = d' := by
  unfold fromNfa at h h'
  simp only at h h'
  split at h
  · cases h
  rename_i st hst
  split at h'
  · cases h'
  rename_i st' hst'
  have h1 := subLoop_mono _ _ _ hst f'
  have h2 := subLoop_mono _ _ _ hst' f
  rw [Nat.add_comm] at h2
  rw [h1] at h2
  cases h2
  rw [h] at h'
  exact Option.some.inj h'

/-! ## Edges of built automata -/

def NodesOk (ns : List Node) : Prop := ∀ n ∈ ns, ∀ r t, (r, t) ∈ n.next → r.1 < r.2 ∧ t ≠ []

theorem nodesOk_addEps {ns p q} (h : NodesOk ns) : NodesOk (addEps ns p q) := by
  intro n hn r t hrt
  obtain ⟨i, hi⟩ := List.getElem?_of_mem hn
  unfold addEps at hi
  rw [List.getElem?_modify] at hi
  cases hg : ns[i]? with
  | none => simp [hg] at hi
  | some m =>
    simp only [hg, Option.map_eq_map, Option.map_some, Option.some.injEq] at hi
    refine h m (List.mem_of_getElem? hg) r t ?_
    split at hi
    · rw [← hi] at hrt; exact hrt
    · rw [← hi] at hrt; exact hrt

theorem nodesOk_append {ns ms} (h : NodesOk ns) (h' : NodesOk ms) : NodesOk (appendNodes ns ms) := by
  intro n hn r t hrt
  rcases List.mem_append.1 hn with hn | hn
  · exact h n hn r t hrt
  · obtain ⟨m, hm, rfl⟩ := List.mem_map.1 hn
    simp only [Node.shift, List.mem_map] at hrt
    obtain ⟨⟨r', t'⟩, h1, h2⟩ := hrt
    simp only [Prod.mk.injEq] at h2
    obtain ⟨rfl, rfl⟩ := h2
    have := h' m hm _ _ h1
    exact ⟨this.1, by simpa using this.2⟩

theorem nodesOk_iter {f : NFA → NFA} (hf : ∀ x, NodesOk x.node → NodesOk (f x).node) (n) :
    ∀ x, NodesOk x.node → NodesOk (iter f n x).node := by
  induction n with
  | zero => intro x h; exact h
  | succ n ih => intro x h; exact ih _ (hf x h)

theorem nodesOk_linkCopy {x acc : NFA} (hx : NodesOk x.node) (h : NodesOk acc.node) : NodesOk (linkCopy x acc).node :=
  nodesOk_addEps (nodesOk_append h hx)

theorem nodesOk_linkCopyExit {x acc : NFA} {fin} (hx : NodesOk x.node) (h : NodesOk acc.node) :
    NodesOk (linkCopyExit x fin acc).node :=
  nodesOk_addEps (nodesOk_addEps (nodesOk_append h hx))

theorem nodesOk_chain {x n} (hx : NodesOk x.node) : NodesOk (nfaChain x n).node :=
  nodesOk_iter (fun _ h => nodesOk_linkCopy hx h) _ _ hx

theorem nodesOk_rep {x k r} (hx : NodesOk x.node) (h : nfaRep x k = .ok r) : NodesOk r.node := by
  have hbare : NodesOk nfaBare.node := by intro n hn r t hrt; simp [nfaBare] at hn; subst hn; simp at hrt
  have hb : ∀ n m, NodesOk (nfaBounded x n m).node := fun n m =>
    nodesOk_iter (fun _ h => nodesOk_linkCopyExit hx h) _ _ (nodesOk_chain hx)
  unfold nfaRep at h
  split at h
  · cases h; exact nodesOk_addEps hx
  · cases h; exact nodesOk_addEps hx
  · cases h; exact nodesOk_addEps hx
  · cases h; exact hbare
  · cases h; exact hx
  · cases h; exact nodesOk_chain hx
  · cases h; exact nodesOk_addEps hx
  · cases h; exact nodesOk_addEps (nodesOk_addEps (nodesOk_append (nodesOk_chain hx) hx))
  · cases h; exact hbare
  · cases h; exact nodesOk_addEps hx
  · cases h; exact nodesOk_addEps (hb 1 _)
  · cases h; exact hx
  · split at h
    · cases h; exact nodesOk_chain hx
    · split at h
      · cases h; exact hb _ _
      · cases h

theorem build_nodesOk : ∀ (h : Hir) (x : NFA), build h = .ok x → h.ok = true → NodesOk x.node := by
  apply Hir.ind
  case empty =>
    intro x hx _ n hn r t hrt
    simp only [build, Except.ok.injEq] at hx
    subst hx
    simp [nfaEmpty] at hn
    subst hn
    simp at hrt
    simp [hrt]
  case literalU =>
    intro c x hx _ n hn r t hrt
    simp only [build, Except.ok.injEq] at hx
    subst hx
    simp [nfaLiteral] at hn
    rcases hn with rfl | rfl
    · simp at hrt; simp [hrt]
    · simp at hrt
  case literalB => intro c x hx; simp [build] at hx
  case classU =>
    intro rs x hx ho n hn r t hrt
    simp only [build, Except.ok.injEq] at hx
    subst hx
    simp only [Hir.ok] at ho
    unfold nfaClass at hn
    rw [class_next ho] at hn
    simp at hn
    rcases hn with rfl | rfl
    · simp only [List.mem_map, Prod.mk.injEq] at hrt
      obtain ⟨a, ha, rfl, rfl⟩ := hrt
      simp only [classOk, Bool.and_eq_true, List.all_eq_true, decide_eq_true_eq] at ho
      have := ho.1 a ha
      simp only
      exact ⟨by omega, by simp⟩
    · simp at hrt
  case classB => intro x hx; simp [build] at hx
  case anchor => intro x hx; simp [build] at hx
  case wordBoundary => intro x hx; simp [build] at hx
  case rep =>
    intro k h ih x hx ho
    rw [build] at hx
    obtain ⟨y, h1, h2⟩ := bind_ok hx
    refine nodesOk_rep (ih y h1 ?_) h2
    cases k <;> simp_all [Hir.ok]
  case group =>
    intro h ih x hx ho
    rw [build] at hx
    exact ih x hx (by simpa [Hir.ok] using ho)
  case concat =>
    intro hs ih x hx ho
    rw [build] at hx
    simp only [Hir.ok, Bool.and_eq_true] at ho
    replace ho := ho.2
    induction hs generalizing x with
    | nil => simp [buildConcat] at hx
    | cons h t iht =>
      simp only [Hir.okList, Bool.and_eq_true] at ho
      cases t with
      | nil =>
        simp only [buildConcat] at hx
        exact ih h (by simp) x hx ho.1
      | cons h2 t =>
        rw [buildConcat] at hx
        · obtain ⟨acc, h1, hx⟩ := bind_ok hx
          obtain ⟨y, h3, hx⟩ := bind_ok hx
          cases hx
          exact nodesOk_addEps (nodesOk_append (iht (fun h hh => ih h (List.mem_cons_of_mem _ hh)) acc h1 ho.2)
            (ih h (by simp) y h3 ho.1))
        · simp
  case alt =>
    intro hs ih x hx ho
    rw [build] at hx
    simp only [Hir.ok] at ho
    obtain ⟨ns, h1, h2⟩ := bind_ok hx
    cases h2
    have : ∀ (hs : List Hir), (∀ h ∈ hs, ∀ x, build h = .ok x → h.ok = true → NodesOk x.node) → Hir.okList hs = true →
        ∀ ns r, NodesOk ns → buildAlt ns hs = .ok r → NodesOk r := by
      intro hs
      induction hs with
      | nil => intro _ _ ns r hn hr; simp [buildAlt] at hr; subst hr; exact hn
      | cons h t iht =>
        intro ih ho ns r hn hr
        simp only [Hir.okList, Bool.and_eq_true] at ho
        rw [buildAlt] at hr
        obtain ⟨y, h1, hr⟩ := bind_ok hr
        exact iht (fun h hh => ih h (List.mem_cons_of_mem _ hh)) ho.2 _ _
          (nodesOk_addEps (nodesOk_addEps (nodesOk_append hn (ih h (by simp) y h1 ho.1)))) hr
    refine this hs ih ho _ _ ?_ h1
    intro n hn r t hrt
    simp at hn
    subst hn
    simp at hrt

theorem buildAll_edgesOk {hs : List Hir} {t : TNFA} (ht : buildAll hs = .ok t) (ho : ∀ h ∈ hs, h.ok = true) :
    EdgesOk t.node := by
  have key : NodesOk t.node := by
    unfold buildAll at ht
    obtain ⟨⟨ns, bs, es⟩, h1, h2⟩ := bind_ok ht
    cases h2
    have : ∀ (hs : List Hir), (∀ h ∈ hs, h.ok = true) → ∀ ns bs es r, NodesOk ns → buildAllLoop hs (ns, bs, es) = .ok r → NodesOk r.1 := by
      intro hs
      induction hs with
      | nil => intro _ ns bs es r hn hr; simp [buildAllLoop] at hr; subst hr; exact hn
      | cons h t ih =>
        intro ho ns bs es r hn hr
        rw [buildAllLoop] at hr
        obtain ⟨y, h1, hr⟩ := bind_ok hr
        exact ih (fun h hh => ho h (List.mem_cons_of_mem _ hh)) _ _ _ _
          (nodesOk_append hn (build_nodesOk h y h1 (ho h (by simp)))) hr
    have := this hs ho [] [] [] _ (by intro n hn; simp at hn) h1
    intro n hn r t hrt
    rcases List.mem_append.1 hn with hn | hn
    · exact this n hn r t hrt
    · simp at hn
      subst hn
      simp at hrt
  intro p r t' hrt
  unfold nextOf at hrt
  cases hp : t.node[p]? with
  | none => simp [hp] at hrt
  | some n =>
    simp [hp] at hrt
    exact key n (List.mem_of_getElem? hp) r t' hrt

end Verif.Tok
