import Verif.Tok.PtrMin

/-! # The nodes `minify` allocates, and `DFATokenizer::new` -/

namespace Verif.Tok

section
variable {al : Alloc} {h0 h : DHeap} {node : List Addr} {rows : List Row} {oP o : MinOracle}

theorem newNodes_held (hal : al.Fair) : ∀ (k : Nat) (h : DHeap) (node : List Addr) (rows : List Row), Held h0 h node rows →
    ∃ l h', newNodes al k h = .ok l h' ∧ l.length = k ∧ Held h0 h' (node ++ l) (rows ++ List.replicate k []) := by
  intro k
  induction k with
  | zero => intro h node rows H; exact ⟨[], h, rfl, rfl, by simpa using H⟩
  | succ k ih =>
    intro h node rows H
    obtain ⟨a, h1, e1, H1⟩ := newNode_held hal H
    obtain ⟨l, h2, e2, hl, H2⟩ := ih h1 _ _ H1
    refine ⟨a :: l, h2, ?_, by simp [hl], ?_⟩
    · rw [newNodes, DMem.bind_ok e1, DMem.bind_ok e2]; rfl
    · rw [List.replicate_succ]
      simpa using H2

theorem foldl_modify_zipIdx {α : Type} (F : α → Row) : ∀ (l : List α) (pre : List Row),
    (l.zipIdx pre.length).foldl (fun c a => c.modify a.2 fun _ => F a.1) (pre ++ List.replicate l.length []) = pre ++ l.map F := by
  intro l
  induction l with
  | nil => intro pre; simp
  | cons a l ih =>
    intro pre
    rw [List.zipIdx_cons, List.foldl_cons]
    have e : (pre ++ List.replicate (a :: l).length ([] : Row)).modify pre.length (fun _ => F a) = (pre ++ [F a]) ++ List.replicate l.length [] := by
      rw [List.length_cons, List.replicate_succ]
      generalize List.replicate l.length ([] : Row) = q
      induction pre with
      | nil => rfl
      | cons x pre ih => simpa using ih
    simp only
    rw [e]
    have := ih (pre ++ [F a])
    rw [List.length_append, List.length_singleton] at this
    rw [this]
    simp

theorem idxOf_nmOf (hn : node.Nodup) {i : Nat} (hi : i < node.length) : node.idxOf (nmOf node i) = i := by
  have hm := nmOf_mem hi
  have hlt := List.idxOf_lt_length_iff.2 hm
  have e := nmOf_get hlt
  apply nmOf_inj hn hlt hi
  have := List.getElem?_eq_getElem hlt
  rw [List.getElem_idxOf hlt] at this
  rw [this] at e
  exact (Option.some.inj e).symm

theorem nmOf_idxOf (hm : a ∈ node) : nmOf node (node.idxOf a) = a := by
  have hlt := List.idxOf_lt_length_iff.2 hm
  have e := nmOf_get hlt
  rw [List.getElem?_eq_getElem hlt, List.getElem_idxOf hlt] at e
  exact (Option.some.inj e).symm

/-- The rows of the new nodes. -/
theorem fill_sim (K : Kept h node rows) (M : Match node oP o) (hf : o.Fair) {gm : List Nat} (hg : gm.length = node.length)
    {m : Nat} (hlt : ∀ i, i < node.length → gm.getD i 0 < m) (hdense : ∀ g, g < m → ∃ i, i < node.length ∧ gm.getD i 0 = g)
    {node' : List Addr} {h1 : DHeap} (H1 : Held h h1 node' (List.replicate m [])) :
    ∃ h2, loopM (fun _ si => fillNode oP (byAddr node gm) node' si) () (groupSetsP (byAddr node gm)).zipIdx h1 = .ok () h2 ∧
      Held h h2 node' ((groupSets gm).map fun s => compress gm (rows.getD (o.pick s) [])) := by
  have hcount := groupCount_dense hg hlt hdense
  have hgs : (groupSets gm).length = m := by simp [groupSets, hcount]
  have hm : node'.length = m := by rw [H1.len]; simp
  rw [groupSetsP_byAddr hg, zipIdx_map]
  obtain ⟨⟨⟩, h2, e, H2, _⟩ := loopM_sim (φ := fun x : List Nat × Nat => (x.1.map (nmOf node), x.2)) (l := (groupSets gm).zipIdx)
    (f := fun (_ : Unit) si => fillNode oP (byAddr node gm) node' si)
    (g := fun (c : List Row) a => c.modify a.2 fun _ => compress gm (rows.getD (o.pick a.1) []))
    (R := fun _ c k => Held h k node' c ∧ c.length = m) (b := ()) (c := List.replicate m []) (h := h1) (by
      rintro ⟨s, g⟩ hsg ⟨⟩ c k ⟨Hk, hc⟩
      obtain ⟨hgm, hs⟩ := mem_groupSets.1 hsg
      rw [hcount] at hgm
      have hsl : ∀ i ∈ s, i < node.length := by
        rw [← hg]
        exact groupSets_lt (List.mem_of_getElem? (List.mk_mem_zipIdx_iff_getElem?.1 hsg))
      have hne : s ≠ [] := by
        obtain ⟨i, hi1, hi2⟩ := hdense g hgm
        have : i ∈ s := by
          rw [hs, List.mem_filter, List.mem_range, hg]
          exact ⟨hi1, by rw [hi2]; exact BEq.rfl⟩
        exact List.ne_nil_of_mem this
      have hp : o.pick s < node.length := hsl _ (hf.pick s hne)
      have hne' : s.map (nmOf node) ≠ [] := by simpa using hne
      have hcm : ∀ x ∈ compress gm (rows.getD (o.pick s) []), x.2 < m := by
        intro x hx
        rcases compress_target _ _ _ hx with ⟨q, hq, _⟩ | ⟨y, hy, e⟩
        · cases hq
        · rw [e]; exact hlt _ (K.tgt _ hp y hy)
      have hmemk : nmOf node (o.pick s) ∈ k.nodes := by rw [Hk.nodes]; exact List.mem_append_right _ (K.mem _ hp)
      have hcell : k.cell (nmOf node (o.pick s)) = ren (nmOf node) (rows.getD (o.pick s) []) := by
        rw [Hk.frame _ (K.mem _ hp), K.cell _ hp]
      obtain ⟨h', e', H'⟩ := assign_held Hk (i := g) (by rw [hc]; exact hgm)
        (f := fun _ => ren (nmOf node') (compress gm (rows.getD (o.pick s) []))) (g := fun _ => compress gm (rows.getD (o.pick s) []))
        (fun _ => rfl) (fun _ _ => by rw [hc]; exact hcm)
      refine ⟨(), h', ?_, H', by rw [List.length_modify]; exact hc⟩
      unfold fillNode
      simp only
      rw [if_neg hne', M.pick s hne hsl, DMem.bind_ok (deref_ok hmemk), hcell,
        DMem.bind_ok (compressGoP_sim K.nodup k _ none (K.tgt _ hp))]
      have hmap := mapD_sim (φ := id) (h := k) (l := compress gm (rows.getD (o.pick s) []))
        (f := fun x => (do
          let a ← nth node' x.2
          pure (x.1, a) : DMem ((Nat × Nat) × Nat))) (g := fun x => (x.1, nmOf node' x.2)) (by
          intro x hx
          simp only [id]
          rw [DMem.bind_ok (nth_some k (nmOf_get (by rw [hm]; exact hcm x hx)))]
          rfl)
      rw [List.map_id] at hmap
      refine (DMem.bind_ok hmap).trans ?_
      rw [DMem.bind_ok (nth_some k (nmOf_get (by rw [hm]; exact hgm)))]
      exact e') ⟨H1, by simp⟩
  refine ⟨h2, e, ?_⟩
  have := foldl_modify_zipIdx (fun s => compress gm (rows.getD (o.pick s) [])) (groupSets gm) []
  rw [List.nil_append, List.nil_append, hgs] at this
  rw [List.length_nil] at this
  rw [this] at H2
  exact H2

variable {s : PSeeds} {p : PDFA} {d : DFA}

theorem rebuildP_sim (hal : al.Fair) (hse : ∀ l, (s.endsMin l).Perm l) (D : DSim h0 h p d) (M : Match p.node s.min o) (hf : o.Fair)
    {gm : List Nat} (W : WeakInv d gm) {m : Nat} (hlt : ∀ i, i < d.rows.length → gm.getD i 0 < m)
    (hdense : ∀ g, g < m → ∃ i, i < d.rows.length ∧ gm.getD i 0 = g) :
    ∃ p' h', rebuildP al s p (byAddr p.node gm) h = .ok p' h' ∧ DSim h h' p' (rebuild o d gm) := by
  have hn := D.held.len
  have hg : gm.length = p.node.length := by rw [W.len, hn]
  have hcount := groupCount_dense W.len hlt hdense
  have hgs : (groupSets gm).length = m := by simp [groupSets, hcount]
  obtain ⟨node', h1, e1, hl1, H1⟩ := newNodes_held hal m h [] [] (held_nil h)
  rw [List.nil_append, List.nil_append] at H1
  rw [← hn] at hlt hdense
  obtain ⟨h2, e2, H2⟩ := fill_sim D.held.kept M hf hg hlt hdense H1
  have hbl : gm.getD d.b 0 < m := hlt _ (by rw [hn]; exact D.blt)
  have hlook : ∀ a ∈ p.node, (byAddr p.node gm).lookup a = some (gm.getD (p.node.idxOf a) 0) := by
    intro a ha
    obtain ⟨i, hi, rfl⟩ := mem_node ha
    rw [lookup_byAddr D.held.nodup hi, idxOf_nmOf D.held.nodup hi]
  have hkey : ∀ x ∈ s.endsMin p.ends, x.1 ∈ p.node := fun x hx =>
    D.keysIn _ (List.mem_map.2 ⟨x, (hse _).mem_iff.1 hx, rfl⟩)
  have hmap := mapD_sim (φ := id) (h := h2) (l := s.endsMin p.ends)
    (f := fun x => (do
      let g ← key ((byAddr p.node gm).lookup x.1)
      let a ← nth node' g
      pure (a, x.2) : DMem (Nat × Nat)))
    (g := fun x => (nmOf node' (gm.getD (p.node.idxOf x.1) 0), x.2)) (by
      intro x hx
      simp only [id]
      have hxk := hkey x hx
      rw [DMem.bind_ok (key_some h2 (hlook _ hxk)), DMem.bind_ok (nth_some h2 (nmOf_get (by
        rw [hl1]; exact hlt _ (List.idxOf_lt_length_iff.2 hxk))))]
      rfl)
  rw [List.map_id] at hmap
  generalize hL : (s.endsMin p.ends).map (fun x => (nmOf node' (gm.getD (p.node.idxOf x.1) 0), x.2)) = L at hmap
  have haccD : ∀ i, i < d.rows.length → d.accept i = d.ends.getD i none := by
    intro i hi'
    unfold DFA.accept
    rw [List.getD_eq_getElem?_getD, List.getElem?_eq_getElem (by rw [D.endsLen]; exact hi')]
    rfl
  have hacc : ∀ i j, i < d.rows.length → j < d.rows.length → gm.getD i 0 = gm.getD j 0 → d.ends.getD i none = d.ends.getD j none := by
    intro i j h1 h2 he
    rw [← haccD i h1, ← haccD j h2]; exact W.acc i j h1 h2 he
  -- the entries that are transferred
  have hmem : ∀ a v, (a, v) ∈ L ↔ ∃ i, i < d.rows.length ∧ d.ends.getD i none = some v ∧ a = nmOf node' (gm.getD i 0) := by
    intro a v
    rw [← hL, List.mem_map]
    constructor
    · rintro ⟨⟨k, v'⟩, hx, e⟩
      cases e
      have hx' := (hse _).mem_iff.1 hx
      obtain ⟨i, hi, rfl⟩ := mem_node (hkey _ hx)
      refine ⟨i, by rw [← hn]; exact hi, ?_, ?_⟩
      · rw [← D.ends i (by rw [← hn]; exact hi)]; exact (mem_iff_lookup D.keysNodup).1 hx'
      · simp only; rw [idxOf_nmOf D.held.nodup hi]
    · rintro ⟨i, hi, hv, rfl⟩
      refine ⟨(nmOf p.node i, v), (hse _).mem_iff.2 ((mem_iff_lookup D.keysNodup).2 (by rw [D.ends i hi]; exact hv)), ?_⟩
      simp only
      rw [idxOf_nmOf D.held.nodup (by rw [hn]; exact hi)]
  have hlt' : ∀ i, i < d.rows.length → gm.getD i 0 < node'.length := by
    intro i hi; rw [hl1]; exact hlt i (by rw [hn]; exact hi)
  obtain ⟨c1, c2, c3⟩ := hcollect_spec L (by
    intro k v v' h1 h2
    obtain ⟨i, hi, hv, hk⟩ := (hmem k v).1 h1
    obtain ⟨j, hj, hv', hk'⟩ := (hmem k v').1 h2
    have := nmOf_inj H1.nodup (hlt' i hi) (hlt' j hj) (hk.symm.trans hk')
    have := hacc i j hi hj this
    rw [hv, hv'] at this
    exact Option.some.inj this)
  obtain ⟨r1, r2, r3⟩ := rebuild_ends (d := d) (m := m) (by rw [← hn]; exact hlt) hacc
  have hrl : (rebuild o d gm).rows.length = m := by simp [rebuild, hgs]
  refine ⟨{ node := node', b := nmOf node' (gm.getD d.b 0), ends := hcollect L }, h2, ?_, ?_⟩
  · unfold rebuildP
    have hgl : (groupSetsP (byAddr p.node gm)).length = m := by rw [groupSetsP_byAddr hg, List.length_map, hgs]
    rw [hgl, DMem.bind_ok e1, DMem.bind_ok e2, D.b,
      DMem.bind_ok (key_some h2 (lookup_byAddr D.held.nodup (by rw [hn]; exact D.blt))),
      DMem.bind_ok (nth_some h2 (nmOf_get (by rw [hl1]; exact hbl)))]
    refine (DMem.bind_ok hmap).trans ?_
    rfl
  · refine ⟨H2, rfl, ?_, ?_, c1, ?_, ?_⟩
    · rw [hrl]; exact hbl
    · rw [hrl]
      show (List.foldl _ (List.replicate (groupSets gm).length none) _).length = m
      rw [hgs]; exact r1
    · intro a ha
      obtain ⟨x, hx, rfl⟩ := List.mem_map.1 ((c2 a).1 ha)
      obtain ⟨i, hi, _, e⟩ := (hmem x.1 x.2).1 hx
      rw [e]
      exact nmOf_mem (hlt' i hi)
    · intro g hgm
      rw [hrl] at hgm
      obtain ⟨i, hi, rfl⟩ := hdense g hgm
      rw [hn] at hi
      have hr : (rebuild o d gm).ends.getD (gm.getD i 0) none = d.ends.getD i none := by
        show (List.foldl _ (List.replicate (groupSets gm).length none) _).getD _ none = _
        rw [hgs]; exact r2 i hi
      rw [hr]
      apply Option.ext
      intro v
      show (hcollect L).lookup (nmOf node' (gm.getD i 0)) = some v ↔ _
      rw [c3, hmem]
      constructor
      · rintro ⟨j, hj, hv, e⟩
        have := nmOf_inj H1.nodup (hlt' i hi) (hlt' j hj) e
        rw [hacc i j hi hj this]; exact hv
      · intro hv; exact ⟨i, hi, hv, rfl⟩

theorem initGroups_weak {d : DFA} (hl : d.ends.length = d.rows.length) : WeakInv d (initGroups d) := by
  have hget : ∀ i, i < d.rows.length → (initGroups d).getD i 0 = (match d.ends.getD i none with | some e => e + 1 | none => 0) ∧
      d.accept i = d.ends.getD i none := by
    intro i hi
    constructor
    · unfold initGroups
      rw [List.getD_eq_getElem?_getD, List.getElem?_map, List.getElem?_range hi]
      rfl
    · unfold DFA.accept
      rw [List.getD_eq_getElem?_getD, List.getElem?_eq_getElem (by rw [hl]; exact hi)]
      rfl
  refine ⟨by simp [initGroups], ?_⟩
  intro i j hi hj e
  rw [(hget i hi).2, (hget j hj).2]
  rw [(hget i hi).1, (hget j hj).1] at e
  generalize d.ends.getD i none = x at e
  generalize d.ends.getD j none = y at e
  cases x <;> cases y <;> simp_all

theorem filter_nodes {l l' r : List Addr} (h1 : ∀ a ∈ l', a ∉ l) (h2 : ∀ a ∈ r, a ∉ l) :
    (l'.reverse ++ (l.reverse ++ r)).filter (fun a => !l.contains a) = l'.reverse ++ r := by
  rw [List.filter_append, List.filter_append]
  have e1 : l'.reverse.filter (fun a => !l.contains a) = l'.reverse := by
    rw [List.filter_eq_self]
    intro a ha
    simp [h1 a (List.mem_reverse.1 ha)]
  have e2 : l.reverse.filter (fun a => !l.contains a) = [] := by
    rw [List.filter_eq_nil_iff]
    intro a ha
    simp [List.mem_reverse.1 ha]
  have e3 : r.filter (fun a => !l.contains a) = r := by
    rw [List.filter_eq_self]
    intro a ha
    simp [h2 a ha]
  rw [e1, e2, e3, List.nil_append]

theorem minifyP_sim (hal : al.Fair) (hse : ∀ l, (s.endsMin l).Perm l) (D : DSim h0 h p d) (M : Match p.node s.min o) (hf : o.Fair) :
    ∃ d' p' h', minify o d = some d' ∧ minifyP al s p h = .ok p' h' ∧ DSim h0 h' p' d' := by
  have hn := D.held.len
  have W := initGroups_weak D.endsLen
  obtain ⟨gm, e1, W1, m, hlt, hdense⟩ := minLoop_weak hf (d.rows.length + 1) 0 (initGroups d) (initGroups d) W W.len (by omega)
  have hinit : initGroupsP p = byAddr p.node (initGroups d) := by
    unfold initGroupsP
    rw [hcollect_nodup]
    · conv => lhs; rw [node_eq p.node]
      unfold byAddr
      rw [List.map_map]
      apply List.map_congr_left
      intro i hi
      rw [List.mem_range, hn] at hi
      simp only [Function.comp]
      rw [D.ends i hi]
      unfold initGroups
      rw [List.getD_eq_getElem?_getD (l := List.map _ _), List.getElem?_map, List.getElem?_range hi]
      rfl
    · unfold keys
      rw [List.map_map]
      exact (List.map_id p.node).symm ▸ D.held.nodup
  have L := minLoopP_sim D.held.kept M hf (d.rows.length + 1) 0 (initGroups d) (initGroups d) (by rw [hn]; exact W.len) (by rw [hn]; exact W.len)
  rw [e1] at L
  obtain ⟨L1, _⟩ := L
  obtain ⟨p', h2, e2, D2⟩ := rebuildP_sim hal hse D M hf W1 hlt hdense
  refine ⟨rebuild o d gm, p', { h2 with nodes := h2.nodes.filter fun a => !p.node.contains a }, ?_, ?_, ?_⟩
  · unfold minify
    simp only
    rw [e1]; rfl
  · unfold minifyP
    rw [hinit, hn, DMem.bind_ok L1, DMem.bind_ok e2]
    rfl
  · have hfr : ∀ a ∈ p'.node, a ∉ p.node := fun a ha hc => (D2.held.fresh a ha).1 (by rw [D.held.nodes]; simp [hc])
    have hfr' : ∀ a ∈ h0.nodes, a ∉ p.node := fun a ha hc => (D.held.fresh a hc).1 ha
    refine ⟨⟨D2.held.len, D2.held.nodup, D2.held.cell, D2.held.tgt, ?_, ?_, ?_, ?_⟩, D2.b, D2.blt, D2.endsLen, D2.keysNodup, D2.keysIn, D2.ends⟩
    · show h2.nodes.filter _ = _
      rw [D2.held.nodes, D.held.nodes]
      exact filter_nodes hfr hfr'
    · exact D2.held.other.trans D.held.other
    · intro a ha
      exact (D2.held.frame a (by rw [D.held.nodes]; simp [ha])).trans (D.held.frame a ha)
    · intro a ha
      obtain ⟨f1, f2⟩ := D2.held.fresh a ha
      rw [D.held.nodes, List.mem_append, not_or] at f1
      rw [D.held.other] at f2
      exact ⟨f1.2, f2⟩

theorem newP_sim (hse : ∀ l, (s.endsNew l).Perm l) (D : DSim h0 h p d) :
    newP s p h = .ok d { h with nodes := h0.nodes } := by
  have hn := D.held.len
  have hidx : hcollect p.node.zipIdx = p.node.zipIdx := by
    apply hcollect_nodup
    unfold keys
    rw [List.zipIdx_map_fst]
    exact D.held.nodup
  have hlook : ∀ i, i < p.node.length → (hcollect p.node.zipIdx).lookup (nmOf p.node i) = some i := by
    intro i hi
    rw [hidx]
    refine (mem_iff_lookup ?_).1 (List.mk_mem_zipIdx_iff_getElem?.2 (nmOf_get hi))
    unfold keys
    rw [List.zipIdx_map_fst]
    exact D.held.nodup
  have hrow : ∀ i ∈ List.range p.node.length, (do
      let row ← deref (nmOf p.node i)
      mapD (fun x => do
        let i ← key ((hcollect p.node.zipIdx).lookup x.2)
        pure (x.1, i)) row : DMem Row) h = .ok (d.rows.getD i []) h := by
    intro i hi
    rw [List.mem_range] at hi
    obtain ⟨_, r2, r3⟩ := D.held.row hi
    rw [DMem.bind_ok (deref_ok (D.held.mem (nmOf_mem hi))), r2]
    have := mapD_sim (φ := fun x : (Nat × Nat) × Nat => (x.1, nmOf p.node x.2)) (h := h) (l := d.rows.getD i [])
      (f := fun x => (do
        let i ← key ((hcollect p.node.zipIdx).lookup x.2)
        pure (x.1, i) : DMem ((Nat × Nat) × Nat))) (g := id) (by
        intro x hx
        simp only
        rw [DMem.bind_ok (key_some h (hlook _ (r3 x hx)))]
        rfl)
    rw [List.map_id] at this
    exact this
  have hgoto := mapD_sim (φ := nmOf p.node) (h := h) (l := List.range p.node.length) (g := fun i => d.rows.getD i [])
    (f := fun a => (do
      let row ← deref a
      mapD (fun x => do
        let i ← key ((hcollect p.node.zipIdx).lookup x.2)
        pure (x.1, i)) row : DMem Row)) hrow
  rw [← node_eq] at hgoto
  have hrows : (List.range p.node.length).map (fun i => d.rows.getD i []) = d.rows := by
    rw [hn]
    apply List.ext_getElem?
    intro i
    rw [List.getElem?_map]
    by_cases hi : i < d.rows.length
    · rw [List.getElem?_range hi, (D.held.row (by rw [hn]; exact hi)).1]; rfl
    · rw [List.getElem?_eq_none (by simpa using hi), List.getElem?_eq_none (by simpa using hi)]; rfl
  rw [hrows] at hgoto
  have hkey : ∀ x ∈ s.endsNew p.ends, x.1 ∈ p.node := fun x hx =>
    D.keysIn _ (List.mem_map.2 ⟨x, (hse _).mem_iff.1 hx, rfl⟩)
  have hends := mapD_sim (φ := id) (h := h) (l := s.endsNew p.ends)
    (f := fun x => (do
      let i ← key ((hcollect p.node.zipIdx).lookup x.1)
      pure (i, x.2) : DMem (Nat × Nat))) (g := fun x => (p.node.idxOf x.1, x.2)) (by
      intro x hx
      simp only [id]
      obtain ⟨i, hi, e⟩ := mem_node (hkey x hx)
      rw [DMem.bind_ok (key_some h (a := i) (by rw [← e]; exact hlook i hi)), ← e, idxOf_nmOf D.held.nodup hi]
      rfl)
  rw [List.map_id] at hends
  generalize hL : (s.endsNew p.ends).map (fun x => (p.node.idxOf x.1, x.2)) = L at hends
  have hmem : ∀ i v, (i, v) ∈ L ↔ i < d.rows.length ∧ d.ends.getD i none = some v := by
    intro i v
    rw [← hL, List.mem_map]
    constructor
    · rintro ⟨⟨k, v'⟩, hx, e⟩
      cases e
      obtain ⟨j, hj, rfl⟩ := mem_node (hkey _ hx)
      simp only
      rw [idxOf_nmOf D.held.nodup hj]
      refine ⟨by rw [← hn]; exact hj, ?_⟩
      rw [← D.ends j (by rw [← hn]; exact hj)]
      exact (mem_iff_lookup D.keysNodup).1 ((hse _).mem_iff.1 hx)
    · rintro ⟨hi, hv⟩
      refine ⟨(nmOf p.node i, v), (hse _).mem_iff.2 ((mem_iff_lookup D.keysNodup).2 (by rw [D.ends i hi]; exact hv)), ?_⟩
      simp only
      rw [idxOf_nmOf D.held.nodup (by rw [hn]; exact hi)]
  obtain ⟨_, _, c3⟩ := hcollect_spec L (by
    intro k v v' h1 h2
    have h1 := ((hmem k v).1 h1).2
    have h2 := ((hmem k v').1 h2).2
    rw [h1] at h2
    exact Option.some.inj h2)
  have hen : (List.range p.node.length).map (fun i => (hcollect L).lookup i) = d.ends := by
    apply List.ext_getElem?
    intro i
    rw [List.getElem?_map]
    by_cases hi : i < d.rows.length
    · rw [hn, List.getElem?_range hi, List.getElem?_eq_getElem (by rw [D.endsLen]; exact hi)]
      show some _ = _
      congr 1
      have : d.ends.getD i none = d.ends[i]'(by rw [D.endsLen]; exact hi) := by
        rw [List.getD_eq_getElem?_getD, List.getElem?_eq_getElem (by rw [D.endsLen]; exact hi)]; rfl
      rw [← this]
      apply Option.ext
      intro v
      rw [c3, hmem]
      exact ⟨fun h => h.2, fun h => ⟨hi, h⟩⟩
    · rw [hn, List.getElem?_eq_none (by simpa using hi), List.getElem?_eq_none (by rw [D.endsLen]; omega)]; rfl
  unfold newP
  rw [DMem.bind_ok hgoto, D.b, DMem.bind_ok (key_some h (hlook d.b (by rw [hn]; exact D.blt)))]
  refine (DMem.bind_ok hends).trans ?_
  show DRes.ok _ _ = _
  rw [hen]
  congr 1
  show ({ h with nodes := h.nodes.filter fun a => !p.node.contains a } : DHeap) = _
  congr 1
  rw [D.held.nodes]
  have := filter_nodes (l := p.node) (l' := []) (r := h0.nodes) (by simp) (fun a ha hc => (D.held.fresh a hc).1 ha)
  simpa using this

end

end Verif.Tok
