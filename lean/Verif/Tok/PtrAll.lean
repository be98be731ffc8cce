import Verif.Tok.PtrNew

/-! # Orders by address and orders by position; `build` as a whole -/

namespace Verif.Tok

/-! ## Translation of orders -/

/-- The positions of addresses. -/
def posOf (node : List Addr) (a : Addr) : Nat := node.idxOf a

/-- Orders by position that say the same as orders by address. -/
def pullMin (node : List Addr) (o : MinOracle) : MinOracle where
  visit r g l := if l.all (· < node.length) then (o.visit r g (l.map (nmOf node))).map (posOf node) else l
  order r g l := if l.all (fun c => c.2.all (· < node.length)) then
    (o.order r g (l.map (clsMap (nmOf node)))).map (clsMap (posOf node)) else l
  collide := o.collide
  pick l := if l.all (· < node.length) then posOf node (o.pick (l.map (nmOf node))) else l.headD 0

/-- Orders by address that say the same as orders by position. -/
def pushMin (node : List Addr) (o : MinOracle) : MinOracle where
  visit r g l := if l.all (· ∈ node) then (o.visit r g (l.map (posOf node))).map (nmOf node) else l
  order r g l := if l.all (fun c => c.2.all (· ∈ node)) then
    (o.order r g (l.map (clsMap (posOf node)))).map (clsMap (nmOf node)) else l
  collide := o.collide
  pick l := if l.all (· ∈ node) then nmOf node (o.pick (l.map (posOf node))) else l.headD 0

section
variable {node : List Addr} {o : MinOracle}

theorem pos_nm (hn : node.Nodup) {l : List Nat} (hl : ∀ i ∈ l, i < node.length) : (l.map (nmOf node)).map (posOf node) = l := by
  rw [List.map_map]
  conv => rhs; rw [← List.map_id l]
  apply List.map_congr_left
  intro i hi
  exact idxOf_nmOf hn (hl i hi)

theorem nm_pos {l : List Addr} (hl : ∀ a ∈ l, a ∈ node) : (l.map (posOf node)).map (nmOf node) = l := by
  rw [List.map_map]
  conv => rhs; rw [← List.map_id l]
  apply List.map_congr_left
  intro a ha
  exact nmOf_idxOf (hl a ha)

theorem pos_nm_cls (hn : node.Nodup) {l : List (Row × List Nat)} (hl : ∀ c ∈ l, ∀ i ∈ c.2, i < node.length) :
    (l.map (clsMap (nmOf node))).map (clsMap (posOf node)) = l := by
  rw [List.map_map]
  conv => rhs; rw [← List.map_id l]
  apply List.map_congr_left
  intro c hc
  obtain ⟨k, s⟩ := c
  simp only [Function.comp, clsMap, id]
  rw [pos_nm hn (hl _ hc)]

theorem nm_pos_cls {l : List (Row × List Addr)} (hl : ∀ c ∈ l, ∀ a ∈ c.2, a ∈ node) :
    (l.map (clsMap (posOf node))).map (clsMap (nmOf node)) = l := by
  rw [List.map_map]
  conv => rhs; rw [← List.map_id l]
  apply List.map_congr_left
  intro c hc
  obtain ⟨k, s⟩ := c
  simp only [Function.comp, clsMap, id]
  rw [nm_pos (hl _ hc)]

theorem nm_mem {l : List Nat} (hl : ∀ i ∈ l, i < node.length) : ∀ a ∈ l.map (nmOf node), a ∈ node := by
  intro a ha
  obtain ⟨i, hi, rfl⟩ := List.mem_map.1 ha
  exact nmOf_mem (hl i hi)

theorem pos_lt {l : List Addr} (hl : ∀ a ∈ l, a ∈ node) : ∀ i ∈ l.map (posOf node), i < node.length := by
  intro a ha
  obtain ⟨i, hi, rfl⟩ := List.mem_map.1 ha
  exact List.idxOf_lt_length_iff.2 (hl i hi)

theorem headD_mem {l : List Nat} (h : l ≠ []) : l.headD 0 ∈ l := by
  cases l with
  | nil => exact absurd rfl h
  | cons a l => simp

theorem pullMin_fair (hn : node.Nodup) (hf : o.Fair) : (pullMin node o).Fair := by
  refine ⟨?_, ?_, ?_⟩
  · intro r g l
    simp only [pullMin]
    split
    · rename_i h
      simp only [List.all_eq_true, decide_eq_true_eq] at h
      have := (hf.visit r g (l.map (nmOf node))).map (posOf node)
      rwa [pos_nm hn h] at this
    · exact List.Perm.refl _
  · intro r g l
    simp only [pullMin]
    split
    · rename_i h
      simp only [List.all_eq_true, decide_eq_true_eq] at h
      have := (hf.order r g (l.map (clsMap (nmOf node)))).map (clsMap (posOf node))
      rwa [pos_nm_cls hn h] at this
    · exact List.Perm.refl _
  · intro l hl
    simp only [pullMin]
    split
    · rename_i h
      simp only [List.all_eq_true, decide_eq_true_eq] at h
      have := hf.pick (l.map (nmOf node)) (by simpa using hl)
      obtain ⟨i, hi, e⟩ := List.mem_map.1 this
      rw [← e]
      unfold posOf
      rw [idxOf_nmOf hn (h i hi)]
      exact hi
    · exact headD_mem hl

theorem pushMin_fair (hf : o.Fair) : (pushMin node o).Fair := by
  refine ⟨?_, ?_, ?_⟩
  · intro r g l
    simp only [pushMin]
    split
    · rename_i h
      simp only [List.all_eq_true, decide_eq_true_eq] at h
      have := (hf.visit r g (l.map (posOf node))).map (nmOf node)
      rwa [nm_pos h] at this
    · exact List.Perm.refl _
  · intro r g l
    simp only [pushMin]
    split
    · rename_i h
      simp only [List.all_eq_true, decide_eq_true_eq] at h
      have := (hf.order r g (l.map (clsMap (posOf node)))).map (clsMap (nmOf node))
      rwa [nm_pos_cls h] at this
    · exact List.Perm.refl _
  · intro l hl
    simp only [pushMin]
    split
    · rename_i h
      simp only [List.all_eq_true, decide_eq_true_eq] at h
      have := hf.pick (l.map (posOf node)) (by simpa using hl)
      obtain ⟨a, ha, e⟩ := List.mem_map.1 this
      rw [← e]
      unfold posOf
      rw [nmOf_idxOf (h a ha)]
      exact ha
    · exact headD_mem hl

theorem pullMin_match (hf : o.Fair) : Match node o (pullMin node o) := by
  refine ⟨?_, ?_, rfl, ?_⟩
  · intro r g l hl
    simp only [pullMin]
    rw [if_pos (by simpa using hl), nm_pos]
    intro a ha
    exact nm_mem hl a ((hf.visit r g _).mem_iff.1 ha)
  · intro r g l hl
    simp only [pullMin]
    rw [if_pos (by simp only [List.all_eq_true, decide_eq_true_eq]; exact hl), nm_pos_cls]
    intro c hc a ha
    obtain ⟨c', hc', rfl⟩ := List.mem_map.1 ((hf.order r g _).mem_iff.1 hc)
    exact nm_mem (hl c' hc') a ha
  · intro l hne hl
    simp only [pullMin]
    rw [if_pos (by simpa using hl)]
    exact (nmOf_idxOf (nm_mem hl _ (hf.pick _ (by simpa using hne)))).symm

theorem pushMin_match (hn : node.Nodup) : Match node (pushMin node o) o := by
  refine ⟨?_, ?_, rfl, ?_⟩
  · intro r g l hl
    simp only [pushMin]
    rw [if_pos (by simp only [List.all_eq_true, decide_eq_true_eq]; exact nm_mem hl), pos_nm hn hl]
  · intro r g l hl
    simp only [pushMin]
    rw [if_pos, pos_nm_cls hn hl]
    simp only [List.all_eq_true, decide_eq_true_eq]
    intro c hc
    obtain ⟨c', hc', rfl⟩ := List.mem_map.1 hc
    exact nm_mem (hl c' hc')
  · intro l hne hl
    simp only [pushMin]
    rw [if_pos (by simp only [List.all_eq_true, decide_eq_true_eq]; exact nm_mem hl), pos_nm hn hl]

end

/-! ## All steps -/

section
variable {al : Alloc} {s : PSeeds} {o : MinOracle}

/-- What is given back is no longer in use. -/
def dropped (l : List Addr) (h : DHeap) : DHeap := { h with other := h.other.filter fun a => !l.contains a }

theorem DSim.dropped {h0 h : DHeap} {p : PDFA} {d : DFA} (D : DSim h0 h p d) (l : List Addr) :
    DSim (dropped l h0) (dropped l h) p d := by
  refine ⟨⟨D.held.len, D.held.nodup, D.held.cell, D.held.tgt, D.held.nodes, ?_, D.held.frame, ?_⟩, D.b, D.blt, D.endsLen, D.keysNodup, D.keysIn, D.ends⟩
  · show h.other.filter _ = h0.other.filter _
    rw [D.held.other]
  · intro a ha
    refine ⟨(D.held.fresh a ha).1, ?_⟩
    intro hc
    exact (D.held.fresh a ha).2 (List.mem_filter.1 hc).1

theorem tablesP_match (hal : al.Fair) (hs : s.Fair) (hf : o.Fair) {fuel : Nat} {t : TNFA} (nfa : List Addr) {h0 : DHeap}
    (hM : ∀ p ws h, fromNfaP al fuel s t h0 = .ok (p, ws) h → Match p.node s.min o) :
    match buildTables fuel (ordOf s.ord) o t with
    | none => tablesP al fuel s t nfa h0 = .fuel
    | some r => ∃ h', tablesP al fuel s t nfa h0 = .ok r h' ∧ h'.nodes = h0.nodes ∧
        h'.other = h0.other.filter (fun a => !nfa.contains a) ∧ ∀ a ∈ h0.nodes, h'.cell a = h0.cell a := by
  have F := fromNfaP_sim hal hs.ord fuel t h0
  unfold buildTables tablesP
  cases hd : fromNfa fuel (ordOf s.ord) t with
  | none =>
    rw [hd] at F
    exact DMem.bind_fuel F
  | some r =>
    obtain ⟨d, ws⟩ := r
    rw [hd] at F
    obtain ⟨p, h, e, D⟩ := F
    obtain ⟨d', p', h', e1, e2, D'⟩ := minifyP_sim hal hs.endsMin (D.dropped nfa) (hM p ws h e) hf
    simp only [e1, Option.map_some]
    refine ⟨{ h' with nodes := h0.nodes }, ?_, rfl, D'.held.other, D'.held.frame⟩
    refine (DMem.bind_ok e).trans ?_
    show ((minifyP al s p >>= fun d => (newP s d >>= fun r => pure (r, ws))) : DMem _) (dropped nfa h) = _
    rw [DMem.bind_ok e2, DMem.bind_ok (newP_sim hs.endsNew D')]
    rfl

/-- Orders that change nothing. -/
def plainMin : MinOracle := { visit := fun _ _ l => l, order := fun _ _ l => l, collide := fun _ _ _ _ _ => false, pick := fun l => l.headD 0 }

theorem plainMin_fair : plainMin.Fair := ⟨fun _ _ _ => .refl _, fun _ _ _ => .refl _, fun _ h => headD_mem h⟩

/-- For orders by address there are orders by position that lead to the same outcome. -/
theorem tablesP_pull (hal : al.Fair) (hs : s.Fair) (fuel : Nat) (t : TNFA) (nfa : List Addr) (h0 : DHeap) :
    ∃ s' : Seeds, s'.Fair ∧ s'.min.collide = s.min.collide ∧
    match buildTables fuel s'.ord s'.min t with
    | none => tablesP al fuel s t nfa h0 = .fuel
    | some r => ∃ h', tablesP al fuel s t nfa h0 = .ok r h' ∧ h'.nodes = h0.nodes ∧
        h'.other = h0.other.filter (fun a => !nfa.contains a) ∧ ∀ a ∈ h0.nodes, h'.cell a = h0.cell a := by
  have F := fromNfaP_sim hal hs.ord fuel t h0
  cases hd : fromNfa fuel (ordOf s.ord) t with
  | none =>
    rw [hd] at F
    have hf : MinOracle.Fair { plainMin with collide := s.min.collide } :=
      ⟨plainMin_fair.visit, plainMin_fair.order, plainMin_fair.pick⟩
    refine ⟨⟨ordOf s.ord, { plainMin with collide := s.min.collide }⟩, ⟨ordOf_perm hs.ord, hf⟩, rfl, ?_⟩
    exact tablesP_match hal hs hf nfa (fun p ws h e => by rw [F] at e; cases e)
  | some r =>
    obtain ⟨d, ws⟩ := r
    rw [hd] at F
    obtain ⟨p, h, e, D⟩ := F
    have hf := pullMin_fair D.held.nodup hs.min
    refine ⟨⟨ordOf s.ord, pullMin p.node s.min⟩, ⟨ordOf_perm hs.ord, hf⟩, rfl, ?_⟩
    refine tablesP_match hal hs hf nfa ?_
    intro p1 ws1 h1 e1
    rw [e] at e1
    cases e1
    exact pullMin_match hs.min

/-- For orders by position there are orders by address that lead to the same outcome. -/
theorem tablesP_push (hal : al.Fair) {s' : Seeds} (hs' : s'.Fair) (fuel : Nat) (t : TNFA) (nfa : List Addr) (h0 : DHeap) :
    ∃ s : PSeeds, s.Fair ∧
    match buildTables fuel s'.ord s'.min t with
    | none => tablesP al fuel s t nfa h0 = .fuel
    | some r => ∃ ws h', tablesP al fuel s t nfa h0 = .ok (r.1, ws) h' ∧ ws.Perm r.2 := by
  have F := fromNfaP_sim (s := ⟨id, plainMin, id, id⟩) hal (fun l => .refl _) fuel t h0
  have key : ∀ s : PSeeds, s.Fair → s.ord = id →
      (∀ p ws h, fromNfaP al fuel s t h0 = .ok (p, ws) h → Match p.node s.min s'.min) →
      match buildTables fuel s'.ord s'.min t with
      | none => tablesP al fuel s t nfa h0 = .fuel
      | some r => ∃ ws h', tablesP al fuel s t nfa h0 = .ok (r.1, ws) h' ∧ ws.Perm r.2 := by
    intro s hs ho hM
    have T := tablesP_match hal hs hs'.min nfa hM
    revert T
    unfold buildTables fromNfa
    simp only
    cases subLoop t.node fuel { rows := [[]], sets := [closure t.node t.b], queue := [closure t.node t.b], processed := [] } with
    | none => exact fun T => T
    | some st =>
      simp only
      cases minify s'.min { rows := st.rows, b := 0, ends := st.sets.map fun s => (markEnds t.ends s).1 } with
      | none => exact fun T => T
      | some d =>
        simp only [Option.map_some]
        rintro ⟨h', e, _⟩
        refine ⟨_, h', e, ?_⟩
        refine List.Perm.flatMap_right _ ?_
        exact (ordOf_perm hs.ord _).trans (hs'.ord _).symm
  cases hd : fromNfa fuel (ordOf id) t with
  | none =>
    rw [hd] at F
    refine ⟨⟨id, plainMin, id, id⟩, ⟨fun l => .refl _, plainMin_fair, fun l => .refl _, fun l => .refl _⟩, ?_⟩
    exact key _ ⟨fun l => .refl _, plainMin_fair, fun l => .refl _, fun l => .refl _⟩ rfl (fun p ws h e => by rw [F] at e; cases e)
  | some r =>
    obtain ⟨d, ws⟩ := r
    rw [hd] at F
    obtain ⟨p, h, e, D⟩ := F
    have hfair : PSeeds.Fair ⟨id, pushMin p.node s'.min, id, id⟩ :=
      ⟨fun l => .refl _, pushMin_fair hs'.min, fun l => .refl _, fun l => .refl _⟩
    refine ⟨⟨id, pushMin p.node s'.min, id, id⟩, hfair, key _ hfair rfl ?_⟩
    intro p1 ws1 h1 e1
    have e2 : fromNfaP al fuel ⟨id, plainMin, id, id⟩ t h0 = .ok (p1, ws1) h1 := e1
    rw [e] at e2
    cases e2
    exact pushMin_match D.held.nodup

end

end Verif.Tok
