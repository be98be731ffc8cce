import Verif.Tok.PtrSub

/-! # `minify` and `DFATokenizer::new` with addresses run in step with those with positions -/

namespace Verif.Tok

/-- A map keyed by the nodes of a vector. -/
def byAddr (node : List Addr) (gm : List Nat) : List (Addr × Nat) :=
  (List.range node.length).map fun i => (nmOf node i, gm.getD i 0)

theorem keys_byAddr (node : List Addr) (gm : List Nat) : keys (byAddr node gm) = node := by
  unfold keys byAddr
  rw [List.map_map]
  exact (node_eq node).symm

theorem lookup_byAddr {node : List Addr} (hn : node.Nodup) {gm : List Nat} {i : Nat} (hi : i < node.length) :
    (byAddr node gm).lookup (nmOf node i) = some (gm.getD i 0) :=
  (mem_iff_lookup (by rw [keys_byAddr]; exact hn)).1 (List.mem_map.2 ⟨i, List.mem_range.2 hi, rfl⟩)

theorem map_getD_range {gm : List Nat} : (List.range gm.length).map (fun i => gm.getD i 0) = gm := (node_eq gm).symm

theorem hinsert_old {β : Type} {k : Nat} {v : β} {l : List (Nat × β)} (hn : (keys l).Nodup) (hk : k ∈ keys l) :
    hinsert k v l = l.map fun x => if x.1 = k then (k, v) else x := by
  induction l with
  | nil => cases hk
  | cons x l ih =>
    obtain ⟨j, y⟩ := x
    simp only [keys, List.map_cons, List.nodup_cons] at hn
    simp only [hinsert, List.map_cons]
    by_cases e : k = j
    · subst e
      rw [if_pos rfl, if_pos rfl]
      congr 1
      conv => lhs; rw [← List.map_id l]
      apply List.map_congr_left
      intro x hx
      rw [if_neg (fun e => hn.1 (List.mem_map.2 ⟨x, hx, e⟩))]
      rfl
    · rw [if_neg e, if_neg (fun h => e h.symm)]
      congr 1
      apply ih hn.2
      simp only [keys, List.map_cons, List.mem_cons] at hk
      exact hk.resolve_left e

theorem hinsert_byAddr {node : List Addr} (hn : node.Nodup) {gm : List Nat} (hl : gm.length = node.length) {i v : Nat}
    (hi : i < node.length) : hinsert (nmOf node i) v (byAddr node gm) = byAddr node (gm.set i v) := by
  rw [hinsert_old (by rw [keys_byAddr]; exact hn) (by rw [keys_byAddr]; exact nmOf_mem hi)]
  unfold byAddr
  rw [List.map_map]
  apply List.map_congr_left
  intro j hj
  rw [List.mem_range] at hj
  simp only [Function.comp]
  by_cases e : i = j
  · subst e
    rw [if_pos rfl, getD_set_eq (by omega)]
  · rw [if_neg (fun h => e (nmOf_inj hn hj hi h).symm), getD_set_ne e]

theorem foldl_hinsert_byAddr {node : List Addr} (hn : node.Nodup) {v : Nat} : ∀ {l : List Nat} {gm : List Nat},
    gm.length = node.length → (∀ i ∈ l, i < node.length) →
    (l.map (nmOf node)).foldl (fun gm n => hinsert n v gm) (byAddr node gm) = byAddr node (l.foldl (fun gm n => gm.set n v) gm) ∧
      (l.foldl (fun gm n => gm.set n v) gm).length = node.length := by
  intro l
  induction l with
  | nil => intro gm hl _; exact ⟨rfl, hl⟩
  | cons i l ih =>
    intro gm hl hi
    rw [List.map_cons, List.foldl_cons, List.foldl_cons, hinsert_byAddr hn hl (hi i (by simp))]
    exact ih (by rw [List.length_set]; exact hl) (fun j hj => hi j (by simp [hj]))

theorem groupSetsP_byAddr {node : List Addr} {gm : List Nat} (hl : gm.length = node.length) :
    groupSetsP (byAddr node gm) = (groupSets gm).map fun s => s.map (nmOf node) := by
  unfold groupSetsP groupSets
  have e : (byAddr node gm).map Prod.snd = gm := by
    unfold byAddr
    rw [List.map_map, ← hl]
    exact map_getD_range
  rw [e, List.map_map]
  apply List.map_congr_left
  intro g _
  unfold byAddr
  rw [List.filter_map, List.map_map, hl]
  rfl

theorem compressGoP_sim {node : List Addr} (hn : node.Nodup) {gm : List Nat} (h : DHeap) : ∀ (r : Row) (p : Option ((Nat × Nat) × Nat)),
    (∀ x ∈ r, x.2 < node.length) →
    compressGoP (byAddr node gm) p (ren (nmOf node) r) h = .ok (compressGo gm p r) h := by
  intro r
  induction r with
  | nil => intro p _; cases p <;> rfl
  | cons x r ih =>
    intro p hx
    obtain ⟨⟨s, e'⟩, n⟩ := x
    have hl : key ((byAddr node gm).lookup (nmOf node n)) h = .ok (gm.getD n 0) h :=
      key_some h (lookup_byAddr hn (hx _ (List.mem_cons_self ..)))
    have hr : ∀ x ∈ r, x.2 < node.length := fun x h => hx x (by simp [h])
    cases p with
    | none =>
      show ((key ((byAddr node gm).lookup (nmOf node n)) >>= fun g => compressGoP (byAddr node gm) (some ((s, e'), g)) (ren (nmOf node) r)) : DMem Row) h = _
      rw [DMem.bind_ok hl, ih _ hr]
      rfl
    | some p =>
      obtain ⟨⟨b, e⟩, g⟩ := p
      show ((key ((byAddr node gm).lookup (nmOf node n)) >>= fun g' => if g ≠ g' ∨ e ≠ s then (do
        let l ← compressGoP (byAddr node gm) (some ((s, e'), g')) (ren (nmOf node) r)
        pure (((b, e), g) :: l)) else compressGoP (byAddr node gm) (some ((b, e'), g)) (ren (nmOf node) r)) : DMem Row) h = _
      rw [DMem.bind_ok hl]
      simp only [compressGo]
      by_cases hc : g ≠ gm.getD n 0 ∨ e ≠ s
      · rw [if_pos hc, if_pos hc, DMem.bind_ok (ih _ hr)]
        rfl
      · rw [if_neg hc, if_neg hc, ih _ hr]

theorem compress_target {gm : List Nat} : ∀ (r : Row) (p : Option ((Nat × Nat) × Nat)) (x : (Nat × Nat) × Nat),
    x ∈ compressGo gm p r → (∃ q, p = some q ∧ x.2 = q.2) ∨ ∃ y ∈ r, x.2 = gm.getD y.2 0 := by
  intro r
  induction r with
  | nil =>
    intro p x hx
    cases p with
    | none => cases hx
    | some q => simp [compressGo] at hx; subst hx; exact Or.inl ⟨_, rfl, rfl⟩
  | cons y r ih =>
    intro p x hx
    obtain ⟨⟨s, e'⟩, n⟩ := y
    cases p with
    | none =>
      simp only [compressGo] at hx
      rcases ih _ _ hx with ⟨q, hq, e⟩ | ⟨y, hy, e⟩
      · cases hq; exact Or.inr ⟨_, List.mem_cons_self .., e⟩
      · exact Or.inr ⟨y, by simp [hy], e⟩
    | some q =>
      obtain ⟨⟨b, e⟩, g⟩ := q
      simp only [compressGo] at hx
      split at hx
      · rcases List.mem_cons.1 hx with rfl | hx
        · exact Or.inl ⟨_, rfl, rfl⟩
        · rcases ih _ _ hx with ⟨q, hq, e⟩ | ⟨y, hy, e⟩
          · cases hq; exact Or.inr ⟨_, List.mem_cons_self .., e⟩
          · exact Or.inr ⟨y, by simp [hy], e⟩
      · rcases ih _ _ hx with ⟨q, hq, e⟩ | ⟨y, hy, e⟩
        · cases hq; exact Or.inl ⟨_, rfl, e⟩
        · exact Or.inr ⟨y, by simp [hy], e⟩

/-! ## Orders by address and by position -/

/-- The class of nodes with addresses. -/
def clsMap (f : Nat → Nat) (c : Row × List Nat) : Row × List Nat := (c.1, c.2.map f)

/-- What is decided for addresses is what is decided for positions. -/
structure Match (node : List Addr) (oP o : MinOracle) : Prop where
  visit : ∀ r g l, (∀ i ∈ l, i < node.length) → oP.visit r g (l.map (nmOf node)) = (o.visit r g l).map (nmOf node)
  order : ∀ r g l, (∀ c ∈ l, ∀ i ∈ c.2, i < node.length) →
    oP.order r g (l.map (clsMap (nmOf node))) = (o.order r g l).map (clsMap (nmOf node))
  collide : oP.collide = o.collide
  pick : ∀ l, l ≠ [] → (∀ i ∈ l, i < node.length) → oP.pick (l.map (nmOf node)) = nmOf node (o.pick l)

theorem entered_map (f : Nat → Nat) (L : List (Row × List Nat)) : entered (L.map (clsMap f)) = entered L := by
  unfold entered
  rw [List.map_map]
  congr 1
  apply List.map_congr_left
  intro c _
  simp [clsMap]

theorem enter_map (hit : Row → Bool) (f : Nat → Nat) (k : Row) (n : Nat) (L : List (Row × List Nat)) :
    enter hit k (f n) (L.map (clsMap f)) = (enter hit k n L).map (clsMap f) := by
  induction L with
  | nil => rfl
  | cons c L ih =>
    obtain ⟨k', s⟩ := c
    simp only [List.map_cons, enter, clsMap]
    split
    · simp [clsMap]
    · rw [ih]; rfl

theorem splitInsert_map (col : Nat → Row → Row → Bool) (f : Nat → Nat) (k : Row) (n : Nat) (L : List (Row × List Nat)) :
    splitInsert col k (f n) (L.map (clsMap f)) = (splitInsert col k n L).map (clsMap f) := by
  unfold splitInsert
  rw [entered_map, List.any_map, enter_map, enter_map]
  have : ((fun c : Row × List Nat => rowEq c.1 k && col (entered L) c.1 k) ∘ clsMap f) = fun c => rowEq c.1 k && col (entered L) c.1 k := rfl
  rw [this]
  split <;> rfl

theorem enter_mem {hit : Row → Bool} {k : Row} {n : Nat} {L : List (Row × List Nat)} {P : Nat → Prop} (hn : P n)
    (hL : ∀ c ∈ L, ∀ i ∈ c.2, P i) : ∀ c ∈ enter hit k n L, ∀ i ∈ c.2, P i := by
  induction L with
  | nil =>
    intro c hc i hi
    simp only [enter, List.mem_singleton] at hc
    subst hc
    simp at hi; subst hi; exact hn
  | cons x L ih =>
    obtain ⟨k', s⟩ := x
    intro c hc i hi
    simp only [enter] at hc
    split at hc
    · rcases List.mem_cons.1 hc with rfl | hc
      · rcases List.mem_append.1 hi with hi | hi
        · exact hL _ (List.mem_cons_self ..) i hi
        · simp at hi; subst hi; exact hn
      · exact hL c (by simp [hc]) i hi
    · rcases List.mem_cons.1 hc with rfl | hc
      · exact hL _ (List.mem_cons_self ..) i hi
      · exact ih (fun c h => hL c (by simp [h])) c hc i hi

theorem splitInsert_mem {col : Nat → Row → Row → Bool} {k : Row} {n : Nat} {L : List (Row × List Nat)} {P : Nat → Prop} (hn : P n)
    (hL : ∀ c ∈ L, ∀ i ∈ c.2, P i) : ∀ c ∈ splitInsert col k n L, ∀ i ∈ c.2, P i := by
  obtain ⟨hit, he⟩ := splitInsert_enter col k n L
  rw [he]
  exact enter_mem hn hL

theorem splitSet_mem {col : Nat → Row → Row → Bool} {rows : List Row} {gm nodes : List Nat} {P : Nat → Prop} (h : ∀ i ∈ nodes, P i) :
    ∀ c ∈ splitSet col rows gm nodes, ∀ i ∈ c.2, P i := by
  unfold splitSet
  suffices ∀ (nodes : List Nat) (L : List (Row × List Nat)), (∀ i ∈ nodes, P i) → (∀ c ∈ L, ∀ i ∈ c.2, P i) →
      ∀ c ∈ nodes.foldl (fun sg n => splitInsert col (compress gm (rows.getD n [])) n sg) L, ∀ i ∈ c.2, P i from
    this nodes [] h (by simp)
  intro nodes
  induction nodes with
  | nil => intro L _ hL; exact hL
  | cons n nodes ih =>
    intro L hn hL
    exact ih _ (fun i hi => hn i (by simp [hi])) (splitInsert_mem (hn n (by simp)) hL)

section
variable {al : Alloc} {h0 h : DHeap} {node : List Addr} {rows : List Row} {oP o : MinOracle}

theorem Held.row {i : Nat} (H : Held h0 h node rows) (hi : i < node.length) :
    rows[i]? = some (rows.getD i []) ∧ h.cell (nmOf node i) = ren (nmOf node) (rows.getD i []) ∧
      ∀ x ∈ rows.getD i [], x.2 < node.length := by
  have hi' : i < rows.length := by rw [← H.len]; exact hi
  have e : rows[i]? = some (rows.getD i []) := by
    rw [List.getD_eq_getElem?_getD, List.getElem?_eq_getElem hi']; rfl
  refine ⟨e, H.cell i _ e, ?_⟩
  intro x hx
  rw [H.len]
  exact H.tgt _ (List.mem_of_getElem? e) x hx

/-- The rows are still there, possibly with more nodes in memory. -/
structure Kept (h : DHeap) (node : List Addr) (rows : List Row) : Prop where
  nodup : node.Nodup
  mem : ∀ i, i < node.length → nmOf node i ∈ h.nodes
  cell : ∀ i, i < node.length → h.cell (nmOf node i) = ren (nmOf node) (rows.getD i [])
  tgt : ∀ i, i < node.length → ∀ x ∈ rows.getD i [], x.2 < node.length

theorem Held.kept (H : Held h0 h node rows) : Kept h node rows :=
  ⟨H.nodup, fun _ hi => H.mem (nmOf_mem hi), fun _ hi => (H.row hi).2.1, fun _ hi => (H.row hi).2.2⟩

theorem splitSetP_sim (col : Nat → Row → Row → Bool) (H : Kept h node rows) {gm : List Nat} {l : List Nat}
    (hl : ∀ i ∈ l, i < node.length) :
    splitSetP col (byAddr node gm) (l.map (nmOf node)) h = .ok ((splitSet col rows gm l).map (clsMap (nmOf node))) h := by
  unfold splitSetP splitSet
  obtain ⟨r, h', e, rfl, rfl⟩ := loopM_sim (φ := nmOf node) (l := l)
    (f := fun (sg : List (Row × List Addr)) (n : Addr) => (do
      let row ← deref n
      let c ← compressGoP (byAddr node gm) none row
      pure (splitInsert col c n sg) : DMem (List (Row × List Addr))))
    (g := fun sg n => splitInsert col (compress gm (rows.getD n [])) n sg)
    (R := fun b c k => k = h ∧ b = c.map (clsMap (nmOf node))) (b := []) (c := []) (h := h) (by
      rintro i hi b c k ⟨rfl, rfl⟩
      refine ⟨_, k, ?_, rfl, rfl⟩
      rw [DMem.bind_ok (deref_ok (H.mem i (hl i hi))), H.cell i (hl i hi),
        DMem.bind_ok (compressGoP_sim H.nodup k _ none (H.tgt i (hl i hi)))]
      show DRes.ok _ _ = _
      rw [← splitInsert_map col]
      rfl) ⟨rfl, rfl⟩
  exact e

theorem numberClassP_sim (hn : node.Nodup) : ∀ (cs : List (Row × List Nat)) (p : PRound) (st : Round),
    p.gm = byAddr node st.gm → p.maxIndex = st.maxIndex → p.updated = st.updated → st.gm.length = node.length →
    (∀ c ∈ cs, ∀ i ∈ c.2, i < node.length) →
    let p' := (cs.map (clsMap (nmOf node))).foldl numberClassP p
    let st' := cs.foldl numberClass st
    p'.gm = byAddr node st'.gm ∧ p'.maxIndex = st'.maxIndex ∧ p'.updated = st'.updated ∧ st'.gm.length = node.length := by
  intro cs
  induction cs with
  | nil => intro p st h1 h2 h3 h4 _; exact ⟨h1, h2, h3, h4⟩
  | cons c cs ih =>
    intro p st h1 h2 h3 h4 h5
    obtain ⟨a1, a2⟩ := foldl_hinsert_byAddr hn (v := st.maxIndex) h4 (h5 c (by simp))
    refine ih (numberClassP p (clsMap (nmOf node) c)) (numberClass st c) ?_ ?_ h3 ?_ (fun c hc => h5 c (by simp [hc]))
    · unfold numberClassP numberClass clsMap
      simp only
      rw [h1, h2, a1]
    · simp only [numberClassP, numberClass, h2]
    · exact a2

/-- The two states of a round. -/
structure RSim (node : List Addr) (p : PRound) (st : Round) : Prop where
  gm : p.gm = byAddr node st.gm
  maxIndex : p.maxIndex = st.maxIndex
  updated : p.updated = st.updated
  len : st.gm.length = node.length

theorem roundSetP_sim (H : Kept h node rows) (M : Match node oP o) (hf : o.Fair) {gm : List Nat} (round : Nat) {p : PRound} {st : Round}
    (R : RSim node p st) {s : List Nat} {g : Nat} (hs : ∀ i ∈ s, i < node.length) :
    ∃ p', roundSetP oP (byAddr node gm) round p (s.map (nmOf node), g) h = .ok p' h ∧ RSim node p' (roundSet o rows gm round st (s, g)) := by
  have hv : ∀ i ∈ o.visit round g s, i < node.length := fun i hi => hs i ((hf.visit round g s).mem_iff.1 hi)
  have hcl : ∀ c ∈ splitSet (o.collide round g) rows gm (o.visit round g s), ∀ i ∈ c.2, i < node.length := splitSet_mem hv
  have hco : ∀ c ∈ o.order round g (splitSet (o.collide round g) rows gm (o.visit round g s)), ∀ i ∈ c.2, i < node.length :=
    fun c hc => hcl c ((hf.order round g _).mem_iff.1 hc)
  unfold roundSetP roundSet
  simp only
  rw [M.visit round g s hs, M.collide]
  obtain ⟨n1, n2, n3, n4⟩ := numberClassP_sim H.nodup (o.order round g (splitSet (o.collide round g) rows gm (o.visit round g s)))
    { p with updated := p.updated || decide ((splitSet (o.collide round g) rows gm (o.visit round g s)).length > 1) }
    { st with updated := st.updated || decide ((splitSet (o.collide round g) rows gm (o.visit round g s)).length > 1) }
    R.gm R.maxIndex (by simp only [R.updated]) R.len hco
  refine ⟨_, DMem.bind_ok (splitSetP_sim (o.collide round g) H hv), ?_⟩
  rw [M.order round g _ hcl, List.length_map]
  exact ⟨n1, n2, n3, n4⟩

theorem groupSets_lt {gm : List Nat} {s : List Nat} (hs : s ∈ groupSets gm) : ∀ i ∈ s, i < gm.length := by
  intro i hi
  unfold groupSets at hs
  obtain ⟨g, _, rfl⟩ := List.mem_map.1 hs
  exact List.mem_range.1 (List.mem_filter.1 hi).1

theorem zipIdx_map {α β : Type} (f : α → β) (l : List α) (k : Nat) :
    (l.map f).zipIdx k = (l.zipIdx k).map fun x => (f x.1, x.2) := by
  induction l generalizing k with
  | nil => rfl
  | cons a l ih => simp [List.zipIdx_cons, ih]

theorem minLoopP_sim (H : Kept h node rows) (M : Match node oP o) (hf : o.Fair) : ∀ (f round : Nat) (gm new : List Nat),
    gm.length = node.length → new.length = node.length →
    match minLoop o rows f round gm new with
    | none => minLoopP oP f round (byAddr node gm) (byAddr node new) h = .fuel
    | some r => minLoopP oP f round (byAddr node gm) (byAddr node new) h = .ok (byAddr node r) h ∧ r.length = node.length := by
  intro f
  induction f with
  | zero => intro round gm new _ _; rfl
  | succ f ih =>
    intro round gm new hg hn
    unfold minLoop minLoopP minRound
    rw [groupSetsP_byAddr hg, zipIdx_map]
    obtain ⟨p, h', e, rfl, R⟩ := loopM_sim (φ := fun x : List Nat × Nat => (x.1.map (nmOf node), x.2)) (l := (groupSets gm).zipIdx)
      (f := roundSetP oP (byAddr node gm) round) (g := roundSet o rows gm round) (R := fun b c k => k = h ∧ RSim node b c)
      (b := { gm := byAddr node new, maxIndex := 0, updated := false }) (c := { gm := new, maxIndex := 0, updated := false }) (h := h) (by
        rintro ⟨s, g⟩ hsg b c k ⟨rfl, R⟩
        have hs : ∀ i ∈ s, i < node.length := by
          rw [← hg]
          exact groupSets_lt (List.mem_of_getElem? (List.mk_mem_zipIdx_iff_getElem?.1 hsg))
        obtain ⟨p', e, R'⟩ := roundSetP_sim (gm := gm) H M hf round R (g := g) hs
        exact ⟨p', k, e, rfl, R'⟩) ⟨rfl, rfl, rfl, rfl, hn⟩
    simp only
    rw [DMem.bind_ok e, R.updated]
    generalize (groupSets gm).zipIdx.foldl (roundSet o rows gm round) { gm := new, maxIndex := 0, updated := false } = st at R
    cases hu : st.updated
    · simp only [Bool.false_eq_true, if_false]
      refine ⟨?_, R.len⟩
      show DRes.ok _ _ = _
      rw [R.gm]
    · simp only [if_true]
      rw [R.gm]
      exact ih (round + 1) st.gm gm R.len hg

end

end Verif.Tok
