import Verif.Tok.MinProof

/-!
# Minimisation when hash collisions may happen

Whatever the hash table answers, the loop ends and the new table is well formed.
-/

namespace Verif.Tok

theorem enter_weak {hit : Row → Bool} {key : Row} {n : Nat} : ∀ {L : List (Row × List Nat)},
    (∀ c ∈ L, c.2 ≠ []) → (∀ c ∈ L, n ∉ c.2) → (L.Pairwise fun a b => ∀ m, m ∈ a.2 → m ∉ b.2) →
    (∀ c ∈ enter hit key n L, c.2 ≠ []) ∧
    ((enter hit key n L).Pairwise fun a b => ∀ m, m ∈ a.2 → m ∉ b.2) ∧
    (∀ m, (∃ c ∈ enter hit key n L, m ∈ c.2) ↔ m = n ∨ ∃ c ∈ L, m ∈ c.2) := by
  intro L
  induction L with
  | nil => intro _ _ _; simp [enter]
  | cons x L ih =>
    obtain ⟨k0, s0⟩ := x
    intro h1 h2 h3
    rw [List.pairwise_cons] at h3
    unfold enter
    split
    · refine ⟨?_, ?_, ?_⟩
      · intro c hc
        rcases List.mem_cons.1 hc with rfl | hc
        · simp
        · exact h1 c (List.mem_cons_of_mem _ hc)
      · rw [List.pairwise_cons]
        refine ⟨?_, h3.2⟩
        intro b hb m hm
        simp only [List.mem_append, List.mem_singleton] at hm
        rcases hm with hm | rfl
        · exact h3.1 b hb m hm
        · exact h2 b (List.mem_cons_of_mem _ hb)
      · intro m
        simp only [List.mem_cons, exists_eq_or_imp, List.mem_append, List.not_mem_nil, or_false]
        constructor
        · rintro ((h | h) | h)
          · exact Or.inr (Or.inl h)
          · exact Or.inl h
          · exact Or.inr (Or.inr h)
        · rintro (h | h | h)
          · exact Or.inl (Or.inr h)
          · exact Or.inl (Or.inl h)
          · exact Or.inr h
    · obtain ⟨i1, i2, i3⟩ := ih (fun c hc => h1 c (List.mem_cons_of_mem _ hc)) (fun c hc => h2 c (List.mem_cons_of_mem _ hc)) h3.2
      refine ⟨?_, ?_, ?_⟩
      · intro c hc
        rcases List.mem_cons.1 hc with rfl | hc
        · exact h1 _ List.mem_cons_self
        · exact i1 c hc
      · rw [List.pairwise_cons]
        refine ⟨?_, i2⟩
        intro b hb m hm hmb
        rcases (i3 m).1 ⟨b, hb, hmb⟩ with rfl | ⟨c, hc, hmc⟩
        · exact h2 _ List.mem_cons_self hm
        · exact h3.1 c hc m hm hmc
      · intro m
        simp only [List.mem_cons, exists_eq_or_imp]
        rw [i3]
        constructor
        · rintro (h | h | h)
          · exact Or.inr (Or.inl h)
          · exact Or.inl h
          · exact Or.inr (Or.inr h)
        · rintro (h | h | h)
          · exact Or.inr (Or.inl h)
          · exact Or.inl h
          · exact Or.inr (Or.inr h)

theorem splitInsert_weak {col : Nat → Row → Row → Bool} {key : Row} {n : Nat} {L : List (Row × List Nat)}
    (h1 : ∀ c ∈ L, c.2 ≠ []) (h2 : ∀ c ∈ L, n ∉ c.2) (h3 : L.Pairwise fun a b => ∀ m, m ∈ a.2 → m ∉ b.2) :
    (∀ c ∈ splitInsert col key n L, c.2 ≠ []) ∧
    ((splitInsert col key n L).Pairwise fun a b => ∀ m, m ∈ a.2 → m ∉ b.2) ∧
    (∀ m, (∃ c ∈ splitInsert col key n L, m ∈ c.2) ↔ m = n ∨ ∃ c ∈ L, m ∈ c.2) := by
  obtain ⟨hit, he⟩ := splitInsert_enter col key n L
  rw [he]
  exact enter_weak h1 h2 h3

theorem splitSet_weak {col : Nat → Row → Row → Bool} {rows : List Row} {gm nodes : List Nat} (hn : nodes.Nodup) :
    (∀ c ∈ splitSet col rows gm nodes, c.2 ≠ []) ∧
    ((splitSet col rows gm nodes).Pairwise fun a b => ∀ m, m ∈ a.2 → m ∉ b.2) ∧
    (∀ m, (∃ c ∈ splitSet col rows gm nodes, m ∈ c.2) ↔ m ∈ nodes) := by
  unfold splitSet
  suffices ∀ (nodes : List Nat) (L : List (Row × List Nat)), nodes.Nodup → (∀ n ∈ nodes, ∀ c ∈ L, n ∉ c.2) →
      (∀ c ∈ L, c.2 ≠ []) → (L.Pairwise fun a b => ∀ m, m ∈ a.2 → m ∉ b.2) →
      let r := nodes.foldl (fun sg n => splitInsert col (compress gm (rows.getD n [])) n sg) L
      (∀ c ∈ r, c.2 ≠ []) ∧ (r.Pairwise fun a b => ∀ m, m ∈ a.2 → m ∉ b.2) ∧
      (∀ m, (∃ c ∈ r, m ∈ c.2) ↔ (∃ c ∈ L, m ∈ c.2) ∨ m ∈ nodes) by
    obtain ⟨h1, h2, h3⟩ := this nodes [] hn (by simp) (by simp) (by simp)
    exact ⟨h1, h2, fun m => by rw [h3]; simp⟩
  intro nodes
  induction nodes with
  | nil => intro L _ _ h3 h4; exact ⟨h3, h4, by simp⟩
  | cons n nodes ih =>
    intro L h1 h2 h3 h4
    rw [List.nodup_cons] at h1
    obtain ⟨s1, s2, s3⟩ := splitInsert_weak (col := col) (key := compress gm (rows.getD n [])) h3 (h2 n List.mem_cons_self) h4
    obtain ⟨i1, i2, i3⟩ := ih _ h1.2 (by
      intro m hm c hc hmc
      rcases (s3 m).1 ⟨c, hc, hmc⟩ with rfl | ⟨c', hc', hmc'⟩
      · exact h1.1 hm
      · exact h2 m (List.mem_cons_of_mem _ hm) c' hc' hmc') s1 s2
    refine ⟨i1, i2, ?_⟩
    intro m
    simp only [List.foldl_cons]
    rw [i3, s3]
    simp only [List.mem_cons]
    constructor
    · rintro ((h | h) | h)
      · exact Or.inr (Or.inl h)
      · exact Or.inl h
      · exact Or.inr (Or.inr h)
    · rintro (h | h | h)
      · exact Or.inl (Or.inr h)
      · exact Or.inl (Or.inl h)
      · exact Or.inr h

/-- What a round does in any case. -/
structure RoundWeak (rows : List Row) (gm : List Nat) (st : Round) : Prop where
  len : st.gm.length = rows.length
  refines : ∀ i j, i < rows.length → j < rows.length → st.gm.getD i 0 = st.gm.getD j 0 → gm.getD i 0 = gm.getD j 0
  lt : ∀ i, i < rows.length → st.gm.getD i 0 < st.maxIndex
  dense : ∀ g, g < st.maxIndex → ∃ i, i < rows.length ∧ st.gm.getD i 0 = g
  updated : st.updated = true → ∃ i j, i < rows.length ∧ j < rows.length ∧ gm.getD i 0 = gm.getD j 0 ∧
    st.gm.getD i 0 ≠ st.gm.getD j 0

theorem minRound_weak {o : MinOracle} (hf : o.Fair) {rows : List Row} {gm new : List Nat}
    (hg : gm.length = rows.length) (hn : new.length = rows.length) (round : Nat) :
    RoundWeak rows gm (minRound o rows gm new round) := by
  have hfold := foldl_roundSet o rows gm round (groupSets gm).zipIdx
    { gm := new, maxIndex := 0, updated := false } { gm := new, maxIndex := 0, updated := false } rfl rfl
  simp only at hfold
  obtain ⟨hgm, hmax, hupd⟩ := hfold
  change (minRound o rows gm new round).gm = ((allClasses o rows gm round).foldl numberClass _).gm at hgm
  change (minRound o rows gm new round).maxIndex = ((allClasses o rows gm round).foldl numberClass _).maxIndex at hmax
  change (minRound o rows gm new round).updated = true ↔ _ at hupd
  have hnod : ∀ g, (o.visit round g ((List.range gm.length).filter fun n => gm.getD n 0 == g)).Nodup := by
    intro g
    rw [(hf.visit round g _).nodup_iff]
    exact List.nodup_range.filter _
  have hsplit : ∀ g m, (∃ c ∈ splitSet (o.collide round g) rows gm (o.visit round g ((List.range gm.length).filter fun n => gm.getD n 0 == g)), m ∈ c.2) ↔
      m < rows.length ∧ gm.getD m 0 = g := by
    intro g m
    rw [(splitSet_weak (hnod g)).2.2, (hf.visit round g _).mem_iff, List.mem_filter, List.mem_range, hg]
    simp
  have hmem : ∀ c, c ∈ allClasses o rows gm round ↔ ∃ g, g < groupCount gm ∧
      c ∈ splitSet (o.collide round g) rows gm (o.visit round g ((List.range gm.length).filter fun n => gm.getD n 0 == g)) := by
    intro c
    unfold allClasses
    rw [List.mem_flatMap]
    constructor
    · rintro ⟨⟨s, g⟩, h1, h2⟩
      obtain ⟨h3, rfl⟩ := mem_groupSets.1 h1
      exact ⟨g, h3, (hf.order round g _).mem_iff.1 h2⟩
    · rintro ⟨g, h1, h2⟩
      exact ⟨(_, g), mem_groupSets.2 ⟨h1, rfl⟩, (hf.order round g _).mem_iff.2 h2⟩
  have hclass : ∀ c ∈ allClasses o rows gm round, c.2 ≠ [] ∧ ∃ g, ∀ m, m ∈ c.2 → m < rows.length ∧ gm.getD m 0 = g := by
    intro c hc'
    obtain ⟨g, hg1, hg2⟩ := (hmem c).1 hc'
    exact ⟨(splitSet_weak (hnod g)).1 c hg2, g, fun m hm => (hsplit g m).1 ⟨c, hg2, hm⟩⟩
  have hcover : ∀ m, m < rows.length → ∃ c ∈ allClasses o rows gm round, m ∈ c.2 := by
    intro m hm
    obtain ⟨c, h1, h2⟩ := (hsplit (gm.getD m 0) m).2 ⟨hm, rfl⟩
    exact ⟨c, (hmem _).2 ⟨_, (groupCount_spec gm _).2 ⟨_, getD_mem (by omega), Nat.le_refl _⟩, h1⟩, h2⟩
  have hpair : (allClasses o rows gm round).Pairwise fun a b => ∀ n, n ∈ a.2 → n ∉ b.2 := by
    unfold allClasses
    rw [List.pairwise_flatMap]
    constructor
    · rintro ⟨s, g⟩ hsg
      obtain ⟨hg1, rfl⟩ := mem_groupSets.1 hsg
      rw [(hf.order round g _).pairwise_iff (by intro a b h n h1 h2; exact h n h2 h1)]
      exact (splitSet_weak (hnod g)).2.1
    · have hz : (groupSets gm).zipIdx.Pairwise fun a b => a.2 < b.2 := by
        have : ∀ (l : List (List Nat)) k, (l.zipIdx k).Pairwise fun a b => a.2 < b.2 := by
          intro l
          induction l with
          | nil => intro k; simp
          | cons a l ih =>
            intro k
            rw [List.zipIdx_cons, List.pairwise_cons]
            refine ⟨?_, ih (k + 1)⟩
            rintro ⟨x, i⟩ hx
            have := List.le_snd_of_mem_zipIdx hx
            simp only at this ⊢
            omega
        exact this _ 0
      refine hz.imp_of_mem ?_
      rintro ⟨s, g⟩ ⟨s', g'⟩ hs hs' hlt x hx y hy n hnx hny
      obtain ⟨_, rfl⟩ := mem_groupSets.1 hs
      obtain ⟨_, rfl⟩ := mem_groupSets.1 hs'
      have h1 := (hsplit g n).1 ⟨x, (hf.order round g _).mem_iff.1 hx, hnx⟩
      have h2 := (hsplit g' n).1 ⟨y, (hf.order round g' _).mem_iff.1 hy, hny⟩
      simp only at hlt
      omega
  obtain ⟨m1, m2, m3, m4⟩ := number_spec (allClasses o rows gm round) { gm := new, maxIndex := 0, updated := false } hpair
  simp only [Nat.zero_add] at m2 m3
  have hidx : ∀ i, i < rows.length → ∃ (k : Nat) (c : Row × List Nat), (allClasses o rows gm round)[k]? = some c ∧ i ∈ c.2 ∧
      (minRound o rows gm new round).gm.getD i 0 = k := by
    intro i hi
    obtain ⟨c, hcm, hic⟩ := hcover i hi
    obtain ⟨k, hk⟩ := List.getElem?_of_mem hcm
    exact ⟨k, c, hk, hic, by rw [hgm]; exact m3 k c i hk hic (by rw [hn]; exact hi)⟩
  have hrefine : ∀ i j, i < rows.length → j < rows.length →
      (minRound o rows gm new round).gm.getD i 0 = (minRound o rows gm new round).gm.getD j 0 → gm.getD i 0 = gm.getD j 0 := by
    intro i j hi hj he
    obtain ⟨k, c, h1, h2, h3⟩ := hidx i hi
    obtain ⟨k', c', h1', h2', h3'⟩ := hidx j hj
    obtain rfl : k = k' := by omega
    rw [h1] at h1'
    cases h1'
    obtain ⟨_, g, hcl⟩ := hclass c (List.mem_of_getElem? h1)
    rw [(hcl i h2).2, (hcl j h2').2]
  refine ⟨by rw [hgm, m1]; exact hn, hrefine, ?_, ?_, ?_⟩
  · intro i hi
    obtain ⟨k, c, h1, _, h3⟩ := hidx i hi
    rw [h3, hmax, m2]
    exact (List.getElem?_eq_some_iff.1 h1).1
  · intro g hg'
    rw [hmax, m2] at hg'
    have hcm := List.getElem_mem hg'
    obtain ⟨hne, g0, hcl⟩ := hclass _ hcm
    cases hcs : ((allClasses o rows gm round)[g]).2 with
    | nil => exact absurd hcs hne
    | cons i s =>
      have hic : i ∈ ((allClasses o rows gm round)[g]).2 := by rw [hcs]; simp
      have hi := (hcl i hic).1
      refine ⟨i, hi, ?_⟩
      rw [hgm]
      exact m3 g _ i (List.getElem?_eq_getElem hg') hic (by rw [hn]; exact hi)
  · rw [hupd]
    simp only [Bool.false_eq_true, false_or]
    rintro ⟨⟨s, g⟩, hsg, hlen⟩
    obtain ⟨hg1, rfl⟩ := mem_groupSets.1 hsg
    simp only at hlen
    obtain ⟨n1, n2, _⟩ := splitSet_weak (col := o.collide round g) (rows := rows) (gm := gm) (hnod g)
    have hs := hsplit g
    have hm := fun c hc => (hmem c).2 ⟨g, hg1, hc⟩
    revert n1 n2 hs hm hlen
    generalize splitSet (o.collide round g) rows gm (o.visit round g ((List.range gm.length).filter fun n => gm.getD n 0 == g)) = L
    intro hlen n1 n2 hs hm
    match L, hlen with
    | c1 :: c2 :: L, _ =>
      have hs1 := n1 c1 (by simp)
      have hs2 := n1 c2 (by simp)
      obtain ⟨i, hi⟩ := List.exists_mem_of_ne_nil _ hs1
      obtain ⟨j, hj⟩ := List.exists_mem_of_ne_nil _ hs2
      have gi := (hs i).1 ⟨c1, by simp, hi⟩
      have gj := (hs j).1 ⟨c2, by simp, hj⟩
      refine ⟨i, j, gi.1, gj.1, by rw [gi.2, gj.2], ?_⟩
      obtain ⟨k, hk⟩ := List.getElem?_of_mem (hm c1 (by simp))
      obtain ⟨k', hk'⟩ := List.getElem?_of_mem (hm c2 (by simp))
      rw [hgm, m3 k c1 i hk hi (by rw [hn]; exact gi.1), m3 k' c2 j hk' hj (by rw [hn]; exact gj.1)]
      rintro rfl
      rw [hk] at hk'
      have he : c1 = c2 := by simpa using hk'
      subst he
      rw [List.pairwise_cons] at n2
      exact n2.1 c1 (by simp) i hi hi

/-- What the loop returns in any case. -/
structure WeakInv (d : DFA) (gm : List Nat) : Prop where
  len : gm.length = d.rows.length
  acc : ∀ i j, i < d.rows.length → j < d.rows.length → gm.getD i 0 = gm.getD j 0 → d.accept i = d.accept j

theorem minLoop_weak {o : MinOracle} (hf : o.Fair) {d : DFA} :
    ∀ (f round : Nat) (gm new : List Nat), WeakInv d gm → new.length = d.rows.length →
      d.rows.length - groupsOf d.rows.length gm < f →
      ∃ r, minLoop o d.rows f round gm new = some r ∧ WeakInv d r ∧
        ∃ m, (∀ i, i < d.rows.length → r.getD i 0 < m) ∧ ∀ g, g < m → ∃ i, i < d.rows.length ∧ r.getD i 0 = g := by
  intro f
  induction f with
  | zero => intro round gm new _ _ hlt; omega
  | succ f ih =>
    intro round gm new hi hn hlt
    have hs := minRound_weak hf hi.len hn round
    have hi' : WeakInv d (minRound o d.rows gm new round).gm :=
      ⟨hs.len, fun i j h1 h2 he => hi.acc i j h1 h2 (hs.refines i j h1 h2 he)⟩
    unfold minLoop
    simp only
    split
    · rename_i hu
      refine ih _ _ _ hi' hi.len ?_
      have := groupsOf_lt (n := d.rows.length) (gm := gm) (gm' := (minRound o d.rows gm new round).gm) hs.refines (hs.updated hu)
      have := groupsOf_le d.rows.length (minRound o d.rows gm new round).gm
      omega
    · exact ⟨_, rfl, hi', _, hs.lt, hs.dense⟩

theorem rebuild_weak {o : MinOracle} (hf : o.Fair) {d : DFA} {p gm m} (h : d.WF p) (hi : WeakInv d gm)
    (hlt : ∀ i, i < d.rows.length → gm.getD i 0 < m) (hdense : ∀ g, g < m → ∃ i, i < d.rows.length ∧ gm.getD i 0 = g) :
    (rebuild o d gm).WF p := by
  have hcount := groupCount_dense hi.len hlt hdense
  have hgs : (groupSets gm).length = m := by simp [groupSets, hcount]
  have hrl : (rebuild o d gm).rows.length = m := by simp [rebuild, hgs]
  have haccD : ∀ i, i < d.rows.length → d.accept i = d.ends.getD i none := by
    intro i hi'
    unfold DFA.accept
    have : i < d.ends.length := by rw [h.endsLen]; exact hi'
    rw [List.getD_eq_getElem?_getD, List.getElem?_eq_getElem this]
    rfl
  obtain ⟨e1, e2, e3⟩ := rebuild_ends (d := d) hlt (fun i j h1 h2 he => by
    rw [← haccD i h1, ← haccD j h2]; exact hi.acc i j h1 h2 he)
  rw [← hgs] at e1 e2 e3
  refine ⟨?_, ?_, ?_, ?_⟩
  · intro r hr
    simp only [rebuild, List.mem_map] at hr
    obtain ⟨s, hs, rfl⟩ := hr
    obtain ⟨g, hg⟩ := List.getElem?_of_mem hs
    have hgl := (List.getElem?_eq_some_iff.1 hg).1
    rw [hgs] at hgl
    have hget : (groupSets gm)[g]? = some ((List.range gm.length).filter fun n => gm.getD n 0 == g) := by
      unfold groupSets
      rw [List.getElem?_map, List.getElem?_range (by omega)]
      rfl
    rw [hget] at hg
    cases hg
    obtain ⟨i, hi1, hi2⟩ := hdense g hgl
    have hne : ((List.range gm.length).filter fun n => gm.getD n 0 == g) ≠ [] := by
      intro h0
      have : i ∈ (List.range gm.length).filter fun n => gm.getD n 0 == g := by
        rw [List.mem_filter, List.mem_range, hi.len]
        exact ⟨hi1, by rw [hi2]; exact BEq.rfl⟩
      rw [h0] at this
      simp at this
    have hp := hf.pick _ hne
    rw [List.mem_filter, List.mem_range] at hp
    replace hp := hp.1
    generalize o.pick ((List.range gm.length).filter fun n => gm.getD n 0 == g) = pk at hp
    rw [hi.len] at hp
    rw [hrl]
    obtain ⟨c1, _, c3⟩ := compress_spec gm (ord_of_wf (row_wf h hp))
    refine wf_of_ord c1.ord ?_
    intro x hx
    obtain ⟨y, hy, he⟩ := c3 x hx
    rw [he]
    exact hlt _ ((row_wf h hp).target y hy)
  · rw [hrl]
    exact hlt d.b h.b
  · rw [hrl, ← hgs]
    exact e1
  · intro e he
    obtain ⟨i, hi1, hi2⟩ := e3 e he
    apply h.ends
    rw [← hi2, List.getD_eq_getElem?_getD, List.getElem?_eq_getElem (by rw [h.endsLen]; exact hi1)]
    exact List.getElem_mem _

/-- Minimisation always ends with a well-formed table, collisions or not. -/
theorem minify_weak {o : MinOracle} (hf : o.Fair) {d : DFA} {p} (h : d.WF p) :
    ∃ d', minify o d = some d' ∧ d'.WF p := by
  obtain ⟨r, h1, h2, m, h3, h4⟩ := minLoop_weak hf (d.rows.length + 1) 0 (initGroups d) (initGroups d)
    ⟨(initGroups_inv h).len, (initGroups_inv h).acc⟩ (initGroups_inv h).len (by omega)
  refine ⟨_, ?_, rebuild_weak hf h h2 h3 h4⟩
  unfold minify
  simp only [h1, Option.map_some]

end Verif.Tok
