import Verif.Tok.DfaProof

/-! # Helper lemmas: the subset construction loop -/

namespace Verif.Tok

abbrev SRow := List ((Nat × Nat) × List Nat)

/-- The set of nodes reached by some word. -/
def Reached (ns : List Node) (b : Nat) (s : List Nat) : Prop :=
  OSet.Sorted s ∧ s ≠ [] ∧ ∃ w, ∀ q, q ∈ s ↔ NPath ns b w q

/-- State of the loop: `R i` are the ranges already entered for node `i`. -/
structure SI (ns : List Node) (b : Nat) (s0 : List Nat) (st : Sub) (R : Nat → SRow) : Prop where
  len : st.rows.length = st.sets.length
  nodup : st.sets.Nodup
  reached : ∀ s ∈ st.sets, Reached ns b s
  head : st.sets[0]? = some s0
  queue : ∀ s ∈ st.queue, s ∈ st.sets
  rowsEq : ∀ i : Nat, i < st.sets.length → st.rows[i]? = some ((R i).map fun x => (x.1, st.sets.idxOf x.2))
  outside : ∀ i, st.sets.length ≤ i → R i = []
  rowsIn : ∀ i x, x ∈ R i → x.2 ∈ st.sets
  procNodup : st.processed.Nodup
  procLt : ∀ i ∈ st.processed, i < st.sets.length
  pend : ∀ (i : Nat) s, st.sets[i]? = some s → i ∉ st.processed → s ∈ st.queue

def upd (R : Nat → SRow) (i : Nat) (x : (Nat × Nat) × List Nat) : Nat → SRow :=
  fun j => if j = i then R i ++ [x] else R j

theorem insertRange_map {r : Nat × Nat} {v : Nat} {L : SRow} {f : List Nat → Nat} (h : ∀ x ∈ L, x.1.1 < r.1) :
    insertRange r v (L.map fun x => (x.1, f x.2)) = (L.map fun x => (x.1, f x.2)) ++ [(r, v)] := by
  apply insertRange_new
  intro k x hx
  rw [List.mem_map] at hx
  obtain ⟨y, hy, he⟩ := hx
  cases he
  exact h y hy

theorem subEdge_inv {ns b s0 st R cur x} (h : SI ns b s0 st R) (hc : cur < st.sets.length) (hp : ∀ y ∈ R cur, y.1.1 < x.1.1)
    (hx : Reached ns b x.2) (hcp : cur ∈ st.processed) :
    SI ns b s0 (subEdge cur st x) (upd R cur x) ∧ (subEdge cur st x).processed = st.processed ∧
      st.sets <+: (subEdge cur st x).sets := by
  obtain ⟨range, next⟩ := x
  by_cases hn : next ∈ st.sets
  · have he : subEdge cur st (range, next) = { st with queue := st.queue ++ [next], rows := st.rows.modify cur (insertRange range (st.find next)) } := by
      simp [subEdge, hn]
    rw [he]
    refine ⟨⟨?_, h.nodup, h.reached, h.head, ?_, ?_, ?_, ?_, h.procNodup, h.procLt, ?_⟩, rfl, List.prefix_refl _⟩
    · simp [h.len]
    · intro s hs
      simp only [List.mem_append, List.mem_singleton] at hs
      rcases hs with hs | rfl
      · exact h.queue s hs
      · exact hn
    · intro i hi
      simp only [List.getElem?_modify, upd]
      rw [h.rowsEq i hi]
      by_cases hic : i = cur
      · subst hic
        simp only [if_true, Option.map_eq_map, Option.map_some]
        rw [insertRange_map (f := fun s => st.sets.idxOf s) hp]
        simp [Sub.find]
      · have : ¬ cur = i := fun hh => hic hh.symm
        simp [hic, this]
    · intro i hi
      simp only at hi
      have : i ≠ cur := by omega
      simp only [upd, this, if_false]
      exact h.outside i hi
    · intro i y hy
      simp only [upd] at hy
      split at hy
      · rcases List.mem_append.1 hy with hy | hy
        · exact h.rowsIn _ _ hy
        · simp at hy; subst hy; exact hn
      · exact h.rowsIn _ _ hy
    · intro i s hs hi
      exact List.mem_append_left _ (h.pend i s hs hi)
  · have he : subEdge cur st (range, next) =
        { rows := (st.rows ++ [[]]).modify cur (insertRange range ((st.sets ++ [next]).idxOf next)),
          sets := st.sets ++ [next], queue := st.queue ++ [next], processed := st.processed } := by
      simp [subEdge, hn, Sub.find]
    rw [he]
    have hidx : ∀ s ∈ st.sets, (st.sets ++ [next]).idxOf s = st.sets.idxOf s := fun s hs => by
      rw [List.idxOf_append, if_pos hs]
    have hmap : ∀ i, (R i).map (fun x => (x.1, (st.sets ++ [next]).idxOf x.2)) = (R i).map fun x => (x.1, st.sets.idxOf x.2) := by
      intro i
      apply List.map_congr_left
      intro y hy
      rw [hidx _ (h.rowsIn _ _ hy)]
    refine ⟨⟨?_, ?_, ?_, ?_, ?_, ?_, ?_, ?_, h.procNodup, ?_, ?_⟩, rfl, List.prefix_append _ _⟩
    · simp [h.len]
    · simp only [List.nodup_append, h.nodup, true_and]
      refine ⟨by simp, ?_⟩
      intro a ha c hcc hac
      simp at hcc
      subst hcc; subst hac
      exact hn ha
    · intro s hs
      simp only [List.mem_append, List.mem_singleton] at hs
      rcases hs with hs | rfl
      · exact h.reached s hs
      · exact hx
    · simp only
      have := h.head
      rw [List.getElem?_append_left (by
        rcases Nat.lt_or_ge 0 st.sets.length with h1 | h1
        · exact h1
        · rw [List.getElem?_eq_none h1] at this; cases this)]
      exact this
    · intro s hs
      simp only [List.mem_append, List.mem_singleton] at hs ⊢
      rcases hs with hs | rfl
      · exact Or.inl (h.queue s hs)
      · exact Or.inr rfl
    · intro i hi
      simp only [List.length_append, List.length_singleton] at hi
      simp only [List.getElem?_modify, upd]
      have hrow : (st.rows ++ [[]])[i]? = some ((R i).map fun x => (x.1, (st.sets ++ [next]).idxOf x.2)) := by
        rw [hmap]
        by_cases hil : i < st.sets.length
        · rw [List.getElem?_append_left (by rw [h.len]; exact hil), h.rowsEq i hil]
        · have : i = st.sets.length := by omega
          subst this
          rw [h.outside _ (Nat.le_refl _), List.getElem?_append_right (by rw [h.len]; exact Nat.le_refl _)]
          simp [h.len]
      rw [hrow]
      by_cases hic : i = cur
      · subst hic
        simp only [if_true, Option.map_eq_map, Option.map_some]
        rw [insertRange_map (f := fun s => (st.sets ++ [next]).idxOf s) hp]
        simp
      · have : ¬ cur = i := fun hh => hic hh.symm
        simp [hic, this]
    · intro i hi
      simp only [List.length_append, List.length_singleton] at hi
      have : i ≠ cur := by omega
      simp only [upd, this, if_false]
      exact h.outside i (by omega)
    · intro i y hy
      simp only [upd] at hy
      simp only [List.mem_append, List.mem_singleton]
      split at hy
      · rcases List.mem_append.1 hy with hy | hy
        · exact Or.inl (h.rowsIn _ _ hy)
        · simp at hy; subst hy; exact Or.inr rfl
      · exact Or.inl (h.rowsIn _ _ hy)
    · intro i hi
      have := h.procLt i hi
      simp only [List.length_append, List.length_singleton]
      omega
    · intro i s hs hi
      simp only at hs hi ⊢
      by_cases hil : i < st.sets.length
      · rw [List.getElem?_append_left hil] at hs
        exact List.mem_append_left _ (h.pend i s hs hi)
      · rw [List.getElem?_append_right (by omega)] at hs
        have := List.mem_of_getElem? hs
        exact List.mem_append_right _ this

/-- All ranges of the current node are entered. -/
theorem edges_inv {ns b s0 cur} {L : SRow} (hr : ∀ x ∈ L, Reached ns b x.2) :
    ∀ (st : Sub) (R : Nat → SRow), SI ns b s0 st R → cur < st.sets.length → cur ∈ st.processed →
      ((R cur ++ L).Pairwise fun x y => x.1.1 < y.1.1) →
      SI ns b s0 (L.foldl (subEdge cur) st) (fun j => if j = cur then R cur ++ L else R j) ∧
        (L.foldl (subEdge cur) st).processed = st.processed ∧ st.sets <+: (L.foldl (subEdge cur) st).sets := by
  induction L with
  | nil =>
    intro st R h hc hp hs
    refine ⟨?_, rfl, List.prefix_refl _⟩
    have : (fun j => if j = cur then R cur ++ [] else R j) = R := by
      funext j; split <;> simp_all
    rw [this]
    exact h
  | cons x L ih =>
    intro st R h hc hp hs
    have hs1 : ∀ y ∈ R cur, y.1.1 < x.1.1 := by
      intro y hy
      exact (List.pairwise_append.1 hs).2.2 y hy x (by simp)
    obtain ⟨h1, h2, h3⟩ := subEdge_inv h hc hs1 (hr x (by simp)) hp
    have hupd : upd R cur x cur = R cur ++ [x] := by simp [upd]
    obtain ⟨i1, i2, i3⟩ := ih (fun y hy => hr y (List.mem_cons_of_mem _ hy)) _ _ h1
      (Nat.lt_of_lt_of_le hc h3.length_le) (by rw [h2]; exact hp) (by rw [hupd]; simpa using hs)
    refine ⟨?_, by rw [List.foldl_cons, i2, h2], List.IsPrefix.trans h3 i3⟩
    have : (fun j => if j = cur then upd R cur x cur ++ L else upd R cur x j) =
        fun j => if j = cur then R cur ++ x :: L else R j := by
      funext j
      by_cases hj : j = cur
      · simp [hj, hupd]
      · simp [hj, upd]
    rw [this] at i1
    exact i1

/-- Ranges of all processed nodes. -/
def full (ns : List Node) (st : Sub) : Nat → SRow :=
  fun i => if i ∈ st.processed then outRanges ns (st.sets.getD i []) else []

theorem delta_path {ns b s c q w} (hs : ∀ q, q ∈ s ↔ NPath ns b w q) : Delta ns s c q ↔ NPath ns b (w ++ [c]) q := by
  unfold Delta
  constructor
  · rintro ⟨p, hp, p', hst, hq⟩
    exact Path.trans ((hs p).1 hp) (.step hst hq)
  · intro h
    have : ∀ {a u q}, NPath ns a u q → ∀ w c, u = w ++ [c] → ∃ p p', NPath ns a w p ∧ Stp ns p c p' ∧ NPath ns p' [] q := by
      intro a u q h
      induction h with
      | nil => intro w c h; simp at h
      | eps he _ ih =>
        intro w c h
        obtain ⟨p, p', h1, h2, h3⟩ := ih w c h
        exact ⟨p, p', .eps he h1, h2, h3⟩
      | @step a c' a' u' q hst hp ih =>
        intro w c h
        cases w with
        | nil =>
          simp at h
          obtain ⟨rfl, rfl⟩ := h
          exact ⟨a, a', .nil _, hst, hp⟩
        | cons x w =>
          simp at h
          obtain ⟨rfl, rfl⟩ := h
          obtain ⟨p, p', h1, h2, h3⟩ := ih w c rfl
          exact ⟨p, p', .step hst h1, h2, h3⟩
    obtain ⟨p, p', h1, h2, h3⟩ := this h w c rfl
    exact ⟨p, (hs p).2 h1, p', h2, h3⟩

theorem outRanges_reached {ns b s} (hns : EdgesOk ns) (hs : Reached ns b s) : ∀ x ∈ outRanges ns s, Reached ns b x.2 := by
  intro x hx
  obtain ⟨_, _, w, hw⟩ := hs
  obtain ⟨h1, h2, h3, h4⟩ := (outRanges_spec hns).1 x hx
  refine ⟨h2, h3, w ++ [x.1.1], fun q => ?_⟩
  rw [h4 x.1.1 q (Nat.le_refl _) h1, delta_path hw]

theorem outRanges_sorted {ns s} (hns : EdgesOk ns) : (outRanges ns s).Pairwise fun x y => x.1.1 < y.1.1 := by
  obtain ⟨h1, h2, _⟩ := outRanges_spec (set := s) hns
  refine List.Pairwise.imp_of_mem ?_ h2
  intro x y hx _ hxy
  have := (h1 x hx).1
  omega

/-- One turn of the loop on an unprocessed node. -/
theorem turn_inv {ns b s0 st cur q} (hns : EdgesOk ns) (h : SI ns b s0 st (full ns st)) (hq : st.queue = cur :: q)
    (hp : st.find cur ∉ st.processed) :
    let st' := (outRanges ns cur).foldl (subEdge (st.find cur)) { st with queue := q, processed := st.find cur :: st.processed }
    SI ns b s0 st' (full ns st') ∧ st'.processed = st.find cur :: st.processed := by
  have hcs : cur ∈ st.sets := h.queue cur (by rw [hq]; simp)
  have hlt : st.find cur < st.sets.length := List.idxOf_lt_length_iff.2 hcs
  have hget : st.sets[st.find cur]? = some cur := by
    rw [List.getElem?_eq_getElem hlt]
    simp [Sub.find]
  -- invariant after taking the set from the queue
  have h0 : SI ns b s0 { st with queue := q, processed := st.find cur :: st.processed } (full ns st) := by
    refine ⟨h.len, h.nodup, h.reached, h.head, ?_, h.rowsEq, h.outside, h.rowsIn, ?_, ?_, ?_⟩
    · intro s hs; exact h.queue s (by rw [hq]; exact List.mem_cons_of_mem _ hs)
    · exact List.nodup_cons.2 ⟨hp, h.procNodup⟩
    · intro i hi
      rcases List.mem_cons.1 hi with rfl | hi
      · exact hlt
      · exact h.procLt i hi
    · intro i s hs hi
      simp only [List.mem_cons, not_or] at hi
      have := h.pend i s hs hi.2
      rw [hq] at this
      rcases List.mem_cons.1 this with rfl | this
      · exfalso
        apply hi.1
        have hil : i < st.sets.length := by
          rcases Nat.lt_or_ge i st.sets.length with h1 | h1
          · exact h1
          · rw [List.getElem?_eq_none h1] at hs; cases hs
        exact (List.getElem?_inj hil h.nodup).1 (by rw [hs, hget])
      · exact this
  have hfull : full ns st (st.find cur) = [] := by simp [full, hp]
  obtain ⟨i1, i2, i3⟩ := edges_inv (outRanges_reached hns (h.reached cur hcs)) _ _ h0 hlt (by simp)
    (by rw [hfull]; simpa using outRanges_sorted hns)
  refine ⟨?_, i2⟩
  show SI ns b s0 _ (full ns _)
  refine cast ?_ i1
  congr 1
  funext j
  unfold full
  simp only at i2 i3
  rw [i2]
  by_cases hj : j = st.find cur
  · subst hj
    have : ((outRanges ns cur).foldl (subEdge (st.find cur)) { st with queue := q, processed := st.find cur :: st.processed }).sets.getD (st.find cur) [] = cur := by
      obtain ⟨t, ht⟩ := i3
      rw [← ht, List.getD_eq_getElem?_getD, List.getElem?_append_left hlt, hget]
      rfl
    rw [this]; simp [hp]
  · by_cases hjp : j ∈ st.processed
    · have hjl := h.procLt j hjp
      obtain ⟨t, ht⟩ := i3
      simp only [hj, if_false, hjp, if_true, List.mem_cons, or_true]
      rw [← ht, List.getD_eq_getElem?_getD, List.getD_eq_getElem?_getD, List.getElem?_append_left hjl]
    · simp [hj, hjp]

theorem skip_inv {ns b s0 st cur q} (h : SI ns b s0 st (full ns st)) (hq : st.queue = cur :: q)
    (hp : st.find cur ∈ st.processed) : SI ns b s0 { st with queue := q } (full ns { st with queue := q }) := by
  refine ⟨h.len, h.nodup, h.reached, h.head, ?_, h.rowsEq, h.outside, h.rowsIn, h.procNodup, h.procLt, ?_⟩
  · intro s hs; exact h.queue s (by rw [hq]; exact List.mem_cons_of_mem _ hs)
  · intro i s hs hi
    have := h.pend i s hs hi
    rw [hq] at this
    rcases List.mem_cons.1 this with rfl | this
    · exfalso
      apply hi
      have hil : i < st.sets.length := by
        rcases Nat.lt_or_ge i st.sets.length with h1 | h1
        · exact h1
        · simp only at hs
          rw [List.getElem?_eq_none h1] at hs; cases hs
      have hcs : s ∈ st.sets := List.mem_of_getElem? hs
      have hlt : st.find s < st.sets.length := List.idxOf_lt_length_iff.2 hcs
      have hget : st.sets[st.find s]? = some s := by
        rw [List.getElem?_eq_getElem hlt]
        simp [Sub.find]
      have : i = st.find s := (List.getElem?_inj hil h.nodup).1 (by simp only at hs; rw [hs, hget])
      rw [this]; exact hp
    · exact this

theorem subLoop_inv {ns b s0} (hns : EdgesOk ns) : ∀ (f : Nat) (st r : Sub), SI ns b s0 st (full ns st) →
    subLoop ns f st = some r → SI ns b s0 r (full ns r) ∧ r.queue = [] := by
  intro f
  induction f with
  | zero =>
    intro st r h hr
    simp only [subLoop] at hr
    split at hr
    · cases hr
      rename_i he
      exact ⟨h, by simpa using he⟩
    · cases hr
  | succ f ih =>
    intro st r h hr
    simp only [subLoop] at hr
    split at hr
    · cases hr; exact ⟨h, by assumption⟩
    · rename_i cur q hq
      split at hr
      · rename_i hp
        exact ih _ _ (skip_inv h hq hp) hr
      · rename_i hp
        exact ih _ _ (turn_inv hns h hq hp).1 hr

end Verif.Tok
