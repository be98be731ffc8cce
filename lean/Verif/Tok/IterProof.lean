import Verif.Tok.Iter
import Verif.Tok.MinProof

/-!
# Helper lemmas about the token iterator
-/

namespace Verif.Tok

/-- `w` is accepted by the table, with index `k`. -/
abbrev DFA.Acc (d : DFA) (k : Nat) (w : List Nat) : Prop := d.obs w = some (some k)

/-- The best match among the prefixes of `w`. -/
def Best (d : DFA) (w : List Nat) : Option Nat → Nat → Prop
  | some k, n => n ≤ w.length ∧ d.Acc k (w.take n) ∧ ∀ m, n < m → m ≤ w.length → ∀ j, ¬ d.Acc j (w.take m)
  | none, n => n = 0 ∧ ∀ m, m ≤ w.length → ∀ j, ¬ d.Acc j (w.take m)

theorem Best.snoc_none {d : DFA} {w : List Nat} {c : Nat} {p n} (h : Best d w p n)
    (hn : ∀ j, ¬ d.Acc j (w ++ [c])) : Best d (w ++ [c]) p n := by
  have key : ∀ m, m ≤ (w ++ [c]).length → ∀ j, d.Acc j ((w ++ [c]).take m) → m ≤ w.length ∧ d.Acc j (w.take m) := by
    intro m hm j hj
    by_cases h' : m ≤ w.length
    · rw [List.take_append_of_le_length h'] at hj; exact ⟨h', hj⟩
    · rw [List.take_of_length_le (by simp at hm ⊢; omega)] at hj; exact absurd hj (hn j)
  cases p with
  | none => exact ⟨h.1, fun m hm j hj => h.2 m (key m hm j hj).1 j (key m hm j hj).2⟩
  | some k =>
    obtain ⟨h1, h2, h3⟩ := h
    refine ⟨by simp; omega, by rwa [List.take_append_of_le_length h1], ?_⟩
    intro m hm hm' j hj
    exact h3 m hm (key m hm' j hj).1 j (key m hm' j hj).2

theorem Best.snoc_some {d : DFA} {w : List Nat} {c k : Nat} (h : d.Acc k (w ++ [c])) :
    Best d (w ++ [c]) (some k) (w.length + 1) := by
  refine ⟨by simp, by rwa [List.take_of_length_le (by simp)], ?_⟩
  intro m hm hm'
  simp at hm'
  omega

/-- What the loop variables mean after the items `pre` have been read. -/
structure ScanInv {α : Type} (d : DFA) (map : α → Nat) (pre : List α) (s : Scan α) : Prop where
  items : s.items = pre
  chars : s.chars = pre.map map
  i : s.i = pre.length
  run : d.run d.b (pre.map map) = some s.node
  best : Best d (pre.map map) s.pat s.len

/-- What they mean at the end of the loop. -/
structure ScanEnd {α : Type} (d : DFA) (map : α → Nat) (pre : List α) (s : Scan α) : Prop where
  items : s.items = pre
  chars : s.chars = pre.map map
  best : Best d (pre.map map) s.pat s.len

theorem scanItem_spec {α : Type} {d : DFA} {map : α → Nat} {pre : List α} {s : Scan α} {p} (hd : d.WF p)
    (h : ScanInv d map pre s) (x : α) :
    (∃ s', scanItem d map s x = some (true, s') ∧ ScanInv d map (pre ++ [x]) s') ∨
    (∃ s', scanItem d map s x = some (false, s') ∧ ScanEnd d map (pre ++ [x]) s' ∧
      d.obs ((pre ++ [x]).map map) = none) := by
  have hlt := run_lt hd _ _ _ hd.b h.run
  have hrow : d.rows[s.node]? = some d.rows[s.node] := List.getElem?_eq_getElem hlt
  have hrun : d.run d.b ((pre ++ [x]).map map) = nextInRow d.rows[s.node] (map x) := by
    rw [List.map_append, List.map_singleton, DFA.run_snoc, h.run]
    simp [DFA.next, hrow]
  unfold scanItem
  simp only [hrow]
  cases hn : nextInRow d.rows[s.node] (map x) with
  | none =>
    right
    have hobs : d.obs ((pre ++ [x]).map map) = none := by simp only [DFA.obs, hrun, hn]; rfl
    refine ⟨_, rfl, ⟨by simp [h.items], by simp [h.chars], ?_⟩, hobs⟩
    rw [List.map_append, List.map_singleton] at hobs ⊢
    exact h.best.snoc_none (by intro j hj; rw [DFA.Acc, hobs] at hj; cases hj)
  | some n =>
    left
    rw [hn] at hrun
    have hobs : d.obs ((pre ++ [x]).map map) = some (d.accept n) := by simp only [DFA.obs, hrun]; rfl
    cases ha : d.accept n with
    | none =>
      simp only [ha]
      refine ⟨_, rfl, ?_⟩
      refine ⟨by simp [h.items], by simp [h.chars], by simp [h.i], hrun, ?_⟩
      rw [ha] at hobs
      rw [List.map_append, List.map_singleton] at hobs ⊢
      exact h.best.snoc_none (by intro j hj; rw [DFA.Acc, hobs] at hj; cases hj)
    | some k =>
      simp only [ha]
      refine ⟨_, rfl, ?_⟩
      refine ⟨by simp [h.items], by simp [h.chars], by simp [h.i], hrun, ?_⟩
      rw [ha] at hobs
      rw [List.map_append, List.map_singleton] at hobs ⊢
      have := Best.snoc_some hobs
      simpa [h.i] using this

/-- `r` items of `l` are read: up to and including the first with which the table is stuck, or all. -/
def ReadLen (d : DFA) (w : List Nat) (r : Nat) : Prop :=
  r ≤ w.length ∧ (∀ m, m < r → d.obs (w.take m) ≠ none) ∧ (r = w.length ∨ d.obs (w.take r) = none)

theorem scanSrc_spec {α : Type} {d : DFA} {map : α → Nat} {p} (hd : d.WF p) (l : List α) :
    ∀ (pre : List α) (s : Scan α), ScanInv d map pre s → ∃ s' r, scanSrc d map s l = some (s', ⟨[], l.drop r⟩) ∧
      r ≤ l.length ∧ ScanEnd d map (pre ++ l.take r) s' ∧
      (∀ m, m < r → d.obs ((pre ++ l.take m).map map) ≠ none) ∧
      (r = l.length ∨ d.obs ((pre ++ l.take r).map map) = none) := by
  induction l with
  | nil =>
    intro pre s h
    exact ⟨s, 0, rfl, by simp, ⟨by simp [h.items], by simp [h.chars], by simpa using h.best⟩, by simp, by simp⟩
  | cons x l ih =>
    intro pre s h
    have h0 : d.obs (pre.map map) ≠ none := by simp [DFA.obs, h.run]
    rcases scanItem_spec hd h x with ⟨s', he, hi⟩ | ⟨s', he, hi, hs⟩
    · obtain ⟨s'', r, h1, h2, h3, h4, h5⟩ := ih _ _ hi
      refine ⟨s'', r + 1, by simp [scanSrc, he, h1], by simpa using h2, by simpa using h3, ?_, by simpa using h5⟩
      intro m hm
      rcases m with _ | m
      · simpa using h0
      · simpa using h4 m (by omega)
    · refine ⟨s', 1, by simp [scanSrc, he], by simp, by simpa using hi, ?_, by simpa using Or.inr hs⟩
      intro m hm
      obtain rfl : m = 0 := by omega
      simpa using h0

theorem scan_spec {α : Type} {d : DFA} {map : α → Nat} {p} (hd : d.WF p) (q src : List α) :
    ∀ (pre : List α) (s : Scan α), ScanInv d map pre s →
      ∃ s' r, scan d map s q src = some (s', ⟨q.drop r, src.drop (r - q.length)⟩) ∧
      r ≤ (q ++ src).length ∧ ScanEnd d map (pre ++ (q ++ src).take r) s' ∧
      (∀ m, m < r → d.obs ((pre ++ (q ++ src).take m).map map) ≠ none) ∧
      (r = (q ++ src).length ∨ d.obs ((pre ++ (q ++ src).take r).map map) = none) := by
  induction q with
  | nil =>
    intro pre s h
    obtain ⟨s', r, h1, h2⟩ := scanSrc_spec hd src pre s h
    exact ⟨s', r, by simpa [scan] using h1, by simpa using h2⟩
  | cons x l ih =>
    intro pre s h
    have h0 : d.obs (pre.map map) ≠ none := by simp [DFA.obs, h.run]
    rcases scanItem_spec hd h x with ⟨s', he, hi⟩ | ⟨s', he, hi, hs⟩
    · obtain ⟨s'', r, h1, h2, h3, h4, h5⟩ := ih _ _ hi
      refine ⟨s'', r + 1, by simp [scan, he, h1], by simpa using h2, by simpa using h3, ?_, by simpa using h5⟩
      intro m hm
      rcases m with _ | m
      · simpa using h0
      · simpa using h4 m (by omega)
    · refine ⟨s', 1, by simp [scan, he], by simp, by simpa using hi, ?_, by simpa using Or.inr hs⟩
      intro m hm
      obtain rfl : m = 0 := by omega
      simpa using h0

theorem putBack_spec {α : Type} (n : Nat) : ∀ (r q : List α), n ≤ r.length →
    putBack n r q = (r.reverse.take n, r.reverse.drop n ++ q)
  | [], q, h => by simp [putBack]
  | x :: r, q, h => by
    unfold putBack
    split
    · have h' : n ≤ r.length := by simp at *; omega
      rw [putBack_spec n r _ h', List.reverse_cons, List.take_append_of_le_length (by simpa using h'),
        List.drop_append_of_le_length (by simpa using h')]
      simp
    · have : n = (x :: r).length := by omega
      rw [List.take_of_length_le (by simp [this]), List.drop_of_length_le (by simp [this])]
      simp

/-- Complete description of one call of `next`. -/
theorem next_spec {α E : Type} {t : Tokenizer α E} {map : α → Nat} (hd : t.dfa.WF t.maker.length) (it : It α) :
    ∃ r, ReadLen t.dfa ((it.queue ++ it.src).map map) r ∧
      (t.next map it).2.src = it.src.drop (r - it.queue.length) ∧
      (((t.next map it).1 = .none ∧ (t.next map it).2.queue = it.queue.drop r ∧
          ∀ n, ∀ j, ¬ t.dfa.Acc j (((it.queue ++ it.src).map map).take n)) ∨
       (∃ n k f, n ≤ r ∧ t.maker[k]? = some f ∧ t.dfa.Acc k (((it.queue ++ it.src).map map).take n) ∧
          (∀ m, n < m → m ≤ (it.queue ++ it.src).length → ∀ j, ¬ t.dfa.Acc j (((it.queue ++ it.src).map map).take m)) ∧
          (t.next map it).1 = .token (f (((it.queue ++ it.src).map map).take n) ((it.queue ++ it.src).take n)) ∧
          (t.next map it).2.queue ++ (t.next map it).2.src = (it.queue ++ it.src).drop n)) := by
  obtain ⟨q, src⟩ := it
  simp only
  have hinit : ScanInv t.dfa map [] { node := t.dfa.b, pat := t.dfa.accept t.dfa.b, len := 0, i := 0, items := [], chars := [] } := by
    refine ⟨rfl, rfl, rfl, rfl, ?_⟩
    have h0 : t.dfa.obs [] = some (t.dfa.accept t.dfa.b) := rfl
    cases ha : t.dfa.accept t.dfa.b with
    | none =>
      refine ⟨rfl, ?_⟩
      intro m hm j hj
      simp [DFA.Acc, h0, ha] at hj
    | some k =>
      refine ⟨by simp, by simp [DFA.Acc, h0, ha], ?_⟩
      intro m hm hm'
      simp at hm'
      omega
  obtain ⟨s, r, h1, h2, h3, h4, h5⟩ := scan_spec hd q src [] _ hinit
  simp only [List.nil_append] at h3 h4 h5
  have hlen : ((q ++ src).map map).length = (q ++ src).length := by simp
  have hread : ReadLen t.dfa ((q ++ src).map map) r := by
    refine ⟨by rw [hlen]; exact h2, ?_, ?_⟩
    · intro m hm; rw [← List.map_take]; exact h4 m hm
    · rw [← List.map_take, hlen]; exact h5
  have hbeyond : ∀ m, r < m → m ≤ (q ++ src).length → ∀ j, ¬ t.dfa.Acc j (((q ++ src).map map).take m) := by
    intro m hm hm' j hj
    rcases h5 with h5 | h5
    · omega
    · have : ((q ++ src).map map).take m = ((q ++ src).take r).map map ++ (((q ++ src).map map).take m).drop r := by
        rw [List.map_take]
        conv => lhs; rw [← List.take_append_drop r (((q ++ src).map map).take m)]
        rw [List.take_take, Nat.min_eq_left (by omega)]
      rw [DFA.Acc, this, DFA.obs, DFA.run_append] at hj
      have h5' : t.dfa.run t.dfa.b (((q ++ src).take r).map map) = none := by
        simpa [DFA.obs] using h5
      rw [h5'] at hj
      simp at hj
  have hbest := h3.best
  have htl : (((q ++ src).take r).map map) = ((q ++ src).map map).take r := by rw [List.map_take]
  rw [htl] at hbest
  have hlr : (((q ++ src).map map).take r).length = r := by simp at h2 ⊢; omega
  refine ⟨r, hread, ?_⟩
  unfold Tokenizer.next
  simp only [h1]
  cases hp : s.pat with
  | none =>
    refine ⟨rfl, Or.inl ⟨rfl, rfl, ?_⟩⟩
    rw [hp] at hbest
    have main : ∀ n, n ≤ (q ++ src).length → ∀ j, ¬ t.dfa.Acc j (((q ++ src).map map).take n) := by
      intro n hn j hj
      by_cases hle : n ≤ r
      · have := hbest.2 n (by rw [hlr]; exact hle) j
        rw [List.take_take, Nat.min_eq_left hle] at this
        exact this hj
      · exact hbeyond n (by omega) hn j hj
    intro n j hj
    by_cases hle : n ≤ (q ++ src).length
    · exact main n hle j hj
    · rw [List.take_of_length_le (by rw [hlen]; omega)] at hj
      exact main _ (Nat.le_refl _) j (by rw [← hlen, List.take_length]; exact hj)
  | some k =>
    rw [hp] at hbest
    obtain ⟨b1, b2, b3⟩ := hbest
    rw [hlr] at b1 b3
    have hk : k < t.maker.length := by
      apply hd.ends
      rw [List.take_take, Nat.min_eq_left b1] at b2
      simp only [DFA.Acc, DFA.obs, Option.map_eq_some_iff, DFA.accept] at b2
      obtain ⟨n, -, hn⟩ := b2
      cases he : t.dfa.ends[n]? with
      | none => simp [he] at hn
      | some e =>
        simp [he] at hn
        subst hn
        exact List.mem_of_getElem? he
    have hit : s.items.length = r := by rw [h3.items]; simp at h2 ⊢; omega
    have hpb := putBack_spec s.len s.items.reverse (q.drop r) (by simpa [hit] using b1)
    rw [List.reverse_reverse] at hpb
    simp only [hpb, List.getElem?_eq_getElem hk]
    refine ⟨trivial, Or.inr ⟨s.len, k, _, b1, List.getElem?_eq_getElem hk, ?_, ?_, ?_, ?_⟩⟩
    · rw [List.take_take, Nat.min_eq_left b1] at b2; exact b2
    · intro m hm hm' j hj
      by_cases hle : m ≤ r
      · have := b3 m hm hle j
        rw [List.take_take, Nat.min_eq_left hle] at this
        exact this hj
      · exact hbeyond m (by omega) hm' j hj
    · have e1 : s.chars.take s.len = ((q ++ src).map map).take s.len := by
        rw [h3.chars, htl, List.take_take, Nat.min_eq_left b1]
      have e2 : s.items.take s.len = (q ++ src).take s.len := by
        rw [h3.items, List.take_take, Nat.min_eq_left b1]
      rw [e1, e2]
    · rw [h3.items, List.append_assoc]
      have : q.drop r ++ src.drop (r - q.length) = (q ++ src).drop r := by rw [List.drop_append]
      rw [this]
      have hl : s.len ≤ ((q ++ src).take r).length := by rw [List.length_take]; omega
      rw [← List.drop_append_of_le_length hl, List.take_append_drop]

end Verif.Tok
