import Verif.Tok.Gen
import Verif.Tok.SpecProof

/-!
# Lemmas for the macro `tokenizer!` and the independence of hash seeds
-/

namespace Verif.Tok

theorem reinsert {len : Nat} : ∀ (row done : Row), (∀ x ∈ done, ∀ y ∈ row, x.1.1 < y.1.1) → RowWF row len →
    (row.map fun x => (x.1.1, x.1.2, x.2)).foldl (fun m x => insertRange (x.1, x.2.1) x.2.2 m) done = done ++ row := by
  intro row
  induction row with
  | nil => intro done _ _; simp
  | cons x row ih =>
    intro done hd hw
    have hp := List.pairwise_cons.1 hw.sorted
    rw [List.map_cons, List.foldl_cons, insertRange_new (fun k y hy => hd (k, y) hy x (by simp)), ih]
    · simp
    · intro y hy z hz
      rcases List.mem_append.1 hy with h | h
      · exact hd y h z (by simp [hz])
      · simp at h
        subst h
        have := hp.1 z hz
        have := hw.ranges x (by simp)
        simp only
        omega
    · exact ⟨fun y hy => hw.ranges y (by simp [hy]), hp.2, fun y hy => hw.target y (by simp [hy])⟩

open Classical in
theorem set_fold {ends : List (Option Nat)} : ∀ (l : List (Nat × Nat)) (m : List (Option Nat)),
    (∀ x ∈ l, x.1 < m.length ∧ (ends[x.1]?).join = some x.2) →
    (l.foldl (fun m x => m.set x.1 (some x.2)) m).length = m.length ∧
    ∀ i, i < m.length → (l.foldl (fun m x => m.set x.1 (some x.2)) m)[i]? = if ∃ e, (i, e) ∈ l then some ((ends[i]?).join) else m[i]? := by
  intro l
  induction l with
  | nil => intro m _; simp
  | cons x l ih =>
    intro m h
    rw [List.foldl_cons]
    obtain ⟨h1, h2⟩ := ih (m.set x.1 (some x.2)) (fun y hy => by rw [List.length_set]; exact h y (by simp [hy]))
    refine ⟨by rw [h1, List.length_set], ?_⟩
    intro i hi
    rw [h2 i (by rwa [List.length_set])]
    by_cases he : ∃ e, (i, e) ∈ l
    · rw [if_pos he, if_pos]
      obtain ⟨e, he⟩ := he
      exact ⟨e, by simp [he]⟩
    · rw [if_neg he, List.getElem?_set]
      by_cases hx : x.1 = i
      · rw [if_pos hx, if_pos (by omega), if_pos ⟨x.2, by subst hx; simp⟩, ← hx, (h x (by simp)).2]
      · rw [if_neg hx, if_neg]
        rintro ⟨e, he'⟩
        rcases List.mem_cons.1 he' with h' | h'
        · exact hx (by rw [← h'])
        · exact he ⟨e, h'⟩

theorem mem_endEntries {d : DFA} {i e : Nat} : (i, e) ∈ endEntries d ↔ (d.ends[i]?).join = some e := by
  unfold endEntries
  simp only [List.mem_filterMap, List.mem_range, Option.map_eq_some_iff]
  constructor
  · rintro ⟨j, _, e', h1, h2⟩
    cases h2
    exact h1
  · intro h
    refine ⟨i, ?_, e, h, rfl⟩
    apply Nat.lt_of_not_le
    intro hle
    rw [List.getElem?_eq_none hle] at h
    cases h

/-- Writing out well-formed tables and running the result gives them back. -/
theorem run_emit {α E : Type} {ord : List (Nat × Nat) → List (Nat × Nat)} (hord : ∀ l, (ord l).Perm l) {d : DFA} {p : Nat}
    (hd : d.WF p) (makers : List (List Nat → List α → E)) : (emit ord d makers).run = { dfa := d, maker := makers } := by
  obtain ⟨rows, b, ends⟩ := d
  have hrows : (rows.map fun row => row.map fun x => (x.1.1, x.1.2, x.2)).map
      (fun stmts => stmts.foldl (fun m x => insertRange (x.1, x.2.1) x.2.2 m) ([] : Row)) = rows := by
    rw [List.map_map]
    conv => rhs; rw [← List.map_id rows]
    apply List.map_congr_left
    intro row hr
    simpa using reinsert row [] (by simp) (hd.rows row hr)
  have hends : (ord (endEntries ⟨rows, b, ends⟩)).foldl (fun m x => m.set x.1 (some x.2)) (List.replicate rows.length none) = ends := by
    have hlen : ends.length = rows.length := hd.endsLen
    have hm : ∀ i e, (i, e) ∈ ord (endEntries ⟨rows, b, ends⟩) ↔ (ends[i]?).join = some e := by
      intro i e
      rw [(hord _).mem_iff, mem_endEntries]
    obtain ⟨h1, h2⟩ := set_fold (ends := ends) (ord (endEntries ⟨rows, b, ends⟩)) (List.replicate rows.length none) (by
      rintro ⟨i, e⟩ hx
      have := (hm i e).1 hx
      refine ⟨?_, this⟩
      rw [List.length_replicate, ← hlen]
      apply Nat.lt_of_not_le
      intro hle
      simp only at hle
      rw [List.getElem?_eq_none hle] at this
      cases this)
    apply List.ext_getElem?
    intro i
    by_cases hi : i < rows.length
    · rw [h2 i (by simpa using hi)]
      have hi' : i < ends.length := by omega
      by_cases he : ∃ e, (i, e) ∈ ord (endEntries ⟨rows, b, ends⟩)
      · rw [if_pos he]
        rw [List.getElem?_eq_getElem hi']
        rfl
      · rw [if_neg he, List.getElem?_replicate, if_pos hi]
        rw [List.getElem?_eq_getElem hi']
        cases hv : ends[i] with
        | none => rfl
        | some e =>
          exfalso
          exact he ⟨e, (hm i e).2 (by rw [List.getElem?_eq_getElem hi', hv]; rfl)⟩
    · rw [List.getElem?_eq_none (by rw [h1, List.length_replicate]; omega), List.getElem?_eq_none (by omega)]
  unfold emit Program.run
  simp only [hrows, hends, List.length_map]

/-- Two tables for the same patterns observe the same, if no collision disturbed their builds. -/
theorem built_obs {α E α' E' : Type} {s s' : Seeds} {hs : List Hir} {m : List (List Nat → List α → E)} {m' : List (List Nat → List α' → E')}
    {t : Tokenizer α E} {t' : Tokenizer α' E'} {ws ws' : List (Nat × Nat)} (hb : Built s hs m t ws) (hb' : Built s' hs m' t' ws')
    (hc : s.NoCollision) (hc' : s'.NoCollision) (w : List Nat) : t.dfa.obs w = t'.dfa.obs w := by
  obtain ⟨tn, d, a1, a2, a3, a4, a5⟩ := hb.dfa
  obtain ⟨tn', d', b1, b2, b3, b4, b5⟩ := hb'.dfa
  rw [a1] at b1
  cases b1
  obtain ⟨f, hf⟩ := a5 hc
  obtain ⟨f', hf'⟩ := b5 hc'
  rw [hf.obs a2.wf, hf'.obs b2.wf]
  have hstuck : d.obs w = none ↔ d'.obs w = none := by rw [a2.stuck, b2.stuck]
  have hacc : ∀ k, d.obs w = some (some k) ↔ d'.obs w = some (some k) := by intro k; rw [a2.acc, b2.acc]
  cases h : d.obs w with
  | none => exact (hstuck.1 h).symm
  | some o =>
    cases o with
    | some k => exact ((hacc k).1 h).symm
    | none =>
      cases h' : d'.obs w with
      | none => rw [hstuck.2 h'] at h; cases h
      | some o' =>
        cases o' with
        | none => rfl
        | some k => rw [(hacc k).2 h'] at h; cases h

theorem ReadLen.unique {d d' : DFA} (ho : ∀ w, d.obs w = d'.obs w) {w : List Nat} {r r' : Nat} (h : ReadLen d w r) (h' : ReadLen d' w r') :
    r = r' := by
  obtain ⟨a1, a2, a3⟩ := h
  obtain ⟨b1, b2, b3⟩ := h'
  rcases Nat.lt_trichotomy r r' with h | h | h
  · rcases a3 with a3 | a3
    · omega
    · exact absurd (by rw [← ho]; exact a3) (b2 r h)
  · exact h
  · rcases b3 with b3 | b3
    · omega
    · exact absurd (by rw [ho]; exact b3) (a2 r' h)

theorem it_ext {α : Type} {a b : It α} (h : a.queue ++ a.src = b.queue ++ b.src) (hs : a.src = b.src) : a = b := by
  obtain ⟨q, s⟩ := a
  obtain ⟨q', s'⟩ := b
  simp only at h hs
  subst hs
  rw [List.append_cancel_right h]

/-- Tables that observe the same give the same outcomes. -/
theorem next_congr {α E : Type} {t t' : Tokenizer α E} {map : α → Nat} (hd : t.dfa.WF t.maker.length) (hd' : t'.dfa.WF t'.maker.length)
    (hm : t.maker = t'.maker) (ho : ∀ w, t.dfa.obs w = t'.dfa.obs w) (it : It α) : t.next map it = t'.next map it := by
  obtain ⟨r, h1, h2, h3⟩ := next_spec (map := map) hd it
  obtain ⟨r', h1', h2', h3'⟩ := next_spec (map := map) hd' it
  have hr := ReadLen.unique ho h1 h1'
  subst hr
  have hacc : ∀ k w, t.dfa.Acc k w ↔ t'.dfa.Acc k w := by intro k w; unfold DFA.Acc; rw [ho]
  rcases h3 with ⟨a1, a2, a3⟩ | ⟨n, k, f, a1, a2, a3, a4, a5, a6⟩
  · rcases h3' with ⟨b1, b2, b3⟩ | ⟨n', k', f', b1, b2, b3, b4, b5, b6⟩
    · refine Prod.ext (by rw [a1, b1]) (it_ext ?_ (by rw [h2, h2']))
      rw [a2, b2, h2, h2']
    · exact absurd ((hacc _ _).2 b3) (a3 n' k')
  · rcases h3' with ⟨b1, b2, b3⟩ | ⟨n', k', f', b1, b2, b3, b4, b5, b6⟩
    · exact absurd ((hacc _ _).1 a3) (b3 n k)
    · have hl := h1.1
      rw [List.length_map] at hl
      have hn : n = n' := by
        rcases Nat.lt_trichotomy n n' with h | h | h
        · exact absurd ((hacc _ _).2 b3) (a4 n' h (by omega) k')
        · exact h
        · exact absurd ((hacc _ _).1 a3) (b4 n h (by omega) k)
      subst hn
      have hk : k = k' := by
        have := (hacc _ _).1 a3
        unfold DFA.Acc at this b3
        rw [b3] at this
        cases this
        rfl
      subst hk
      rw [hm, b2] at a2
      cases a2
      exact Prod.ext (by rw [a5, b5]) (it_ext (by rw [a6, b6]) (by rw [h2, h2']))

theorem calls_congr {α E : Type} {t t' : Tokenizer α E} {map : α → Nat} (h : ∀ it, t.next map it = t'.next map it) :
    ∀ n it, t.calls map n it = t'.calls map n it := by
  intro n
  induction n with
  | zero => intro it; rfl
  | succ n ih => intro it; simp only [Tokenizer.calls, h, ih]

theorem collect_congr {α E : Type} {t t' : Tokenizer α E} {map : α → Nat} (h : ∀ it, t.next map it = t'.next map it) :
    ∀ n it, t.collect map n it = t'.collect map n it := by
  intro n
  induction n with
  | zero => intro it; rfl
  | succ n ih =>
    intro it
    simp only [Tokenizer.collect, h]
    split
    · rw [ih]
    · rfl

end Verif.Tok
