import Verif.Par.Tables

/-!
# Lemmas about association lists, ordered sets and loops
-/

namespace Verif.Par

section
variable {κ β : Type} [DecidableEq κ]

theorem get_entry (k k' : κ) (d : β) (f : β → β) (m : List (κ × β)) :
    get k' (entry k d f m) = if k' = k then some (f ((get k m).getD d)) else get k' m := by
  induction m with
  | nil =>
    by_cases h : k' = k
    · subst h; simp [entry, get]
    · simp [entry, get, h, Ne.symm h]
  | cons x m ih =>
    obtain ⟨j, v⟩ := x
    unfold entry
    by_cases hj : j = k
    · subst hj
      rw [if_pos rfl]
      by_cases h : k' = j
      · subst h; simp [get]
      · simp [get, h, Ne.symm h]
    · rw [if_neg hj]
      simp only [get]
      by_cases h : j = k'
      · subst h; simp [hj]
      · rw [if_neg h, ih, if_neg hj, if_neg h]

theorem get_put (k k' : κ) (v : β) (m : List (κ × β)) : get k' (put k v m) = if k' = k then some v else get k' m := by
  unfold put
  rw [get_entry]

theorem get_mem {k : κ} {v : β} {m : List (κ × β)} (h : get k m = some v) : (k, v) ∈ m := by
  induction m with
  | nil => cases h
  | cons x m ih =>
    obtain ⟨j, w⟩ := x
    unfold get at h
    split at h
    · rename_i hj; subst hj; cases h; exact List.mem_cons_self
    · exact List.mem_cons_of_mem _ (ih h)

theorem get_of_mem {k : κ} {v : β} {m : List (κ × β)} (hn : (m.map Prod.fst).Nodup) (h : (k, v) ∈ m) : get k m = some v := by
  induction m with
  | nil => cases h
  | cons x m ih =>
    obtain ⟨j, w⟩ := x
    rw [List.map_cons, List.nodup_cons] at hn
    unfold get
    rcases List.mem_cons.1 h with h | h
    · cases h; simp
    · rw [if_neg]
      · exact ih hn.2 h
      · rintro rfl
        exact hn.1 (List.mem_map.2 ⟨_, h, rfl⟩)

theorem get_none {k : κ} {m : List (κ × β)} (h : get k m = none) : ∀ v, (k, v) ∉ m := by
  intro v hv
  induction m with
  | nil => cases hv
  | cons x m ih =>
    obtain ⟨j, w⟩ := x
    unfold get at h
    split at h
    · cases h
    · rename_i hj
      rcases List.mem_cons.1 hv with h' | h'
      · cases h'; exact hj rfl
      · exact ih h h'

theorem get_isSome_iff {k : κ} {m : List (κ × β)} : (∃ v, get k m = some v) ↔ k ∈ m.map Prod.fst := by
  constructor
  · rintro ⟨v, h⟩
    exact List.mem_map.2 ⟨_, get_mem h, rfl⟩
  · intro h
    obtain ⟨⟨j, v⟩, h1, rfl⟩ := List.mem_map.1 h
    cases hg : get j m with
    | none => exact absurd h1 (get_none hg v)
    | some w => exact ⟨w, rfl⟩

theorem entry_keys (k : κ) (d : β) (f : β → β) (m : List (κ × β)) :
    ∀ j, j ∈ (entry k d f m).map Prod.fst ↔ j = k ∨ j ∈ m.map Prod.fst := by
  intro j
  rw [← get_isSome_iff, ← get_isSome_iff]
  simp only [get_entry]
  by_cases h : j = k
  · simp [h]
  · simp [h]

theorem entry_nodup {k : κ} {d : β} {f : β → β} {m : List (κ × β)} (h : (m.map Prod.fst).Nodup) :
    ((entry k d f m).map Prod.fst).Nodup := by
  induction m with
  | nil => simp [entry]
  | cons x m ih =>
    obtain ⟨j, v⟩ := x
    rw [List.map_cons, List.nodup_cons] at h
    unfold entry
    split
    · rw [List.map_cons, List.nodup_cons]; exact h
    · rename_i hj
      rw [List.map_cons, List.nodup_cons]
      refine ⟨?_, ih h.2⟩
      rw [entry_keys]
      rintro (h' | h')
      · exact hj h'
      · exact h.1 h'

end

theorem allSome_spec {α β : Type} {f : α → Option β} {l : List α} {r : List β} (h : allSome f l = some r) :
    r.length = l.length ∧ ∀ (i : Nat) (x : α), l[i]? = some x → ∃ y, r[i]? = some y ∧ f x = some y := by
  induction l generalizing r with
  | nil => cases h; simp
  | cons a l ih =>
    unfold allSome at h
    split at h
    · cases h
    · rename_i y hy
      split at h
      · cases h
      · rename_i r' hr
        cases h
        obtain ⟨h1, h2⟩ := ih hr
        refine ⟨by simp [h1], ?_⟩
        intro i x hi
        cases i with
        | zero => simp at hi; subst hi; exact ⟨y, rfl, hy⟩
        | succ i => simpa using h2 i x (by simpa using hi)

theorem allSome_mem {α β : Type} {f : α → Option β} {l : List α} {r : List β} (h : allSome f l = some r) (y : β) :
    y ∈ r ↔ ∃ x ∈ l, f x = some y := by
  induction l generalizing r with
  | nil => cases h; simp
  | cons a l ih =>
    unfold allSome at h
    split at h
    · cases h
    · rename_i z hz
      split at h
      · cases h
      · rename_i r' hr
        cases h
        rw [List.mem_cons, ih hr]
        constructor
        · rintro (rfl | ⟨x, hx, hf⟩)
          · exact ⟨a, by simp, hz⟩
          · exact ⟨x, by simp [hx], hf⟩
        · rintro ⟨x, hx, hf⟩
          rcases List.mem_cons.1 hx with rfl | hx
          · rw [hz] at hf; cases hf; exact Or.inl rfl
          · exact Or.inr ⟨x, hx, hf⟩

theorem allSome_isSome {α β : Type} {f : α → Option β} {l : List α} (h : ∀ x ∈ l, ∃ y, f x = some y) : ∃ r, allSome f l = some r := by
  induction l with
  | nil => exact ⟨[], rfl⟩
  | cons a l ih =>
    obtain ⟨y, hy⟩ := h a (by simp)
    obtain ⟨r, hr⟩ := ih (fun x hx => h x (by simp [hx]))
    exact ⟨y :: r, by simp [allSome, hy, hr]⟩

section
variable {α : Type} [SLT α] [DecidableEq α]

theorem insertAll_fold (set upd : List α) (b : Bool) :
    (upd.foldl (fun st x => (OSet.insert x st.1, st.2 || decide (x ∉ st.1))) (set, b)).1 = OSet.union set upd ∧
    ((upd.foldl (fun (st : List α × Bool) x => (OSet.insert x st.1, st.2 || decide (x ∉ st.1))) (set, b)).2 = true ↔
      b = true ∨ ∃ x ∈ upd, x ∉ set) := by
  induction upd generalizing set b with
  | nil => simp [OSet.union]
  | cons a upd ih =>
    rw [List.foldl_cons]
    obtain ⟨h1, h2⟩ := ih (OSet.insert a set) (b || decide (a ∉ set))
    refine ⟨by rw [h1]; rfl, ?_⟩
    rw [h2]
    simp only [Bool.or_eq_true, decide_eq_true_eq, List.mem_cons, OSet.mem_insert, not_or]
    constructor
    · rintro ((h | h) | ⟨x, hx, h3, h4⟩)
      · exact Or.inl h
      · exact Or.inr ⟨a, Or.inl rfl, h⟩
      · exact Or.inr ⟨x, Or.inr hx, h4⟩
    · rintro (h | ⟨x, rfl | hx, h4⟩)
      · exact Or.inl (Or.inl h)
      · exact Or.inl (Or.inr h4)
      · by_cases hxa : x = a
        · subst hxa; exact Or.inl (Or.inr h4)
        · exact Or.inr ⟨x, hx, hxa, h4⟩

theorem insertAll_fst (set upd : List α) : (insertAll set upd).1 = OSet.union set upd := (insertAll_fold set upd false).1

theorem insertAll_snd (set upd : List α) : (insertAll set upd).2 = true ↔ ∃ x ∈ upd, x ∉ set := by
  have := (insertAll_fold set upd false).2
  simpa [insertAll] using this

end

end Verif.Par
