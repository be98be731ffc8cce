/-!
# Ordered sets

Model of the standard library's `BTreeSet` (and of `HashSet` where only membership matters) as a strictly
sorted list.  Equality of such sets is equality of lists, as the lemma `OSet.ext` shows.
Code modelled: every use of `BTreeSet` in `parser/src/parser.rs`, `tokenizer/src/dfa.rs`, `tokenizer/src/nfa.rs`.
-/

namespace Verif

/-- A strict total order given by a computable test (models `Ord`). -/
class SLT (α : Type) where
  lt : α → α → Bool
  irrefl : ∀ a, lt a a = false
  trans : ∀ {a b c}, lt a b = true → lt b c = true → lt a c = true
  tri : ∀ {a b}, lt a b = false → lt b a = false → a = b

instance : SLT Nat where
  lt a b := decide (a < b)
  irrefl := by simp
  trans := by simp; omega
  tri := by simp; omega

namespace OSet
variable {α : Type} [SLT α]

/-- `BTreeSet::insert`: keeps the list strictly sorted, an element already present is kept. -/
def insert (x : α) : List α → List α
  | [] => [x]
  | y :: ys => if SLT.lt x y then x :: y :: ys else if SLT.lt y x then y :: insert x ys else y :: ys

/-- `BTreeSet::append` / repeated `insert`. -/
def union (s t : List α) : List α := t.foldl (fun s x => insert x s) s

/-- `collect::<BTreeSet<_>>()`. -/
def ofList (t : List α) : List α := union [] t

/-- Strictly sorted. -/
def Sorted (s : List α) : Prop := s.Pairwise (fun a b => SLT.lt a b = true)

@[simp] theorem mem_insert {x y : α} {s : List α} : y ∈ insert x s ↔ y = x ∨ y ∈ s := by
  induction s with
  | nil => simp [insert]
  | cons z zs ih =>
    unfold insert
    split
    · simp
    · split
      · simp [ih]; constructor <;> (rintro (h | h | h) <;> simp_all)
      · rename_i h1 h2
        have := SLT.tri (by simpa using h1) (by simpa using h2)
        subst this; simp

theorem sorted_insert {x : α} {s : List α} (h : Sorted s) : Sorted (insert x s) := by
  induction s with
  | nil => simp [insert, Sorted]
  | cons z zs ih =>
    unfold Sorted at h ih ⊢
    rw [List.pairwise_cons] at h
    unfold insert
    split
    · rename_i h1
      rw [List.pairwise_cons, List.pairwise_cons]
      refine ⟨?_, h.1, h.2⟩
      intro a ha
      rcases List.mem_cons.1 ha with rfl | ha
      · exact h1
      · exact SLT.trans h1 (h.1 a ha)
    · split
      · rename_i h1 h2
        rw [List.pairwise_cons]
        refine ⟨?_, ih h.2⟩
        intro a ha
        rcases mem_insert.1 ha with rfl | ha
        · exact h2
        · exact h.1 a ha
      · exact List.pairwise_cons.2 h

@[simp] theorem mem_union {y : α} {s t : List α} : y ∈ union s t ↔ y ∈ s ∨ y ∈ t := by
  unfold union
  induction t generalizing s with
  | nil => simp
  | cons z zs ih =>
    rw [List.foldl_cons, ih, mem_insert, List.mem_cons]
    constructor
    · rintro ((h | h) | h) <;> simp [h]
    · rintro (h | h | h) <;> simp [h]

theorem sorted_union {s t : List α} (h : Sorted s) : Sorted (union s t) := by
  unfold union
  induction t generalizing s with
  | nil => simpa
  | cons z zs ih => exact ih (sorted_insert h)

theorem sorted_nil : Sorted ([] : List α) := List.Pairwise.nil

@[simp] theorem mem_ofList {y : α} {t : List α} : y ∈ ofList t ↔ y ∈ t := by simp [ofList]

theorem sorted_ofList {t : List α} : Sorted (ofList t) := sorted_union sorted_nil

theorem Sorted.nodup {s : List α} (h : Sorted s) : s.Nodup := by
  refine List.Pairwise.imp ?_ h
  intro a b hab e
  subst e
  simp [SLT.irrefl] at hab

/-- Extensionality: two ordered sets with the same members are the same list. -/
theorem ext {s t : List α} (hs : Sorted s) (ht : Sorted t) (h : ∀ x, x ∈ s ↔ x ∈ t) : s = t := by
  induction s generalizing t with
  | nil =>
    cases t with
    | nil => rfl
    | cons b t => exact absurd ((h b).2 (by simp)) (by simp)
  | cons a s ih =>
    cases t with
    | nil => exact absurd ((h a).1 (by simp)) (by simp)
    | cons b t =>
      have hs' := List.pairwise_cons.1 hs
      have ht' := List.pairwise_cons.1 ht
      have hab : a = b := by
        rcases List.mem_cons.1 ((h a).1 (by simp)) with e | ha
        · exact e
        · rcases List.mem_cons.1 ((h b).2 (by simp)) with e | hb
          · exact e.symm
          · have h1 := ht'.1 a ha
            have h2 := hs'.1 b hb
            have := SLT.trans h1 h2
            simp [SLT.irrefl] at this
      subst hab
      congr 1
      refine ih hs'.2 ht'.2 ?_
      intro x
      constructor
      · intro hx
        rcases List.mem_cons.1 ((h x).1 (List.mem_cons_of_mem _ hx)) with e | hx'
        · subst e
          have := hs'.1 x hx
          simp [SLT.irrefl] at this
        · exact hx'
      · intro hx
        rcases List.mem_cons.1 ((h x).2 (List.mem_cons_of_mem _ hx)) with e | hx'
        · subst e
          have := ht'.1 x hx
          simp [SLT.irrefl] at this
        · exact hx'

theorem insert_of_mem {x : α} {s : List α} (hs : Sorted s) (h : x ∈ s) : insert x s = s :=
  ext (sorted_insert hs) hs (by intro y; simp; intro e; subst e; exact h)

theorem union_of_subset {s t : List α} (hs : Sorted s) (h : ∀ x ∈ t, x ∈ s) : union s t = s :=
  ext (sorted_union hs) hs (by intro y; simp; exact h y)

theorem length_insert_of_not_mem {x : α} {s : List α} (h : x ∉ s) : (insert x s).length = s.length + 1 := by
  induction s with
  | nil => rfl
  | cons z zs ih =>
    unfold insert
    split
    · simp
    · split
      · simp [ih (fun h' => h (List.mem_cons_of_mem _ h'))]
      · rename_i h1 h2
        have := SLT.tri (by simpa using h1) (by simpa using h2)
        subst this; simp at h

theorem length_le_insert {x : α} {s : List α} : s.length ≤ (insert x s).length := by
  induction s with
  | nil => simp [insert]
  | cons z zs ih =>
    unfold insert
    split
    · simp
    · split
      · simp [ih]
      · simp

end OSet

/-- A duplicate-free list inside another list is not longer. -/
theorem length_le_of_nodup_subset {α : Type} {s t : List α} (hs : s.Nodup) (h : ∀ x ∈ s, x ∈ t) :
    s.length ≤ t.length := by
  induction s generalizing t with
  | nil => simp
  | cons a s ih =>
    have hs' := List.nodup_cons.1 hs
    obtain ⟨l1, l2, rfl⟩ := List.append_of_mem (h a (by simp))
    have : s.length ≤ (l1 ++ l2).length := by
      apply ih hs'.2
      intro x hx
      have := h x (List.mem_cons_of_mem _ hx)
      simp at this ⊢
      rcases this with h1 | rfl | h1
      · exact Or.inl h1
      · exact absurd hx hs'.1
      · exact Or.inr h1
    simp at this ⊢
    omega

end Verif
