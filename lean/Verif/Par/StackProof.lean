import Verif.Par.TreeProof

/-!
# The invariant of the parse loop
-/

namespace Verif.Par

variable {N T E : Type}

/-- Position in the input of a symbol on the stack. -/
def SSym.index : SSym N → Option Nat
  | .nt _ i => some i
  | .tok _ i => some i
  | _ => none

/-- Tokens `lo..=hi`. -/
def slice (input : List T) (lo hi : Nat) : List T := (input.drop lo).take (hi + 1 - lo)

/-- Lower bounds for the position of anything to the right of a forest. -/
def marks (fs : List (Tree T)) : List Nat := (leaves fs).map (·.2 + 1) ++ (errs fs).map (·.1)

theorem mem_marks_append {fs gs : List (Tree T)} {m : Nat} : m ∈ marks (fs ++ gs) ↔ m ∈ marks fs ∨ m ∈ marks gs := by
  simp only [marks, leaves_append, errs_append, List.map_append, List.mem_append]
  constructor
  · rintro ((h | h) | (h | h)) <;> simp [h]
  · rintro ((h | h) | (h | h)) <;> simp [h]

theorem marks_leaves {fs : List (Tree T)} {j : Nat} (h : ∀ m ∈ marks fs, m ≤ j) : ∀ x ∈ leaves fs, x.2 < j := by
  intro x hx
  exact h (x.2 + 1) (List.mem_append_left _ (List.mem_map.2 ⟨x, hx, rfl⟩))

/-- One symbol on the stack stands for a tree. -/
inductive Elem (rules : List (Rule N T E)) (idx : T → Nat) (input : List T) :
    Sym → SSym N → Tree T → List (Call N T) → Arg N T → Prop
  | nt (n v i f lg) : Built (rules.map Rule.plain) idx input [.nt n] [f] → Evals rules [f] lg (.ok [.nt v]) →
      Elem rules idx input (.nt n) (.nt v i) f lg (.nt v)
  | tok (i t) : input[i]? = some t → Elem rules idx input (.tm (.sym (idx t))) (.tok (idx t) i) (.leaf i t) [] (.tok t)
  | err (lo hi) : lo ≤ hi →
      Elem rules idx input (.tm .err) (.err lo hi) (.err lo (slice input lo hi)) [] (.err (slice input lo hi))

/-- A list of symbols, bottom first, stands for a forest. -/
inductive Elems (rules : List (Rule N T E)) (idx : T → Nat) (input : List T) :
    List Sym → List (SSym N) → List (Tree T) → List (Call N T) → List (Arg N T) → Prop
  | nil : Elems rules idx input [] [] [] [] []
  | cons (X y f l a us ys fs lg as) : Elem rules idx input X y f l a → Elems rules idx input us ys fs lg as →
      Elems rules idx input (X :: us) (y :: ys) (f :: fs) (l ++ lg) (a :: as)

/-- A piece of the stack, top first, that leads from state `q0` to `q`; `L` are the marks below. -/
inductive Seg (p : Parser N T E) (rules : List (Rule N T E)) (idx : T → Nat) (input : List T) (q0 : Nat) (L : List Nat) :
    List (Nat × SSym N) → Nat → List Sym → List (Tree T) → List (Call N T) → List (Arg N T) → Prop
  | nil : Seg p rules idx input q0 L [] q0 [] [] [] []
  | push (st q us fs lg as X q' y f l a) : Seg p rules idx input q0 L st q us fs lg as → p.tab.goes q X = some q' →
      Elem rules idx input X y f l a → (∀ i, y.index = some i → ∀ m ∈ L ++ marks fs, m ≤ i) →
      Seg p rules idx input q0 L ((q, y) :: st) q' (us ++ [X]) (fs ++ [f]) (lg ++ l) (as ++ [a])

section
variable {p : Parser N T E} {rules : List (Rule N T E)} {idx : T → Nat} {input : List T}

theorem Elems.snoc {us ys fs lg as X y f l a} (h : Elems rules idx input us ys fs lg as) (he : Elem rules idx input X y f l a) :
    Elems rules idx input (us ++ [X]) (ys ++ [y]) (fs ++ [f]) (lg ++ l) (as ++ [a]) := by
  induction h with
  | nil => simpa using Elems.cons X y f l a [] [] [] [] [] he .nil
  | cons X' y' f' l' a' us ys fs lg as h1 _ ih =>
    have := Elems.cons _ _ _ _ _ _ _ _ _ _ h1 ih
    simpa using this

theorem Seg.elems {q0 L st q us fs lg as} (h : Seg p rules idx input q0 L st q us fs lg as) :
    Elems rules idx input us (st.reverse.map Prod.snd) fs lg as := by
  induction h with
  | nil => exact .nil
  | push st q us fs lg as X q' y f l a _ _ he _ ih => simpa using ih.snoc he

theorem Seg.length {q0 L st q us fs lg as} (h : Seg p rules idx input q0 L st q us fs lg as) : st.length = us.length := by
  induction h with
  | nil => rfl
  | push _ _ _ _ _ _ _ _ _ _ _ _ _ _ _ _ ih => simp [ih]

theorem Seg.walk {q0 L st q us fs lg as} (h : Seg p rules idx input q0 L st q us fs lg as) :
    p.tab.walkFrom q0 us = some q := by
  induction h with
  | nil => rfl
  | push st q us fs lg as X q' y f l a _ h2 _ _ ih =>
    rw [walkFrom_append, ih]
    simp [Tables.walkFrom, h2]

theorem Seg.split {q0 L st q us vs fs lg as} (h : Seg p rules idx input q0 L st q (us ++ vs) fs lg as) :
    ∃ st1 q1 fs1 lg1 as1 st2 fs2 lg2 as2, st = st2 ++ st1 ∧ fs = fs1 ++ fs2 ∧ lg = lg1 ++ lg2 ∧ as = as1 ++ as2 ∧
      Seg p rules idx input q0 L st1 q1 us fs1 lg1 as1 ∧ Seg p rules idx input q1 (L ++ marks fs1) st2 q vs fs2 lg2 as2 := by
  induction vs using snoc_induction generalizing st q fs lg as with
  | hnil =>
    simp at h
    exact ⟨st, q, fs, lg, as, [], [], [], [], by simp, by simp, by simp, by simp, h, .nil⟩
  | hsnoc vs X ih =>
    generalize hw : us ++ (vs ++ [X]) = w at h
    cases h with
    | nil => simp at hw
    | push st q us' fs lg as X' q' y f l a h1 h2 h3 h4 =>
      rw [← List.append_assoc] at hw
      have := List.append_inj' hw rfl
      obtain ⟨rfl, hx⟩ := this
      cases hx
      obtain ⟨st1, q1, fs1, lg1, as1, st2, fs2, lg2, as2, rfl, rfl, rfl, rfl, k1, k2⟩ := ih h1
      refine ⟨st1, q1, fs1, lg1, as1, (q, y) :: st2, fs2 ++ [f], lg2 ++ l, as2 ++ [a], by simp, by simp, by simp, by simp, k1, ?_⟩
      refine .push _ _ _ _ _ _ _ _ _ _ _ _ k2 h2 h3 ?_
      intro i hi x hx
      apply h4 i hi
      rw [List.mem_append, mem_marks_append]
      simpa [or_assoc] using hx

theorem firstIndex_or (d : Nat) (l : List (SSym N)) : firstIndex d l = d ∨ ∃ y ∈ l, y.index = some (firstIndex d l) := by
  induction l with
  | nil => exact Or.inl rfl
  | cons y l ih =>
    cases y with
    | nt v i => exact Or.inr ⟨_, List.mem_cons_self, rfl⟩
    | tok a i => exact Or.inr ⟨_, List.mem_cons_self, rfl⟩
    | err lo hi =>
      rcases ih with ih | ⟨y, h1, h2⟩
      · exact Or.inl ih
      · exact Or.inr ⟨y, List.mem_cons_of_mem _ h1, h2⟩
    | eoi i =>
      rcases ih with ih | ⟨y, h1, h2⟩
      · exact Or.inl ih
      · exact Or.inr ⟨y, List.mem_cons_of_mem _ h1, h2⟩

/-- Everything on a piece of stack lies to the right of the marks below. -/
theorem Seg.index {q0 L st q us fs lg as} (h : Seg p rules idx input q0 L st q us fs lg as) :
    ∀ e ∈ st, ∀ i, e.2.index = some i → ∀ x ∈ L, x ≤ i := by
  induction h with
  | nil => intro e he; cases he
  | push st q us fs lg as X q' y f l a _ _ _ h4 ih =>
    intro e he i hi x hx
    rcases List.mem_cons.1 he with rfl | he
    · exact h4 i hi x (List.mem_append_left _ hx)
    · exact ih e he i hi x hx

theorem Seg.firstIndex {q0 L st q us fs lg as} (h : Seg p rules idx input q0 L st q us fs lg as) (d : Nat)
    (hd : ∀ x ∈ L, x ≤ d) : ∀ x ∈ L, x ≤ firstIndex d (st.reverse.map Prod.snd) := by
  rcases firstIndex_or d (st.reverse.map Prod.snd) with h1 | ⟨y, h1, h2⟩
  · rw [h1]; exact hd
  · simp at h1
    obtain ⟨q', h1⟩ := h1
    exact fun x hx => h.index _ h1 _ h2 x hx

/-- The arguments of the callback. -/
theorem Elems.mkArgs {us ys fs lg as} (h : Elems rules idx input us ys fs lg as) {read src : List T}
    (hr : read ++ src = input) (k : Nat) (hk : ∀ x ∈ leaves fs, k ≤ x.2) (hi : (leaves fs).Pairwise (fun x y => x.2 < y.2))
    (hl : ∀ x ∈ leaves fs, x.2 < read.length) :
    ((∀ lo hi, SSym.err lo hi ∈ ys → hi < read.length) → mkArgs read k ys = some as) ∧
    (∀ args, mkArgs read k ys = some args → ∀ lo hi, SSym.err lo hi ∈ ys → hi < read.length) := by
  induction h generalizing k with
  | nil => exact ⟨fun _ => rfl, fun _ _ _ _ h => by cases h⟩
  | cons X y f l a us ys fs lg as he _ ih =>
    simp only [leaves, List.mem_append, List.pairwise_append] at hk hi hl
    cases he with
    | nt n v i f lg h1 h2 =>
      have ih := ih k (fun x hx => hk x (Or.inr hx)) hi.2.1 (fun x hx => hl x (Or.inr hx))
      constructor
      · intro hh
        simp only [Par.mkArgs]
        rw [ih.1 fun lo hi h => hh lo hi (List.mem_cons_of_mem _ h)]
        rfl
      · intro args ha lo hi hm
        simp only [Par.mkArgs, Option.map_eq_some_iff] at ha
        obtain ⟨args', ha, _⟩ := ha
        rcases List.mem_cons.1 hm with hm | hm
        · cases hm
        · exact ih.2 args' ha lo hi hm
    | tok i t h1 =>
      have hik := hk (t, i) (Or.inl (by simp [Tree.leaves]))
      have hir := hl (t, i) (Or.inl (by simp [Tree.leaves]))
      simp only at hik hir
      have hrd : read[i]? = some t := by
        rw [← hr, List.getElem?_append_left hir] at h1
        exact h1
      have ih := ih (i + 1) (fun x hx => hi.2.2 (t, i) (by simp [Tree.leaves]) x hx) hi.2.1 (fun x hx => hl x (Or.inr hx))
      have hnk : ¬ i < k := by omega
      constructor
      · intro hh
        simp only [Par.mkArgs, hnk, if_false, hrd]
        rw [ih.1 fun lo hi h => hh lo hi (List.mem_cons_of_mem _ h)]
        rfl
      · intro args ha lo hi hm
        simp only [Par.mkArgs, hnk, if_false, hrd, Option.map_eq_some_iff] at ha
        obtain ⟨args', ha, _⟩ := ha
        rcases List.mem_cons.1 hm with hm | hm
        · cases hm
        · exact ih.2 args' ha lo hi hm
    | err lo hi' h1 =>
      have ih := ih k (fun x hx => hk x (Or.inr hx)) hi.2.1 (fun x hx => hl x (Or.inr hx))
      constructor
      · intro hh
        have hlt := hh lo hi' List.mem_cons_self
        have : lo ≤ hi' + 1 ∧ hi' < read.length := ⟨by omega, hlt⟩
        simp only [Par.mkArgs, this, and_self, if_true]
        rw [ih.1 fun lo hi h => hh lo hi (List.mem_cons_of_mem _ h)]
        have hsl : slice input lo hi' = (read.drop lo).take (hi' + 1 - lo) := by
          unfold slice
          rw [← hr, List.drop_append_of_le_length (by omega), List.take_append_of_le_length (by simp; omega)]
        rw [hsl]
        rfl
      · intro args ha lo' hi'' hm
        simp only [Par.mkArgs] at ha
        split at ha
        · rename_i hc
          simp only [Option.map_eq_some_iff] at ha
          obtain ⟨args', ha, _⟩ := ha
          rcases List.mem_cons.1 hm with hm | hm
          · cases hm
            exact hc.2
          · exact ih.2 args' ha lo' hi'' hm
        · cases ha

theorem Elems.built {us ys fs lg as} (h : Elems rules idx input us ys fs lg as)
    (he : ∀ lo hi, SSym.err lo hi ∈ ys → hi < input.length) : Built (rules.map Rule.plain) idx input us fs := by
  induction h with
  | nil => exact .nil
  | cons X y f l a us ys fs lg as h1 _ ih =>
    have ih := ih fun lo hi h => he lo hi (List.mem_cons_of_mem _ h)
    cases h1 with
    | nt n v i f lg h1 h2 => exact Built.append h1 ih
    | tok i t h1 => exact .leaf _ _ _ _ h1 ih
    | err lo hi h1 =>
      have hlt := he lo hi List.mem_cons_self
      have hlen : (slice input lo hi).length = hi + 1 - lo := by
        unfold slice
        simp
        omega
      refine .err _ _ _ _ ?_ ?_ ih
      · intro hn
        rw [hn] at hlen
        simp at hlen
        omega
      · rw [hlen]; rfl

theorem Elems.evals {us ys fs lg as} (h : Elems rules idx input us ys fs lg as) : Evals rules fs lg (.ok as) := by
  induction h with
  | nil => exact .nil
  | cons X y f l a us ys fs lg as h1 _ ih =>
    cases h1 with
    | nt n v i f lg h1 h2 => exact Evals.append h2 ih
    | tok i t h1 => exact .leaf _ _ _ _ _ ih
    | err lo hi h1 => exact .err _ _ _ _ _ ih

/-- An error symbol on the stack is an error leaf. -/
theorem Elems.errs_ne {us ys fs lg as lo hi} (h : Elems rules idx input us ys fs lg as) (he : SSym.err lo hi ∈ ys) :
    errs fs ≠ [] := by
  induction h with
  | nil => cases he
  | cons X y f l a us ys fs lg as h1 _ ih =>
    simp only [errs]
    rcases List.mem_cons.1 he with he | he
    · subst he
      cases h1
      simp [Tree.errs]
    · simp [ih he]

end

end Verif.Par
