import Verif.Par.StmtMain

/-!
# Every input falls into chunks, in one way, and every list of chunks has an evaluation
-/

namespace Verif.Par

variable {N T E : Type} {S : Stmts N T E} {idx : T → Nat}

theorem Stmts.item_exists (S : Stmts N T E) (idx : T → Nat) (c : Chunk T) : ∃ k gen, S.ItemCall idx c k gen := by
  by_cases h : c.2 = [] → ∀ b ∈ S.bodies, b.1 ≠ c.1.1.map idx
  · exact ⟨_, _, .bad c h⟩
  · obtain ⟨hc, hb⟩ := Classical.not_imp.1 h
    obtain ⟨s, tail⟩ := c
    simp only at hc
    subst hc
    have hex : ∃ (j : Nat), ∃ b, S.bodies[j]? = some b ∧ b.1 = s.1.map idx := by
      apply Classical.byContradiction
      intro hn
      refine hb fun b hb1 hb2 => hn ?_
      obtain ⟨j, hj⟩ := List.mem_iff_getElem?.1 hb1
      exact ⟨j, b, hj, hb2⟩
    have hmin : ∀ (n j : Nat), j ≤ n → (∃ b, S.bodies[j]? = some b ∧ b.1 = s.1.map idx) →
        ∃ (j : Nat) (b : _), S.bodies[j]? = some b ∧ b.1 = s.1.map idx ∧ ∀ (j' : Nat) b', S.bodies[j']? = some b' → b'.1 = s.1.map idx → j ≤ j' := by
      intro n
      induction n with
      | zero =>
        intro j hj ⟨b, h1, h2⟩
        exact ⟨j, b, h1, h2, fun j' _ _ _ => by omega⟩
      | succ n ih =>
        intro j hj ⟨b, h1, h2⟩
        by_cases hk : ∃ (k : Nat), k < j ∧ ∃ b, S.bodies[k]? = some b ∧ b.1 = s.1.map idx
        · obtain ⟨k, hk1, hk2⟩ := hk
          exact ih k (by omega) hk2
        · refine ⟨j, b, h1, h2, fun j' b' h3 h4 => ?_⟩
          apply Classical.byContradiction
          intro hlt
          exact hk ⟨j', by omega, b', h3, h4⟩
    obtain ⟨j, hj⟩ := hex
    obtain ⟨j, b, h1, h2, h3⟩ := hmin j j (Nat.le_refl _) hj
    exact ⟨_, _, .stmt s j b h1 h2 h3⟩

theorem Stmts.eval_exists (S : Stmts N T E) (idx : T → Nat) (v : Option N) (cs : List (Chunk T)) : ∃ l r, S.Eval idx v cs l r := by
  induction cs generalizing v with
  | nil => exact ⟨_, _, .nil v⟩
  | cons c cs ih =>
    obtain ⟨k, gen, hk⟩ := S.item_exists idx c
    cases hw : gen k.2 with
    | error x => exact ⟨_, _, .item v c cs k gen x hk hw⟩
    | ok i =>
      cases hv : (S.listCall i v).2 (S.listCall i v).1.2 with
      | error x => exact ⟨_, _, .list v c cs k gen i x hk hw hv⟩
      | ok v' =>
        obtain ⟨l, r, h⟩ := ih (some v')
        exact ⟨_, _, .cons v c cs k gen i v' l r hk hw hv h⟩

theorem Stmts.Chunked.nil {rest : List T} (h : ∀ t ∈ rest, idx t ≠ S.sync) : S.Chunked idx rest [] rest :=
  ⟨rfl, h, by simp, by simp, by simp⟩

/-- One segment more at the front. -/
theorem Stmts.Chunked.push {input : List T} {cs : List (Chunk T)} {rest : List T} (h : S.Chunked idx input cs rest) (s : Segm T)
    (h1 : idx s.2 = S.sync) (h2 : ∀ t ∈ s.1, idx t ≠ S.sync) : ∃ cs', S.Chunked idx (s.1 ++ [s.2] ++ input) cs' rest := by
  cases cs with
  | nil =>
    refine ⟨[(s, [])], ?_, h.rest, ?_, by simp, by simp⟩
    · rw [h.text]; simp [Chunk.text, textOf]
    · simpa using ⟨h1, h2⟩
  | cons c cs =>
    by_cases hst : ∀ t, (c.1.1 ++ [c.1.2]).head? = some t → S.Starts idx t
    · refine ⟨(s, []) :: c :: cs, ?_, h.rest, ?_, ?_, ?_⟩
      · rw [h.text]; simp [Chunk.text, textOf]
      · intro c' hc'
        rcases List.mem_cons.1 hc' with rfl | hc'
        · simpa using ⟨h1, h2⟩
        · exact h.seps c' hc'
      · intro c' hc'
        rcases List.mem_cons.1 hc' with rfl | hc'
        · simp
        · exact h.joined c' hc'
      · intro c' hc'
        simp only [List.tail_cons] at hc'
        rcases List.mem_cons.1 hc' with rfl | hc'
        · exact hst
        · exact h.apart c' hc'
    · refine ⟨(s, c.1 :: c.2) :: cs, ?_, h.rest, ?_, ?_, ?_⟩
      · rw [h.text]; simp [Chunk.text, textOf]
      · intro c' hc'
        rcases List.mem_cons.1 hc' with rfl | hc'
        · intro s' hs'
          rcases List.mem_cons.1 hs' with rfl | hs'
          · exact ⟨h1, h2⟩
          · exact h.seps c (by simp) s' hs'
        · exact h.seps c' (List.mem_cons_of_mem _ hc')
      · intro c' hc'
        rcases List.mem_cons.1 hc' with rfl | hc'
        · intro s' hs' t ht
          rcases List.mem_cons.1 hs' with rfl | hs'
          · intro hst'
            refine hst fun t' ht' => ?_
            rw [ht] at ht'
            cases ht'
            exact hst'
          · exact h.joined c (by simp) s' hs' t ht
        · exact h.joined c' (List.mem_cons_of_mem _ hc')
      · exact h.apart

/-- Tokens before the first separator, the separator, the rest. -/
theorem split_sync (S : Stmts N T E) (idx : T → Nat) (l : List T) :
    (∀ t ∈ l, idx t ≠ S.sync) ∨ ∃ u s l', l = u ++ [s] ++ l' ∧ idx s = S.sync ∧ ∀ t ∈ u, idx t ≠ S.sync := by
  induction l with
  | nil => exact .inl (by simp)
  | cons t l ih =>
    by_cases ht : idx t = S.sync
    · exact .inr ⟨[], t, l, by simp, ht, by simp⟩
    · rcases ih with ih | ⟨u, s, l', rfl, h1, h2⟩
      · left
        intro t' ht'
        rcases List.mem_cons.1 ht' with rfl | ht'
        · exact ht
        · exact ih t' ht'
      · refine .inr ⟨t :: u, s, l', by simp, h1, ?_⟩
        intro t' ht'
        rcases List.mem_cons.1 ht' with rfl | ht'
        · exact ht
        · exact h2 t' ht'

theorem Stmts.chunked_exists (S : Stmts N T E) (idx : T → Nat) (input : List T) : ∃ cs rest, S.Chunked idx input cs rest := by
  suffices h : ∀ n (input : List T), input.length ≤ n → ∃ cs rest, S.Chunked idx input cs rest from h _ input (Nat.le_refl _)
  intro n
  induction n with
  | zero =>
    intro input h
    cases input with
    | nil => exact ⟨[], [], .nil (by simp)⟩
    | cons => simp at h
  | succ n ih =>
    intro input h
    rcases split_sync S idx input with h1 | ⟨u, s, l', rfl, h1, h2⟩
    · exact ⟨[], input, .nil h1⟩
    · obtain ⟨cs, rest, hc⟩ := ih l' (by simp at h; omega)
      obtain ⟨cs', hc'⟩ := hc.push (u, s) h1 h2
      exact ⟨cs', rest, hc'⟩

/-- The segments of a text are determined. -/
theorem segs_unique {S : Stmts N T E} {rest rest' : List T} :
    ∀ {l l' : List (Segm T)}, textOf l ++ rest = textOf l' ++ rest' →
    (∀ s ∈ l, idx s.2 = S.sync ∧ ∀ t ∈ s.1, idx t ≠ S.sync) → (∀ s ∈ l', idx s.2 = S.sync ∧ ∀ t ∈ s.1, idx t ≠ S.sync) →
    (∀ t ∈ rest, idx t ≠ S.sync) → (∀ t ∈ rest', idx t ≠ S.sync) → l = l' ∧ rest = rest' := by
  have hcut : ∀ (u u' : List T) (s s' : T) (x x' : List T), u ++ s :: x = u' ++ s' :: x' → idx s = S.sync → idx s' = S.sync →
      (∀ t ∈ u, idx t ≠ S.sync) → (∀ t ∈ u', idx t ≠ S.sync) → u = u' ∧ s = s' ∧ x = x' := by
    intro u
    induction u with
    | nil =>
      intro u' s s' x x' h h1 h2 h3 h4
      cases u' with
      | nil => simpa using h
      | cons a u' =>
        simp at h
        exact absurd (h.1 ▸ h1) (h4 a (by simp))
    | cons a u ih =>
      intro u' s s' x x' h h1 h2 h3 h4
      cases u' with
      | nil =>
        simp at h
        exact absurd (h.1 ▸ h2) (h3 a (by simp))
      | cons a' u' =>
        simp at h
        obtain ⟨rfl, h⟩ := h
        obtain ⟨rfl, rfl, rfl⟩ := ih u' s s' x x' h h1 h2 (fun t ht => h3 t (by simp [ht])) (fun t ht => h4 t (by simp [ht]))
        exact ⟨rfl, rfl, rfl⟩
  intro l
  induction l with
  | nil =>
    intro l' h h1 h2 h3 h4
    cases l' with
    | nil => simpa [textOf] using h
    | cons s' l' =>
      have hm : s'.2 ∈ rest := by
        have : rest = textOf (s' :: l') ++ rest' := by simpa [textOf] using h
        rw [this]; simp [textOf]
      exact absurd (h2 s' (by simp)).1 (h3 _ hm)
  | cons s l ih =>
    intro l' h h1 h2 h3 h4
    cases l' with
    | nil =>
      have hm : s.2 ∈ rest' := by
        have : textOf (s :: l) ++ rest = rest' := by simpa [textOf] using h
        rw [← this]; simp [textOf]
      exact absurd (h1 s (by simp)).1 (h4 _ hm)
    | cons s' l' =>
      have h' : s.1 ++ s.2 :: (textOf l ++ rest) = s'.1 ++ s'.2 :: (textOf l' ++ rest') := by simpa [textOf] using h
      obtain ⟨e1, e2, e3⟩ := hcut _ _ _ _ _ _ h' (h1 s (by simp)).1 (h2 s' (by simp)).1 (h1 s (by simp)).2 (h2 s' (by simp)).2
      obtain ⟨rfl, rfl⟩ := ih e3 (fun s hs => h1 s (by simp [hs])) (fun s hs => h2 s (by simp [hs])) h3 h4
      obtain ⟨s1, s2⟩ := s
      obtain ⟨s1', s2'⟩ := s'
      simp only at e1 e2
      subst e1 e2
      exact ⟨rfl, rfl⟩

/-- The chunks of segments are determined. -/
theorem chunks_unique {P : Segm T → Prop} : ∀ {cs cs' : List (Chunk T)},
    cs.flatMap (fun c => c.1 :: c.2) = cs'.flatMap (fun c => c.1 :: c.2) →
    (∀ c ∈ cs, ∀ s ∈ c.2, ¬ P s) → (∀ c ∈ cs', ∀ s ∈ c.2, ¬ P s) → (∀ c ∈ cs.tail, P c.1) → (∀ c ∈ cs'.tail, P c.1) → cs = cs' := by
  have hcut : ∀ (u u' : List (Segm T)) (cs cs' : List (Chunk T)),
      u ++ cs.flatMap (fun c => c.1 :: c.2) = u' ++ cs'.flatMap (fun c => c.1 :: c.2) →
      (∀ s ∈ u, ¬ P s) → (∀ s ∈ u', ¬ P s) → (∀ c ∈ cs, P c.1) → (∀ c ∈ cs', P c.1) →
      u = u' ∧ cs.flatMap (fun c => c.1 :: c.2) = cs'.flatMap (fun c => c.1 :: c.2) := by
    intro u
    induction u with
    | nil =>
      intro u' cs cs' h h1 h2 h3 h4
      cases u' with
      | nil => exact ⟨rfl, by simpa using h⟩
      | cons a u' =>
        cases cs with
        | nil => simp at h
        | cons c cs =>
          simp at h
          exact absurd (h3 c (by simp)) (h.1 ▸ h2 a (by simp))
    | cons a u ih =>
      intro u' cs cs' h h1 h2 h3 h4
      cases u' with
      | nil =>
        cases cs' with
        | nil => simp at h
        | cons c cs' =>
          simp at h
          exact absurd (h4 c (by simp)) (h.1 ▸ h1 a (by simp))
      | cons a' u' =>
        simp only [List.cons_append, List.cons.injEq] at h
        obtain ⟨rfl, h⟩ := h
        obtain ⟨e, h5⟩ := ih u' cs cs' h (fun t ht => h1 t (by simp [ht])) (fun t ht => h2 t (by simp [ht])) h3 h4
        exact ⟨by rw [e], h5⟩
  intro cs
  induction cs with
  | nil =>
    intro cs' h _ _ _ _
    cases cs' with
    | nil => rfl
    | cons => simp at h
  | cons c cs ih =>
    intro cs' h h1 h2 h3 h4
    cases cs' with
    | nil => simp at h
    | cons c' cs' =>
      simp only [List.flatMap_cons, List.cons_append, List.cons.injEq] at h
      obtain ⟨e, h⟩ := h
      obtain ⟨e2, h⟩ := hcut _ _ cs cs' h (h1 c (by simp)) (h2 c' (by simp)) h3 h4
      have := ih h (fun c hc => h1 c (by simp [hc])) (fun c hc => h2 c (by simp [hc])) (fun c hc => h3 c (List.mem_of_mem_tail hc))
        (fun c hc => h4 c (List.mem_of_mem_tail hc))
      rw [this, show c = c' from Prod.ext e e2]

theorem flatMap_text (cs : List (Chunk T)) : cs.flatMap Chunk.text = textOf (cs.flatMap fun c => c.1 :: c.2) := by
  induction cs with
  | nil => rfl
  | cons c cs ih => simp [ih, Chunk.text, textOf]

theorem Stmts.Chunked.unique {input : List T} {cs cs' : List (Chunk T)} {rest rest' : List T} (h : S.Chunked idx input cs rest)
    (h' : S.Chunked idx input cs' rest') : cs = cs' ∧ rest = rest' := by
  have hh := h.text.symm.trans h'.text
  rw [flatMap_text, flatMap_text] at hh
  obtain ⟨e1, e2⟩ := segs_unique hh (by
      intro s hs
      obtain ⟨c, hc, hs⟩ := List.mem_flatMap.1 hs
      exact h.seps c hc s hs) (by
      intro s hs
      obtain ⟨c, hc, hs⟩ := List.mem_flatMap.1 hs
      exact h'.seps c hc s hs) h.rest h'.rest
  refine ⟨chunks_unique (P := fun s => ∀ t, (s.1 ++ [s.2]).head? = some t → S.Starts idx t) e1 ?_ ?_ h.apart h'.apart, e2⟩
  · intro c hc s hs hP
    obtain ⟨t, ht⟩ : ∃ t, (s.1 ++ [s.2]).head? = some t := by rcases s with ⟨_ | _, _⟩ <;> exact ⟨_, rfl⟩
    exact h.joined c hc s hs t ht (hP t ht)
  · intro c hc s hs hP
    obtain ⟨t, ht⟩ : ∃ t, (s.1 ++ [s.2]).head? = some t := by rcases s with ⟨_ | _, _⟩ <;> exact ⟨_, rfl⟩
    exact h'.joined c hc s hs t ht (hP t ht)

/-- Two texts, the first of which ends with a separator or is empty, the second of which begins with something that can begin a
statement or is empty. -/
theorem Stmts.Chunked.append {x y : List T} {cs cs' : List (Chunk T)} {rest : List T} (h : S.Chunked idx x cs [])
    (h' : S.Chunked idx y cs' rest) (hy : ∀ t, y.head? = some t → S.Starts idx t) : S.Chunked idx (x ++ y) (cs ++ cs') rest := by
  refine ⟨?_, h'.rest, ?_, ?_, ?_⟩
  · rw [h.text, h'.text]; simp
  · intro c hc
    rcases List.mem_append.1 hc with hc | hc
    · exact h.seps c hc
    · exact h'.seps c hc
  · intro c hc
    rcases List.mem_append.1 hc with hc | hc
    · exact h.joined c hc
    · exact h'.joined c hc
  · intro c hc
    have hfirst : ∀ c ∈ cs', ∀ t, (c.1.1 ++ [c.1.2]).head? = some t → S.Starts idx t := by
      intro c hc
      cases cs' with
      | nil => cases hc
      | cons c' cs' =>
        rcases List.mem_cons.1 hc with rfl | hc
        · intro t ht
          refine hy t ?_
          rw [h'.text]
          obtain ⟨⟨toks, semi⟩, tail⟩ := c
          cases toks <;> simpa [Chunk.text, textOf] using ht
        · exact h'.apart c hc
    cases cs with
    | nil => exact hfirst c (List.mem_of_mem_tail (by simpa using hc))
    | cons c0 cs =>
      simp only [List.cons_append, List.tail_cons] at hc
      rcases List.mem_append.1 hc with hc | hc
      · exact h.apart c hc
      · exact hfirst c hc

end Verif.Par
