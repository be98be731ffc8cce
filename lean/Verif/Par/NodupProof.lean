import Verif.Par.NewProof

/-!
# The tables have distinct keys
-/

namespace Verif.Par

/-- The tables stand for hash maps: no key occurs twice. -/
structure Tables.Keys (T : Tables) : Prop where
  action : (T.action.map Prod.fst).Nodup
  row : ∀ x ∈ T.action, (x.2.map Prod.fst).Nodup
  goto : (T.goto.map Prod.fst).Nodup
  gotoRow : ∀ x ∈ T.goto, (x.2.map Prod.fst).Nodup
  errors : (T.errors.map Prod.fst).Nodup

theorem allSome_nodup {α β κ κ' : Type} {f : α → Option β} {l : List α} {r : List β} (k : α → κ) (k' : β → κ')
    (hf : ∀ x y x' y', f x = some y → f x' = some y' → k' y = k' y' → k x = k x') (h : allSome f l = some r)
    (hn : (l.map k).Nodup) : (r.map k').Nodup := by
  induction l generalizing r with
  | nil => cases h; simp
  | cons a l ih =>
    unfold allSome at h
    split at h
    · cases h
    · rename_i y hy
      split at h
      · cases h
      · rename_i r' hr
        cases h
        rw [List.map_cons, List.nodup_cons] at hn ⊢
        refine ⟨?_, ih hr hn.2⟩
        intro hm
        rw [List.mem_map] at hm
        obtain ⟨y', hy', he⟩ := hm
        obtain ⟨x', hx', hf'⟩ := (allSome_mem hr y').1 hy'
        exact hn.1 (List.mem_map.2 ⟨x', hx', hf x' y' a y hf' hy he⟩)

theorem put_nodup {κ β : Type} [DecidableEq κ] {k : κ} {v : β} {m : List (κ × β)} (h : (m.map Prod.fst).Nodup) :
    ((put k v m).map Prod.fst).Nodup := entry_nodup h

theorem shiftActs_nodup (g : Goto) : ((shiftActs g).map Prod.fst).Nodup := by
  unfold shiftActs
  have : ∀ m : List (Term × Action State), (m.map Prod.fst).Nodup → ((g.foldl (fun m (X, s) => match X with
    | .tm t => put t (.shift s) m
    | .nt _ => m) m).map Prod.fst).Nodup := by
    induction g with
    | nil => exact fun m h => h
    | cons x g ih =>
      intro m h
      rw [List.foldl_cons]
      apply ih
      obtain ⟨X, s⟩ := x
      cases X with
      | nt n => exact h
      | tm t => exact put_nodup h
  exact this [] (by simp)

theorem gotoActs_nodup (g : Goto) : ((gotoActs g).map Prod.fst).Nodup := by
  unfold gotoActs
  have : ∀ m : List (Nat × State), (m.map Prod.fst).Nodup → ((g.foldl (fun m (X, s) => match X with
    | .nt n => put n s m
    | .tm _ => m) m).map Prod.fst).Nodup := by
    induction g with
    | nil => exact fun m h => h
    | cons x g ih =>
      intro m h
      rw [List.foldl_cons]
      apply ih
      obtain ⟨X, s⟩ := x
      cases X with
      | tm n => exact h
      | nt t => exact put_nodup h
  exact this [] (by simp)

theorem reduceActs_nodup {R : List PRule} {s : Nat} {state : State} {l : List Item} {a b : Acts} (h : reduceActs R s state l a = some b)
    (hn : (a.1.map Prod.fst).Nodup) : (b.1.map Prod.fst).Nodup := by
  induction l generalizing a with
  | nil => cases h; exact hn
  | cons i l ih =>
    unfold reduceActs at h
    split at h
    · cases h
    · split at h
      · split at h
        · exact ih h (put_nodup hn)
        · split at h
          · exact ih h (put_nodup hn)
          · exact ih h hn
          · exact ih h hn
          · cases h
      · exact ih h hn

theorem calcTable_keys {R : List PRule} {s : Nat} {sl : List (State × Goto)} {at' gt ws} (h : calcTable R s sl = some (at', gt, ws)) :
    at'.map Prod.fst = sl.map Prod.fst ∧ (gt.map Prod.fst).Sublist (sl.map Prod.fst) ∧ (∀ x ∈ at', (x.2.map Prod.fst).Nodup) ∧
    ∀ x ∈ gt, (x.2.map Prod.fst).Nodup := by
  induction sl generalizing at' gt ws with
  | nil => cases h; simp
  | cons x sl ih =>
    obtain ⟨S, g⟩ := x
    unfold calcTable at h
    split at h
    · cases h
    · rename_i a ws1 h1
      split at h
      · cases h
      · rename_i at1 gt1 ws2 h2
        cases h
        obtain ⟨k1, k2, k3, k4⟩ := ih h2
        refine ⟨by simp [k1], ?_, ?_, ?_⟩
        · split
          · exact List.Sublist.cons _ k2
          · exact List.Sublist.cons_cons S k2
        · intro y hy
          rcases List.mem_cons.1 hy with rfl | hy
          · exact reduceActs_nodup h1 (shiftActs_nodup g)
          · exact k3 y hy
        · intro y hy
          split at hy
          · exact k4 y hy
          · rcases List.mem_cons.1 hy with rfl | hy
            · exact gotoActs_nodup g
            · exact k4 y hy

theorem allLoop_nodup {o : Seeds} {R : List PRule} {null : List Sym} {first : First} {fuel f : Nat} {q : List State}
    {sl r : List (State × Goto)} (h : allLoop o R null first fuel f q sl = .ok r) (hn : (sl.map Prod.fst).Nodup) : (r.map Prod.fst).Nodup := by
  induction f generalizing q sl with
  | zero =>
    cases q with
    | nil => cases h; exact hn
    | cons => cases h
  | succ f ih =>
    cases q with
    | nil => cases h; exact hn
    | cons s q =>
      unfold allLoop at h
      split at h
      · exact ih h hn
      · rename_i hc
        split at h
        · cases h
        · cases h
        · refine ih h ?_
          rw [List.map_append, List.nodup_append]
          refine ⟨hn, by simp, ?_⟩
          intro a ha b hb
          simp at hb
          subst hb
          rintro rfl
          exact hc (by simpa using ha)

theorem errorRules_keys {R : List PRule} {n : Nat} {l : List State} {r : List (Nat × List Nat)} (h : errorRules R n l = some r) :
    (r.map Prod.fst).Nodup ∧ ∀ x ∈ r, n ≤ x.1 := by
  induction l generalizing n r with
  | nil => cases h; simp
  | cons s l ih =>
    unfold errorRules at h
    split at h
    · rename_i es r' h1 h2
      obtain ⟨k1, k2⟩ := ih h2
      cases h
      split
      · exact ⟨k1, fun x hx => by have := k2 x hx; omega⟩
      · refine ⟨?_, ?_⟩
        · rw [List.map_cons, List.nodup_cons]
          refine ⟨?_, k1⟩
          intro hm
          obtain ⟨x, hx, he⟩ := List.mem_map.1 hm
          have := k2 x hx
          simp only at he
          omega
        · intro x hx
          rcases List.mem_cons.1 hx with rfl | hx
          · exact Nat.le_refl _
          · have := k2 x hx; omega
    · cases h

theorem newTables_keys {fuel : Nat} {o : Seeds} (ho : o.Fair) {g : Gram} {T : Tables} {ws : List Warning} (h : newTables fuel o g = .ok (T, ws)) : T.Keys := by
  unfold newTables at h
  simp only at h
  split at h
  · cases h
  · cases h
  · split at h
    · cases h
    · cases h
    · split at h
      · cases h
      · cases h
      · split at h
        · cases h
        · cases h
        · rename_i sl hsl
          have hn : (sl.map Prod.fst).Nodup := allLoop_nodup hsl (by simp)
          split at h
          · cases h
          · rename_i r hfin
            cases h
            unfold finish at hfin
            simp only at hfin
            split at hfin
            · cases hfin
            · rename_i at' gt ws' hct
              have htn : ((o.tableOrd sl).map Prod.fst).Nodup := (List.Perm.nodup_iff ((ho.tableOrd sl).map Prod.fst)).2 hn
              obtain ⟨k1, k2, k3, k4⟩ := calcTable_keys hct
              split at hfin
              · rename_i a g' e s ha hg he hs
                cases hfin
                refine ⟨?_, ?_, ?_, ?_, (errorRules_keys he).1⟩
                · refine allSome_nodup Prod.fst Prod.fst ?_ ha (by rw [k1]; exact htn)
                  intro x y x' y' hx hx' hy
                  simp only [numberActions, Option.bind_eq_some_iff, Option.map_eq_some_iff] at hx hx'
                  obtain ⟨i, hi, l, _, rfl⟩ := hx
                  obtain ⟨i', hi', l', _, rfl⟩ := hx'
                  simp only at hy
                  subst hy
                  rw [indexOf_some] at hi hi'
                  exact idxOf_inj hi.1 hi'.1 (hi.2.symm.trans hi'.2)
                · intro y hy
                  obtain ⟨x, hx, hxy⟩ := (allSome_mem ha y).1 hy
                  simp only [numberActions, Option.bind_eq_some_iff, Option.map_eq_some_iff] at hxy
                  obtain ⟨i, hi, l, hl, rfl⟩ := hxy
                  refine allSome_nodup Prod.fst Prod.fst ?_ hl (k3 x hx)
                  intro u v u' v' h1 h2 h3
                  simp only [Option.map_eq_some_iff] at h1 h2
                  obtain ⟨_, _, rfl⟩ := h1
                  obtain ⟨_, _, rfl⟩ := h2
                  exact h3
                · refine allSome_nodup Prod.fst Prod.fst ?_ hg (k2.nodup htn)
                  intro x y x' y' hx hx' hy
                  simp only [numberGotos, Option.bind_eq_some_iff, Option.map_eq_some_iff] at hx hx'
                  obtain ⟨i, hi, l, _, rfl⟩ := hx
                  obtain ⟨i', hi', l', _, rfl⟩ := hx'
                  simp only at hy
                  subst hy
                  rw [indexOf_some] at hi hi'
                  exact idxOf_inj hi.1 hi'.1 (hi.2.symm.trans hi'.2)
                · intro y hy
                  obtain ⟨x, hx, hxy⟩ := (allSome_mem hg y).1 hy
                  simp only [numberGotos, Option.bind_eq_some_iff, Option.map_eq_some_iff] at hxy
                  obtain ⟨i, hi, l, hl, rfl⟩ := hxy
                  refine allSome_nodup Prod.fst Prod.fst ?_ hl (k4 x hx)
                  intro u v u' v' h1 h2 h3
                  simp only [Option.map_eq_some_iff] at h1 h2
                  obtain ⟨_, _, rfl⟩ := h1
                  obtain ⟨_, _, rfl⟩ := h2
                  exact h3
              · cases hfin

end Verif.Par
