import Verif.Par.ActProof
import Verif.Par.LrSpec

/-!
# The tables made from the states
-/

namespace Verif.Par

/-! ## `calc_table` -/

theorem calcTable_spec {R : List PRule} {s : Nat} {sl : List (State × Goto)} (hn : (sl.map Prod.fst).Nodup)
    (hs : ∀ x ∈ sl, ∃ y, reduceActs R s x.1 x.1 (shiftActs x.2, []) = some y) :
    ∃ at' gt ws, calcTable R s sl = some (at', gt, ws) ∧ at'.map Prod.fst = sl.map Prod.fst ∧
      (∀ x ∈ sl, ∃ a ws1, reduceActs R s x.1 x.1 (shiftActs x.2, []) = some (a, ws1) ∧ get x.1 at' = some a ∧ ∀ w ∈ ws1, w ∈ ws) ∧
      (∀ x ∈ sl, get x.1 gt = if (gotoActs x.2).isEmpty then none else some (gotoActs x.2)) ∧
      (∀ x ∈ gt, ∃ y ∈ sl, x = (y.1, gotoActs y.2)) ∧
      (∀ x ∈ at', ∃ y ∈ sl, ∃ ws1, x.1 = y.1 ∧ reduceActs R s y.1 y.1 (shiftActs y.2, []) = some (x.2, ws1)) ∧
      (∀ w ∈ ws, ∃ x ∈ sl, ∃ a ws1, reduceActs R s x.1 x.1 (shiftActs x.2, []) = some (a, ws1) ∧ w ∈ ws1) := by
  induction sl with
  | nil => exact ⟨[], [], [], rfl, rfl, by simp, by simp, by simp, by simp, by simp⟩
  | cons x sl ih =>
    obtain ⟨S, g⟩ := x
    rw [List.map_cons, List.nodup_cons] at hn
    obtain ⟨at', gt, ws, h1, h2, h3, h4, h5, h7, h6⟩ := ih hn.2 (fun x hx => hs x (by simp [hx]))
    obtain ⟨⟨a, ws1⟩, ha⟩ := hs (S, g) (by simp)
    have hne : ∀ x ∈ sl, S ≠ x.1 := by
      rintro x hx rfl
      exact hn.1 (List.mem_map.2 ⟨x, hx, rfl⟩)
    refine ⟨(S, a) :: at', if (gotoActs g).isEmpty then gt else (S, gotoActs g) :: gt, ws1 ++ ws, ?_, by simp [h2], ?_, ?_, ?_, ?_, ?_⟩
    · simp only [calcTable, ha, h1]
    · intro x hx
      rcases List.mem_cons.1 hx with rfl | hx
      · exact ⟨a, ws1, ha, by simp [get], fun w hw => by simp [hw]⟩
      · obtain ⟨a', ws2, k1, k2, k3⟩ := h3 x hx
        refine ⟨a', ws2, k1, ?_, fun w hw => by simp [k3 w hw]⟩
        simp [get, hne x hx, k2]
    · intro x hx
      have hgS : get S gt = none := by
        cases hg : get S gt with
        | none => rfl
        | some v =>
          obtain ⟨y, hy, he⟩ := h5 _ (get_mem hg)
          simp at he
          exact absurd he.1 (hne y hy)
      rcases List.mem_cons.1 hx with rfl | hx
      · by_cases he : (gotoActs g).isEmpty = true
        · simp only [he, if_true]; exact hgS
        · rw [if_neg he, if_neg he]; simp [get]
      · by_cases he : (gotoActs g).isEmpty = true
        · rw [if_pos he]; exact h4 x hx
        · rw [if_neg he]; simp only [get, if_neg (hne x hx)]; exact h4 x hx
    · intro x hx
      split at hx
      · obtain ⟨y, hy, he⟩ := h5 x hx; exact ⟨y, by simp [hy], he⟩
      · rcases List.mem_cons.1 hx with rfl | hx
        · exact ⟨(S, g), by simp, rfl⟩
        · obtain ⟨y, hy, he⟩ := h5 x hx; exact ⟨y, by simp [hy], he⟩
    · intro x hx
      rcases List.mem_cons.1 hx with rfl | hx
      · exact ⟨(S, g), by simp, ws1, rfl, ha⟩
      · obtain ⟨y, hy, ws2, he⟩ := h7 x hx; exact ⟨y, by simp [hy], ws2, he⟩
    · intro w hw
      rcases List.mem_append.1 hw with hw | hw
      · exact ⟨(S, g), by simp, a, ws1, ha, hw⟩
      · obtain ⟨x, hx, h⟩ := h6 w hw; exact ⟨x, by simp [hx], h⟩

/-! ## Numbering -/

theorem idxOf_inj {l : List State} {a b : State} (ha : a ∈ l) (hb : b ∈ l) (h : l.idxOf a = l.idxOf b) : a = b := by
  have h1 := List.getElem_idxOf (List.idxOf_lt_length_of_mem ha)
  have h2 := List.getElem_idxOf (List.idxOf_lt_length_of_mem hb)
  rw [← h1, ← h2]
  simp only [h]

theorem idxOf_getElem? {l : List State} (hn : l.Nodup) {k : Nat} {a : State} (h : l[k]? = some a) : l.idxOf a = k := by
  induction l generalizing k with
  | nil => simp at h
  | cons b l ih =>
    rw [List.nodup_cons] at hn
    cases k with
    | zero => simp at h; subst h; simp
    | succ k =>
      simp at h
      have hne : b ≠ a := by rintro rfl; exact hn.1 (List.mem_of_getElem? h)
      rw [List.idxOf_cons, ih hn.2 h]
      have : (b == a) = false := by simpa using hne
      simp [this]

theorem indexOf_some {keys : List State} {S : State} {k : Nat} : indexOf keys S = some k ↔ S ∈ keys ∧ k = keys.idxOf S := by
  unfold indexOf
  split
  · rename_i h; simp [h, eq_comm]
  · rename_i h; simp [h]

theorem get_renumber {β γ : Type} {keys : List State} {f : State × β → Option (Nat × γ)} {l : List (State × β)} {r : List (Nat × γ)}
    (hf : ∀ x y, f x = some y → x.1 ∈ keys ∧ y.1 = keys.idxOf x.1) (h : allSome f l = some r) {S : State} (hS : S ∈ keys) :
    (get S l = none → get (keys.idxOf S) r = none) ∧
    (∀ v, get S l = some v → ∃ w, f (S, v) = some (keys.idxOf S, w) ∧ get (keys.idxOf S) r = some w) := by
  induction l generalizing r with
  | nil => cases h; simp [get]
  | cons x l ih =>
    unfold allSome at h
    split at h
    · cases h
    · rename_i y hy
      split at h
      · cases h
      · rename_i r' hr
        cases h
        obtain ⟨h1, h2⟩ := hf x y hy
        obtain ⟨i1, i2⟩ := ih hr
        obtain ⟨S', v'⟩ := x
        obtain ⟨k, w'⟩ := y
        simp only at h1 h2
        subst h2
        by_cases he : S' = S
        · subst he
          simp only [get, if_true, reduceCtorEq, false_implies, Option.some.injEq, true_and]
          rintro v rfl
          exact ⟨w', hy, rfl⟩
        · have : ¬ keys.idxOf S' = keys.idxOf S := fun h => he (idxOf_inj h1 hS h)
          simp only [get, if_neg he, if_neg this]
          exact ⟨i1, i2⟩

theorem get_mapAct {keys : List State} {l : List (Term × Action State)} {r : List (Term × Action Nat)}
    (h : allSome (fun ta => (numberAction keys ta.2).map fun a => (ta.1, a)) l = some r) (t : Term) :
    (get t l = none → get t r = none) ∧ (∀ v, get t l = some v → ∃ w, numberAction keys v = some w ∧ get t r = some w) := by
  induction l generalizing r with
  | nil => cases h; simp [get]
  | cons x l ih =>
    unfold allSome at h
    split at h
    · cases h
    · rename_i y hy
      split at h
      · cases h
      · rename_i r' hr
        cases h
        obtain ⟨u, v⟩ := x
        simp only [Option.map_eq_some_iff] at hy
        obtain ⟨w, hw, rfl⟩ := hy
        obtain ⟨i1, i2⟩ := ih hr
        simp only [get]
        by_cases he : u = t
        · simp only [if_pos he, reduceCtorEq, false_implies, Option.some.injEq, true_and]
          rintro v' rfl
          exact ⟨w, hw, rfl⟩
        · simp only [if_neg he]
          exact ⟨i1, i2⟩

theorem get_mapGoto {keys : List State} {l : List (Nat × State)} {r : List (Nat × Nat)}
    (h : allSome (fun ns => (indexOf keys ns.2).map fun j => (ns.1, j)) l = some r) (n : Nat) :
    (get n l = none → get n r = none) ∧ (∀ S, get n l = some S → S ∈ keys ∧ get n r = some (keys.idxOf S)) := by
  induction l generalizing r with
  | nil => cases h; simp [get]
  | cons x l ih =>
    unfold allSome at h
    split at h
    · cases h
    · rename_i y hy
      split at h
      · cases h
      · rename_i r' hr
        cases h
        obtain ⟨u, v⟩ := x
        simp only [Option.map_eq_some_iff] at hy
        obtain ⟨w, hw, rfl⟩ := hy
        obtain ⟨hk, rfl⟩ := indexOf_some.1 hw
        obtain ⟨i1, i2⟩ := ih hr
        simp only [get]
        by_cases he : u = n
        · simp only [if_pos he, reduceCtorEq, false_implies, Option.some.injEq, true_and]
          rintro v' rfl
          exact ⟨hk, rfl⟩
        · simp only [if_neg he]
          exact ⟨i1, i2⟩

/-! ## Error rules -/

theorem errorRulesOf_spec {R : List PRule} {S : List Item} (h : ∀ i ∈ S, ∃ r, R[i.rule]? = some r) :
    ∃ es, errorRulesOf R S = some es ∧ ∀ r, r ∈ es ↔ ∃ i ∈ S, ∃ rule, i.rule = r ∧ R[r]? = some rule ∧ rule.rhs[i.pos]? = some (.tm .err) := by
  induction S with
  | nil => exact ⟨[], rfl, by simp⟩
  | cons i S ih =>
    obtain ⟨es, h1, h2⟩ := ih (fun j hj => h j (by simp [hj]))
    obtain ⟨r, hr⟩ := h i (by simp)
    refine ⟨if r.rhs[i.pos]? = some (.tm .err) then i.rule :: es else es, by simp [errorRulesOf, hr, h1], ?_⟩
    intro k
    have key : (k = i.rule ∧ r.rhs[i.pos]? = some (.tm .err)) ↔
        ∃ rule, i.rule = k ∧ R[k]? = some rule ∧ rule.rhs[i.pos]? = some (.tm .err) := by
      constructor
      · rintro ⟨rfl, he⟩; exact ⟨r, rfl, hr, he⟩
      · rintro ⟨rule, rfl, h3, h4⟩
        rw [hr] at h3; cases h3
        exact ⟨rfl, h4⟩
    simp only [List.mem_cons, exists_eq_or_imp]
    rw [← key, ← h2]
    split
    · rename_i he; simp [he]
    · rename_i he; simp [he]

theorem errorRules_spec {R : List PRule} {keys : List State} (n : Nat) (h : ∀ S ∈ keys, ∀ i ∈ S, ∃ r, R[i.rule]? = some r) :
    ∃ e, errorRules R n keys = some e ∧
      (∀ k S, keys[k]? = some S → ∃ es, errorRulesOf R S = some es ∧ get (n + k) e = if es.isEmpty then none else some es) ∧
      (∀ x ∈ e, n ≤ x.1 ∧ x.2 ≠ []) := by
  induction keys generalizing n with
  | nil => exact ⟨[], rfl, by simp, by simp⟩
  | cons S keys ih =>
    obtain ⟨e, h1, h2, h3⟩ := ih (n + 1) (fun S' hS' => h S' (by simp [hS']))
    obtain ⟨es, g1, _⟩ := errorRulesOf_spec (h S (by simp))
    refine ⟨if es.isEmpty then e else (n, es) :: e, by simp [errorRules, h1, g1], ?_, ?_⟩
    · intro k S' hk
      cases k with
      | zero =>
        simp at hk; subst hk
        refine ⟨es, g1, ?_⟩
        by_cases he : es.isEmpty = true
        · rw [if_pos he, if_pos he]
          cases hg : get (n + 0) e with
          | none => rfl
          | some v => have := (h3 _ (get_mem hg)).1; simp at this; omega
        · rw [if_neg he, if_neg he]; simp [get]
      | succ k =>
        obtain ⟨es', k1, k2⟩ := h2 k S' (by simpa using hk)
        refine ⟨es', k1, ?_⟩
        have hk' : n + (k + 1) = n + 1 + k := by omega
        rw [hk']
        split
        · exact k2
        · have : ¬ n = n + 1 + k := by omega
          simp only [get, if_neg this]
          exact k2
    · intro x hx
      split at hx
      · obtain ⟨a, b⟩ := h3 x hx; exact ⟨by omega, b⟩
      · rename_i he
        rcases List.mem_cons.1 hx with rfl | hx
        · exact ⟨Nat.le_refl _, by simpa using he⟩
        · obtain ⟨a, b⟩ := h3 x hx; exact ⟨by omega, b⟩

/-! ## The collection -/

/-- All states with their gotos. -/
structure Coll (R : List PRule) (s : Nat) (start : State) (sl : List (State × Goto)) : Prop where
  nodup : (sl.map Prod.fst).Nodup
  reach : ∀ x ∈ sl, ∃ γ, Is R s γ x.1
  start_is : Is R s [] start
  start_mem : start ∈ sl.map Prod.fst
  gnodup : ∀ x ∈ sl, (x.2.map Prod.fst).Nodup
  gnone : ∀ x ∈ sl, ∀ γ, Is R s γ x.1 → ∀ X, get X x.2 = none ↔ ∀ i, Valid R s γ i → ∀ j, ¬ Moves R X i j
  gsome : ∀ x ∈ sl, ∀ γ, Is R s γ x.1 → ∀ X S', get X x.2 = some S' → Is R s (γ ++ [X]) S'
  gclosed : ∀ x ∈ sl, ∀ X S', get X x.2 = some S' → S' ∈ sl.map Prod.fst
  full : ∀ x ∈ sl, x.1 ≠ []

theorem allGoto_coll {R : List PRule} {s : Nat} {r0 : PRule} (hs : R[s]? = some r0) {null : List Sym} {first : First}
    (hn : NullExact R null) (hf : FirstExact R first) {o : Seeds} (ho : o.Fair) {fuel : Nat} {start : State}
    (hstart : Is R s [] start) :
    (∀ sl, allGoto o R null first fuel start = .ok sl → Coll R s start sl) ∧
    (allGoto o R null first fuel start = .panic → Bad R s) := by
  have hinv : AllInv R s null first fuel start [start] [] :=
    ⟨by simp, by simp, by simpa using ⟨[], hstart⟩, by simp, by simp, by simp, by simp, by
      have h0 := (hstart.mem ⟨s, 0, .eoi⟩).2 .start
      intro S hS
      simp at hS
      subst hS
      exact List.ne_nil_of_mem h0⟩
  obtain ⟨h1, h2⟩ := allLoop_spec (f := fuel) hs hn hf ho hinv
  refine ⟨?_, h2⟩
  intro sl hsl
  have hi := h1 sl hsl
  refine ⟨hi.nodup, hi.reach, hstart, by simpa using hi.start, ?_, ?_, ?_, ?_, hi.full⟩
  · intro x hx
    obtain ⟨γ, hγ⟩ := hi.reach x hx
    exact ((calcGoto_spec hs hn hf hγ).1 _ (hi.goto x hx)).1
  · intro x hx γ hγ
    exact ((calcGoto_spec hs hn hf hγ).1 _ (hi.goto x hx)).2.1
  · intro x hx γ hγ
    exact ((calcGoto_spec hs hn hf hγ).1 _ (hi.goto x hx)).2.2
  · intro x hx X S' hg
    have := hi.closed x hx (X, S') (get_mem hg)
    simpa using this

end Verif.Par
