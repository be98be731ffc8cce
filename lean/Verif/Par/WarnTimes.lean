import Verif.Par.NewProof

/-!
# How often a warning is given

`OneEach` (LrSpec.lean): one warning for each state, look-ahead and rule that loses.
-/

namespace Verif.Par

/-! ## One state -/

/-- What is reported for the item `i` of the state `S`. -/
def loses (R : List PRule) (s : Nat) (S : State) (g : Goto) (i : Item) : Option (State × Term × Nat × Warning) :=
  if redOn R s i.la i then
    match get (.tm i.la) g with
    | some S' => some (S, i.la, i.rule, .shiftReduce S S' i.rule)
    | none =>
      match firstRed R s i.la S with
      | some r' => if r' = i.rule then none else some (S, i.la, i.rule, .reduceReduce S r' i.rule)
      | none => none
  else none

theorem redOn_la {R : List PRule} {s : Nat} {a : Term} {i : Item} (h : redOn R s a i = true) : i.la = a := by
  simp only [redOn, Bool.and_eq_true, decide_eq_true_eq] at h
  exact h.2

theorem redOn_inj {R : List PRule} {s : Nat} {a : Term} {i j : Item} (hi : redOn R s a i = true) (hj : redOn R s a j = true)
    (h : i.rule = j.rule) : i = j := by
  simp only [redOn, Bool.and_eq_true, decide_eq_true_eq] at hi hj
  obtain ⟨r, a1, a2⟩ := isComp_iff.1 hi.1.1
  obtain ⟨r', b1, b2⟩ := isComp_iff.1 hj.1.1
  rw [h, b1] at a1
  cases a1
  obtain ⟨i1, i2, i3⟩ := i
  obtain ⟨j1, j2, j3⟩ := j
  simp only at h a2 b2 hi hj
  rw [h, a2, b2, hi.2, hj.2]

theorem reduceActs_loses {R : List PRule} {s : Nat} {S : State} {g : Goto} (hn : S.Nodup)
    (hord : S.Pairwise fun i j => i.rule ≤ j.rule) (hmax : ∀ i ∈ S, i.rule ≤ s) {pre l : List Item}
    (hS : S = pre ++ l) {acts acts' : List (Term × Action State)} {ws ws' : List Warning}
    (hacts : (∀ i ∈ l, i.rule = s) ∨ ∀ a, get a acts = ((get (.tm a) g).map .shift).or ((firstRed R s a pre).map .reduce))
    (h : reduceActs R s S l (acts, ws) = some (acts', ws')) :
    ws' = ws ++ (l.filterMap (loses R s S g)).map fun x => x.2.2.2 := by
  induction l generalizing pre acts ws with
  | nil => cases h; simp
  | cons i l ih =>
    have hS' : S = (pre ++ [i]) ++ l := by rw [hS]; simp
    have hmem : i ∈ S := by rw [hS]; simp
    have hord' := hord
    rw [hS] at hord'
    have hp := List.pairwise_cons.1 (List.pairwise_append.1 hord').2.1
    unfold reduceActs at h
    split at h
    · cases h
    · rename_i r hr
      simp only at h
      have skip : (∀ a, redOn R s a i = false) → (i :: l).filterMap (loses R s S g) = l.filterMap (loses R s S g) := by
        intro hred
        rw [List.filterMap_cons, show loses R s S g i = none by simp [loses, hred]]
      have fr : ∀ a, redOn R s a i = false → firstRed R s a (pre ++ [i]) = firstRed R s a pre := by
        intro a ha
        rw [firstRed_append]
        simp [firstRed, ha]
      split at h
      · rename_i hpos
        have hcomp : isComp R i = true := by simp [isComp, hr, hpos]
        split at h
        · rename_i hst
          rw [skip (by intro a; simp [redOn, hst])]
          exact ih hS' (.inl fun j hj => Nat.le_antisymm (hmax j (by rw [hS]; simp [hj])) (hst ▸ hp.1 j hj)) h
        · rename_i hst
          rcases hacts with hacts | hacts
          · exact absurd (hacts i (by simp)) hst
          have hredi : redOn R s i.la i = true := by simp [redOn, hcomp, hst]
          have hreda : ∀ a, a ≠ i.la → redOn R s a i = false := by
            intro a ha; simp [redOn, hcomp, hst]; exact fun h => ha h.symm
          have hget := hacts i.la
          have frS : firstRed R s i.la S = (firstRed R s i.la pre).or (some i.rule) := by
            rw [hS, firstRed_append]
            simp [firstRed, hredi]
          split at h
          · rename_i hg0
            rw [hg0] at hget
            cases hgt : get (.tm i.la) g with
            | some S' => rw [hgt] at hget; simp at hget
            | none =>
              rw [hgt] at hget
              have hnone : firstRed R s i.la pre = none := by simpa using hget.symm
              have hl : loses R s S g i = none := by
                rw [hnone] at frS
                simp [loses, hredi, hgt, frS]
              rw [List.filterMap_cons, hl]
              refine ih hS' (.inr fun a => ?_) h
              rw [get_put]
              by_cases ha : a = i.la
              · subst ha
                rw [if_pos rfl, hgt, firstRed_append, hnone]
                simp [firstRed, hredi]
              · rw [if_neg ha, hacts, fr a (hreda a ha)]
          · rename_i S' hg0
            rw [hg0] at hget
            have hgt : get (.tm i.la) g = some S' := by
              cases hgt : get (.tm i.la) g with
              | some S'' => rw [hgt] at hget; simp at hget; rw [hget]
              | none => rw [hgt] at hget; cases hf : firstRed R s i.la pre <;> rw [hf] at hget <;> simp at hget
            have hl : loses R s S g i = some (S, i.la, i.rule, .shiftReduce S S' i.rule) := by simp [loses, hredi, hgt]
            rw [List.filterMap_cons, hl]
            have := ih hS' (.inr fun a => by
              by_cases ha : a = i.la
              · subst ha; rw [hg0, hgt]; simp
              · rw [hacts, fr a (hreda a ha)]) h
            rw [this]; simp
          · rename_i r' hg0
            rw [hg0] at hget
            have hgt : get (.tm i.la) g = none := by
              cases hgt : get (.tm i.la) g with
              | some S'' => rw [hgt] at hget; simp at hget
              | none => rfl
            rw [hgt] at hget
            have hsome : firstRed R s i.la pre = some r' := by
              cases hf : firstRed R s i.la pre with
              | none => rw [hf] at hget; simp at hget
              | some r'' => rw [hf] at hget; simp at hget; rw [hget]
            have hne : ¬ r' = i.rule := by
              rintro rfl
              obtain ⟨⟨j, hj, hj1, hj2⟩, _⟩ := (firstRed_some (List.pairwise_append.1 hord').1).1 hsome
              have := redOn_inj hj1 hredi hj2
              subst this
              rw [hS, List.nodup_append] at hn
              exact hn.2.2 j hj j (by simp) rfl
            have hl : loses R s S g i = some (S, i.la, i.rule, .reduceReduce S r' i.rule) := by
              rw [hsome] at frS
              simp [loses, hredi, hgt, frS, hne]
            rw [List.filterMap_cons, hl]
            have := ih hS' (.inr fun a => by
              by_cases ha : a = i.la
              · subst ha; rw [hg0, hgt, firstRed_append, hsome]; simp
              · rw [hacts, fr a (hreda a ha)]) h
            rw [this]; simp
          · cases h
      · rename_i hpos
        have hcomp : isComp R i = false := by simp [isComp, hr]; exact fun h => hpos h.symm
        have hred : ∀ a, redOn R s a i = false := by intro a; simp [redOn, hcomp]
        rw [skip hred]
        refine ih hS' (hacts.imp (fun h j hj => h j (by simp [hj])) fun h a => ?_) h
        rw [h, fr a (hred a)]

/-- The triples named for one state are different. -/
theorem loses_nodup {R : List PRule} {s : Nat} {S : State} {g : Goto} (hn : S.Nodup) : (S.filterMap (loses R s S g)).Nodup := by
  refine List.Pairwise.filterMap _ ?_ hn
  intro i j hij x hx y hy hxy
  subst hxy
  unfold loses at hx hy
  split at hx
  · rename_i hi
    split at hy
    · rename_i hj
      have e1 : x.2.1 = i.la ∧ x.2.2.1 = i.rule := by
        split at hx
        · cases hx; exact ⟨rfl, rfl⟩
        · split at hx
          · split at hx
            · cases hx
            · cases hx; exact ⟨rfl, rfl⟩
          · cases hx
      have e2 : x.2.1 = j.la ∧ x.2.2.1 = j.rule := by
        split at hy
        · cases hy; exact ⟨rfl, rfl⟩
        · split at hy
          · split at hy
            · cases hy
            · cases hy; exact ⟨rfl, rfl⟩
          · cases hy
      refine hij (redOn_inj hi ?_ (e1.2.symm.trans e2.2))
      rw [← e1.1, e2.1]
      exact hj
    · cases hy
  · cases hx

theorem calcTable_loses {R : List PRule} {s : Nat} {sl : List (State × Goto)} {at' gt ws} (h : calcTable R s sl = some (at', gt, ws))
    (hsl : ∀ x ∈ sl, x.1.Nodup ∧ (x.2.map Prod.fst).Nodup ∧ (x.1.Pairwise fun i j => i.rule ≤ j.rule) ∧ ∀ i ∈ x.1, i.rule ≤ s) :
    ws = (sl.flatMap fun x => x.1.filterMap (loses R s x.1 x.2)).map fun x => x.2.2.2 := by
  induction sl generalizing at' gt ws with
  | nil => cases h; rfl
  | cons x l ih =>
    obtain ⟨S, g⟩ := x
    unfold calcTable at h
    split at h
    · cases h
    · rename_i a ws1 h1
      split at h
      · cases h
      · rename_i a2 g2 ws2 h2
        cases h
        obtain ⟨k1, k2, k3, k4⟩ := hsl _ (List.mem_cons_self)
        have e1 := reduceActs_loses (g := g) k1 k3 k4 (pre := []) rfl (.inr fun a => by
          rw [shiftActs_get k2]; simp [firstRed]) h1
        rw [ih h2 (fun x hx => hsl x (by simp [hx])), e1]
        simp [List.flatMap_cons]

theorem newTables_states {fuel : Nat} {o : Seeds} (ho : o.Fair) {g : Gram} {T : Tables} {ws : List Warning}
    (h : newTables fuel o g = .ok (T, ws)) :
    ∃ start sl, Coll g.rules' g.rules.length start sl ∧ finish o g.rules' g.rules.length start sl = some (T, ws) := by
  have hs := rules'_start g
  unfold newTables at h
  simp only at h
  rw [show g.aug (freshSym g.rules) = g.rules' from rfl] at h
  split at h
  · cases h
  · cases h
  · rename_i null hnull
    have hn := calcNull_exact hnull
    split at h
    · cases h
    · cases h
    · rename_i first hfirst
      have hf := calcFirst_exact hn hfirst
      split at h
      · cases h
      · cases h
      · rename_i start hcl
        have hK : ∀ i, Clo g.rules' (· ∈ [⟨g.rules.length, 0, .eoi⟩]) i ↔ Valid g.rules' g.rules.length [] i := by
          intro i
          rw [valid_nil]
          exact ⟨fun h => h.mono (by simp), fun h => h.mono (by simp)⟩
        obtain ⟨k1, k2, k3⟩ := (closure_spec hn hf).1 start hcl
        have hstart : Is g.rules' g.rules.length [] start := ⟨k3 (by simp [OSet.Sorted]), fun i => (k1 i).trans (hK i), k2⟩
        split at h
        · cases h
        · cases h
        · rename_i sl hsl
          split at h
          · cases h
          · rename_i r hfin
            cases h
            exact ⟨start, sl, (allGoto_coll hs hn hf ho hstart).1 sl hsl, hfin⟩

/-- What is reported for a state is what the specification says about it. -/
theorem loses_iff {R : List PRule} {s : Nat} {r0 : PRule} (hs : R[s]? = some r0) (hlen : R.length = s + 1) {start : State}
    {sl : List (State × Goto)} (hc : Coll R s start sl) {x : State × Goto} (hx : x ∈ sl) (a : Term) (r : Nat) (w : Warning) :
    (∃ i ∈ x.1, loses R s x.1 x.2 i = some (x.1, a, r, w)) ↔ Conflict R s x.1 a r w := by
  have same : ∀ γ, ItemsOf R s γ x.1 → Is R s γ x.1 := by
    intro γ h
    obtain ⟨γ', h'⟩ := hc.reach x hx
    exact ⟨h.1, h.2, h'.ok⟩
  constructor
  · rintro ⟨i, hi, h⟩
    obtain ⟨γ, hγ⟩ := hc.reach x hx
    have hord := (hγ.items hs hlen).2.1
    unfold loses at h
    split at h
    · rename_i hred
      obtain ⟨k1, k2⟩ := (redOn_iff hγ.mem).1 ⟨i, hi, hred, rfl⟩
      refine ⟨γ, ⟨hγ.sorted, hγ.mem⟩, ?_⟩
      split at h
      · rename_i S' hg
        cases h
        have hS := hc.gsome x hx γ hγ _ _ hg
        exact ⟨k1, k2, .inl ⟨S', (expects_iff hc hx hγ _).2 ⟨S', hg⟩, ⟨hS.sorted, hS.mem⟩, rfl⟩⟩
      · rename_i hg
        split at h
        · rename_i r' hfr
          split at h
          · cases h
          · rename_i hne
            cases h
            obtain ⟨m1, m2, m3⟩ := (firstRed_iff hγ.mem hord).1 hfr
            refine ⟨k1, k2, .inr ⟨?_, r', m1, Nat.lt_of_le_of_ne (m3 _ k1 k2) hne, m2, m3, rfl⟩⟩
            rw [expects_iff hc hx hγ]
            rintro ⟨S', hS'⟩
            rw [hg] at hS'
            cases hS'
        · cases h
    · cases h
  · rintro ⟨γ, hS, h1, h2, h3⟩
    have hγ := same γ hS
    have hord := (hγ.items hs hlen).2.1
    obtain ⟨i, hi, h4, rfl⟩ := (redOn_iff hγ.mem).2 ⟨h1, h2⟩
    obtain rfl := redOn_la h4
    refine ⟨i, hi, ?_⟩
    unfold loses
    rw [if_pos h4]
    rcases h3 with ⟨S', e1, e2, rfl⟩ | ⟨e1, r', m1, m2, m3, m4, rfl⟩
    · obtain ⟨S1, hS1⟩ := (expects_iff hc hx hγ _).1 e1
      have hS1' := hc.gsome x hx γ hγ _ _ hS1
      obtain rfl : S1 = S' := OSet.ext hS1'.sorted e2.1 (fun i => (hS1'.mem i).trans (e2.2 i).symm)
      rw [hS1]
    · rw [expects_iff hc hx hγ] at e1
      cases hg : get (.tm i.la) x.2 with
      | some S' => exact absurd ⟨S', hg⟩ e1
      | none =>
        simp only [(firstRed_iff hγ.mem hord).2 ⟨m1, m3, m4⟩]
        rw [if_neg (by omega)]

theorem loses_state {R : List PRule} {s : Nat} {S : State} {g : Goto} {i : Item} {y : State × Term × Nat × Warning}
    (h : loses R s S g i = some y) : y.1 = S := by
  unfold loses at h
  split at h
  · split at h
    · cases h; rfl
    · split at h
      · split at h
        · cases h
        · cases h; rfl
      · cases h
  · cases h

theorem new_one_each {fuel : Nat} {o : Seeds} (ho : o.Fair) {g : Gram} (hok : g.Ok) {T : Tables} {ws : List Warning}
    (h : newTables fuel o g = .ok (T, ws)) : OneEach g.rules' g.rules.length ws := by
  have hs := rules'_start g
  have hlen := rules'_length g
  have hok' := rules'_ok hok
  obtain ⟨start, sl, hc, hfin⟩ := newTables_states ho h
  generalize g.rules' = R at *
  generalize g.rules.length = s at *
  obtain ⟨T', ws', keys, f1, f2, f3, f4, f5, f6, f7, f8, f9⟩ := finish_spec hs hlen ho hc
  rw [f1] at hfin
  cases hfin
  have hperm := ho.tableOrd sl
  have hct : ∃ at' gt, calcTable R s (o.tableOrd sl) = some (at', gt, ws) := by
    unfold finish at f1
    simp only at f1
    split at f1
    · cases f1
    · rename_i a' g' w' hct
      split at f1
      · cases f1; exact ⟨_, _, hct⟩
      · cases f1
  obtain ⟨at', gt, hct⟩ := hct
  have hprop : ∀ x ∈ o.tableOrd sl, x.1.Nodup ∧ (x.2.map Prod.fst).Nodup ∧ (x.1.Pairwise fun i j => i.rule ≤ j.rule) ∧ ∀ i ∈ x.1, i.rule ≤ s := by
    intro x hx
    have hx := hperm.mem_iff.1 hx
    obtain ⟨γ, hγ⟩ := hc.reach x hx
    exact ⟨hγ.sorted.nodup, hc.gnodup x hx, (hγ.items hs hlen).2.1, (hγ.items hs hlen).2.2⟩
  refine ⟨(o.tableOrd sl).flatMap fun x => x.1.filterMap (loses R s x.1 x.2), ?_, ?_, calcTable_loses hct hprop⟩
  · have hn : ((o.tableOrd sl).map Prod.fst).Nodup := (List.Perm.nodup_iff (hperm.map Prod.fst)).2 hc.nodup
    rw [List.Nodup, List.pairwise_flatMap]
    refine ⟨fun x hx => loses_nodup (hprop x hx).1, ?_⟩
    rw [List.Nodup, List.pairwise_map] at hn
    refine hn.imp ?_
    intro x y hxy u hu v hv huv
    subst huv
    obtain ⟨i, _, hi⟩ := List.mem_filterMap.1 hu
    obtain ⟨j, _, hj⟩ := List.mem_filterMap.1 hv
    exact hxy ((loses_state hi).symm.trans (loses_state hj))
  · intro S a r w
    rw [List.mem_flatMap]
    constructor
    · rintro ⟨x, hx, hm⟩
      obtain ⟨i, hi, hl⟩ := List.mem_filterMap.1 hm
      have := loses_state hl
      simp only at this
      subst this
      exact (loses_iff hs hlen hc (hperm.mem_iff.1 hx) a r w).1 ⟨i, hi, hl⟩
    · intro hcon
      have hcon' := hcon
      obtain ⟨γ, hS, h1, ⟨rule, hr, hv⟩, _⟩ := hcon'
      obtain ⟨x, hx, hγ, _⟩ := is_walk hok' hc f4 f5 ⟨_, hv⟩
      obtain rfl : x.1 = S := OSet.ext hγ.sorted hS.1 (fun i => (hγ.mem i).trans (hS.2 i).symm)
      obtain ⟨i, hi, hl⟩ := (loses_iff hs hlen hc hx a r w).2 hcon
      exact ⟨x, hperm.mem_iff.2 hx, List.mem_filterMap.2 ⟨i, hi, hl⟩⟩

/-- The warning of a conflict is determined. -/
theorem Conflict.unique {R : List PRule} {s : Nat} {S : State} {a : Term} {r : Nat} {w w' : Warning} (h : Conflict R s S a r w)
    (h' : Conflict R s S a r w') : w = w' := by
  obtain ⟨γ, hS, h1, h2, h3⟩ := h
  obtain ⟨γ', hS', g1, g2, g3⟩ := h'
  have hv : ∀ i, Valid R s γ i ↔ Valid R s γ' i := fun i => (hS.2 i).symm.trans (hS'.2 i)
  have hcomp : ∀ r, Complete R s γ r a ↔ Complete R s γ' r a := fun r => by simp only [Complete, hv]
  have hexp : Expects R s γ (.tm a) ↔ Expects R s γ' (.tm a) := by simp only [Expects, hv]
  rcases h3 with ⟨S1, e1, e2, rfl⟩ | ⟨e1, r1, m1, m2, m3, m4, rfl⟩
  · rcases g3 with ⟨S2, k1, k2, rfl⟩ | ⟨k1, _⟩
    · congr 1
      refine OSet.ext e2.1 k2.1 (fun i => ?_)
      rw [e2.2, k2.2]
      rw [valid_snoc, valid_snoc]
      simp only [hv]
    · exact absurd (hexp.1 e1) k1
  · rcases g3 with ⟨S2, k1, k2, rfl⟩ | ⟨k1, r2, n1, n2, n3, n4, rfl⟩
    · exact absurd (hexp.2 k1) e1
    · congr 1
      exact Nat.le_antisymm (m4 r2 n1 ((hcomp r2).2 n3)) (n4 r1 m1 ((hcomp r1).1 m3))

/-- Two lists of warnings, each with one for each conflict, are the same up to order. -/
theorem OneEach.perm {R : List PRule} {s : Nat} {ws ws' : List Warning} (h : OneEach R s ws) (h' : OneEach R s ws') : ws.Perm ws' := by
  obtain ⟨L, h1, h2, rfl⟩ := h
  obtain ⟨L', h1', h2', rfl⟩ := h'
  refine List.Perm.map _ ?_
  rw [List.perm_ext_iff_of_nodup h1 h1']
  rintro ⟨S, a, r, w⟩
  rw [h2, h2']

end Verif.Par
