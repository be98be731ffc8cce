import Verif.Par.GotoProof

/-!
# The actions of one state
-/

namespace Verif.Par

/-- The dot is at the end. -/
def isComp (R : List PRule) (i : Item) : Bool := (R[i.rule]?.map fun r => r.rhs.length) == some i.pos

/-- A complete item that is not of the start rule and has look-ahead `a`. -/
def redOn (R : List PRule) (s : Nat) (a : Term) (i : Item) : Bool := isComp R i && decide (i.rule ≠ s) && decide (i.la = a)

/-- The rule of the first reducible item. -/
def firstRed (R : List PRule) (s : Nat) (a : Term) : List Item → Option Nat
  | [] => none
  | i :: l => if redOn R s a i then some i.rule else firstRed R s a l

/-- A complete item of the start rule. -/
def accOn (R : List PRule) (s : Nat) (i : Item) : Bool := isComp R i && decide (i.rule = s)

/-- What a warning reports. -/
def WarnOf (R : List PRule) (s : Nat) (state : State) (acts : List (Term × Action State)) (l : List Item) (w : Warning) : Prop :=
  ∃ l1 i l2, l = l1 ++ i :: l2 ∧ redOn R s i.la i = true ∧
    ((∃ S', get i.la acts = some (.shift S') ∧ w = .shiftReduce state S' i.rule) ∨
     ∃ r', (get i.la acts = some (.reduce r') ∨ (get i.la acts = none ∧ firstRed R s i.la l1 = some r')) ∧
       w = .reduceReduce state r' i.rule)

theorem firstRed_none {R : List PRule} {s : Nat} {a : Term} {l : List Item} : firstRed R s a l = none ↔ ∀ i ∈ l, redOn R s a i = false := by
  induction l with
  | nil => simp [firstRed]
  | cons i l ih =>
    unfold firstRed
    split
    · rename_i h; simp [h]
    · rename_i h; simp [ih]; intro _; simpa using h

theorem firstRed_some {R : List PRule} {s : Nat} {a : Term} {l : List Item} {r : Nat} (hord : l.Pairwise fun i j => i.rule ≤ j.rule) :
    firstRed R s a l = some r ↔ (∃ i ∈ l, redOn R s a i = true ∧ i.rule = r) ∧ ∀ i ∈ l, redOn R s a i = true → r ≤ i.rule := by
  induction l with
  | nil => simp [firstRed]
  | cons i l ih =>
    have hp := List.pairwise_cons.1 hord
    unfold firstRed
    split
    · rename_i h
      simp only [Option.some.injEq, List.mem_cons, exists_eq_or_imp, h, true_and, forall_eq_or_imp, true_implies]
      constructor
      · rintro rfl
        exact ⟨Or.inl rfl, Nat.le_refl _, fun j hj _ => hp.1 j hj⟩
      · rintro ⟨h1 | ⟨j, hj, _, rfl⟩, h2, h3⟩
        · exact h1
        · exact Nat.le_antisymm (hp.1 j hj) h2
    · rename_i h
      rw [ih hp.2]
      simp [h]

theorem firstRed_append {R : List PRule} {s : Nat} {a : Term} {l1 l2 : List Item} :
    firstRed R s a (l1 ++ l2) = (firstRed R s a l1).or (firstRed R s a l2) := by
  induction l1 with
  | nil => simp [firstRed]
  | cons i l ih =>
    simp only [List.cons_append, firstRed]
    split
    · simp
    · exact ih

theorem WarnOf.cons_skip {R : List PRule} {s : Nat} {state : State} {acts : List (Term × Action State)} {i : Item} {l : List Item}
    {w : Warning} (hi : ∀ a, redOn R s a i = false) : WarnOf R s state acts (i :: l) w ↔ WarnOf R s state acts l w := by
  have hf : ∀ a l1, firstRed R s a (i :: l1) = firstRed R s a l1 := by
    intro a l1; simp [firstRed, hi a]
  constructor
  · rintro ⟨l1, j, l2, he, h1, h2⟩
    cases l1 with
    | nil => simp at he; obtain ⟨rfl, rfl⟩ := he; rw [hi] at h1; cases h1
    | cons k l1 =>
      simp at he; obtain ⟨rfl, rfl⟩ := he
      rw [hf] at h2
      exact ⟨l1, j, l2, rfl, h1, h2⟩
  · rintro ⟨l1, j, l2, rfl, h1, h2⟩
    exact ⟨i :: l1, j, l2, rfl, h1, by rw [hf]; exact h2⟩

theorem reduceActs_spec {R : List PRule} {s : Nat} {state : State} {l : List Item} {acts : List (Term × Action State)} {ws : List Warning}
    (hl : ∀ i ∈ l, ∃ r, R[i.rule]? = some r) (hord : l.Pairwise fun i j => i.rule ≤ j.rule) (hmax : ∀ i ∈ l, i.rule ≤ s)
    (hacc : ∀ a, get a acts = some .accept → ∀ i ∈ l, i.rule = s) :
    ∃ acts' ws', reduceActs R s state l (acts, ws) = some (acts', ws') ∧
      (∀ a, get a acts' = if a = .eoi ∧ l.any (accOn R s) = true then some .accept
        else (get a acts).or ((firstRed R s a l).map .reduce)) ∧
      ∀ w, w ∈ ws' ↔ w ∈ ws ∨ WarnOf R s state acts l w := by
  induction l generalizing acts ws with
  | nil =>
    refine ⟨acts, ws, rfl, ?_, ?_⟩
    · intro a; simp [firstRed]
    · intro w
      have : ¬ WarnOf R s state acts [] w := by
        rintro ⟨l1, i, l2, h, _⟩; simp at h
      simp [this]
  | cons i l ih =>
    have hp := List.pairwise_cons.1 hord
    have hl' : ∀ i ∈ l, ∃ r, R[i.rule]? = some r := fun j hj => hl j (by simp [hj])
    have hmax' : ∀ i ∈ l, i.rule ≤ s := fun j hj => hmax j (by simp [hj])
    have hacc' : ∀ a, get a acts = some .accept → ∀ i ∈ l, i.rule = s := fun a ha j hj => hacc a ha j (by simp [hj])
    obtain ⟨r, hr⟩ := hl i (by simp)
    unfold reduceActs
    simp only [hr]
    by_cases hpos : i.pos = r.rhs.length
    · rw [if_pos hpos]
      have hcomp : isComp R i = true := by simp [isComp, hr, hpos]
      by_cases hst : i.rule = s
      · rw [if_pos hst]
        have hall : ∀ j ∈ l, j.rule = s := fun j hj => Nat.le_antisymm (hmax' j hj) (hst ▸ hp.1 j hj)
        obtain ⟨acts', ws', h1, h2, h3⟩ := ih (acts := put .eoi .accept acts) (ws := ws) hl' hp.2 hmax' (fun _ _ => hall)
        have hred : ∀ a, redOn R s a i = false := by intro a; simp [redOn, hst]
        have hredl : ∀ a, ∀ j ∈ l, redOn R s a j = false := by intro a j hj; simp [redOn, hall j hj]
        have hnw : ∀ acts w, ¬ WarnOf R s state acts l w := by
          rintro acts w ⟨l1, j, l2, rfl, h, _⟩
          rw [hredl _ j (by simp)] at h; cases h
        refine ⟨acts', ws', h1, ?_, ?_⟩
        · intro a
          rw [h2, get_put]
          by_cases ha : a = .eoi
          · subst ha
            simp [accOn, hcomp, hst]
          · simp [ha, firstRed, hred]
        · intro w
          rw [h3, WarnOf.cons_skip hred]
          simp [hnw]
      · rw [if_neg hst]
        have hredi : redOn R s i.la i = true := by simp [redOn, hcomp, hst]
        have hreda : ∀ a, a ≠ i.la → redOn R s a i = false := by
          intro a ha; simp [redOn, hcomp, hst]; exact fun h => ha h.symm
        have hacci : accOn R s i = false := by simp [accOn, hst]
        have hany : (i :: l).any (accOn R s) = l.any (accOn R s) := by simp [hacci]
        rw [hany]
        have hfr : ∀ a, firstRed R s a (i :: l) = if a = i.la then some i.rule else firstRed R s a l := by
          intro a
          show (if redOn R s a i then some i.rule else firstRed R s a l) = _
          by_cases ha : a = i.la
          · subst ha; simp [hredi]
          · simp [hreda a ha, ha]
        cases hg : get i.la acts with
        | none =>
          simp only
          obtain ⟨acts', ws', h1, h2, h3⟩ := ih (acts := put i.la (.reduce i.rule) acts) (ws := ws) hl' hp.2 hmax' (by
            intro a ha j hj
            rw [get_put] at ha
            split at ha
            · cases ha
            · exact hacc' a ha j hj)
          refine ⟨acts', ws', h1, ?_, ?_⟩
          · intro a
            rw [h2, get_put, hfr]
            split
            · rfl
            · by_cases ha : a = i.la
              · subst ha; simp [hg]
              · simp [ha]
          · intro w
            rw [h3]
            apply or_congr Iff.rfl
            constructor
            · rintro ⟨l1, j, l2, rfl, hj, h⟩
              refine ⟨i :: l1, j, l2, rfl, hj, ?_⟩
              by_cases hji : j.la = i.la
              · rw [hji] at h ⊢
                rw [get_put, if_pos rfl] at h
                right
                rcases h with ⟨S', h, _⟩ | ⟨r', h | ⟨h, _⟩, hw⟩
                · cases h
                · cases h
                  refine ⟨i.rule, Or.inr ⟨hg, ?_⟩, hw⟩
                  simp [firstRed, hredi]
                · cases h
              · rw [get_put, if_neg hji] at h
                have : firstRed R s j.la (i :: l1) = firstRed R s j.la l1 := by
                  simp [firstRed, hreda _ hji]
                rw [this]; exact h
            · rintro ⟨l1, j, l2, he, hj, h⟩
              cases l1 with
              | nil =>
                simp at he; obtain ⟨rfl, rfl⟩ := he
                rcases h with ⟨S', h, _⟩ | ⟨r', h | ⟨_, h⟩, _⟩
                · rw [hg] at h; cases h
                · rw [hg] at h; cases h
                · cases h
              | cons k l1 =>
                simp at he; obtain ⟨rfl, rfl⟩ := he
                refine ⟨l1, j, l2, rfl, hj, ?_⟩
                by_cases hji : j.la = i.la
                · rw [hji] at h ⊢
                  rw [get_put, if_pos rfl]
                  right
                  rcases h with ⟨S', h, _⟩ | ⟨r', h | ⟨_, h⟩, hw⟩
                  · rw [hg] at h; cases h
                  · rw [hg] at h; cases h
                  · simp [firstRed, hredi] at h
                    subst h
                    exact ⟨i.rule, Or.inl rfl, hw⟩
                · rw [get_put, if_neg hji]
                  have : firstRed R s j.la (i :: l1) = firstRed R s j.la l1 := by
                    simp [firstRed, hreda _ hji]
                  rw [this] at h; exact h
        | some x =>
          have hkeep : ∀ a, (get a acts).or ((firstRed R s a (i :: l)).map .reduce) = (get a acts).or ((firstRed R s a l).map .reduce) := by
            intro a
            rw [hfr]
            by_cases ha : a = i.la
            · subst ha; simp [hg]
            · simp [ha]
          have hw0 : ∀ w, WarnOf R s state acts (i :: l) w ↔
              ((∃ S', x = .shift S' ∧ w = .shiftReduce state S' i.rule) ∨ ∃ r', x = .reduce r' ∧ w = .reduceReduce state r' i.rule) ∨
                WarnOf R s state acts l w := by
            intro w
            have hfr1 : ∀ a l1, get a acts = none → firstRed R s a (i :: l1) = firstRed R s a l1 := by
              intro a l1 ha
              have : a ≠ i.la := by rintro rfl; rw [hg] at ha; cases ha
              simp [firstRed, hreda a this]
            constructor
            · rintro ⟨l1, j, l2, he, hj, h⟩
              cases l1 with
              | nil =>
                simp at he; obtain ⟨rfl, rfl⟩ := he
                left
                rcases h with ⟨S', h, hw⟩ | ⟨r', h | ⟨h, _⟩, hw⟩
                · rw [hg] at h; cases h; exact Or.inl ⟨S', rfl, hw⟩
                · rw [hg] at h; cases h; exact Or.inr ⟨r', rfl, hw⟩
                · rw [hg] at h; cases h
              | cons k l1 =>
                simp at he; obtain ⟨rfl, rfl⟩ := he
                right
                refine ⟨l1, j, l2, rfl, hj, ?_⟩
                rcases h with h | ⟨r', h | ⟨h, h'⟩, hw⟩
                · exact Or.inl h
                · exact Or.inr ⟨r', Or.inl h, hw⟩
                · rw [hfr1 _ _ h] at h'
                  exact Or.inr ⟨r', Or.inr ⟨h, h'⟩, hw⟩
            · rintro (h | ⟨l1, j, l2, rfl, hj, h⟩)
              · refine ⟨[], i, l, rfl, hredi, ?_⟩
                rcases h with ⟨S', rfl, hw⟩ | ⟨r', rfl, hw⟩
                · exact Or.inl ⟨S', hg, hw⟩
                · exact Or.inr ⟨r', Or.inl hg, hw⟩
              · refine ⟨i :: l1, j, l2, rfl, hj, ?_⟩
                rcases h with h | ⟨r', h | ⟨h, h'⟩, hw⟩
                · exact Or.inl h
                · exact Or.inr ⟨r', Or.inl h, hw⟩
                · exact Or.inr ⟨r', Or.inr ⟨h, by rw [hfr1 _ _ h]; exact h'⟩, hw⟩
          cases x with
          | shift S' =>
            simp only
            obtain ⟨acts', ws', h1, h2, h3⟩ := ih (acts := acts) (ws := ws ++ [.shiftReduce state S' i.rule]) hl' hp.2 hmax' hacc'
            refine ⟨acts', ws', h1, ?_, ?_⟩
            · intro a; rw [h2, hkeep]
            · intro w; rw [h3, hw0]; simp [or_assoc]
          | reduce r' =>
            simp only
            obtain ⟨acts', ws', h1, h2, h3⟩ := ih (acts := acts) (ws := ws ++ [.reduceReduce state r' i.rule]) hl' hp.2 hmax' hacc'
            refine ⟨acts', ws', h1, ?_, ?_⟩
            · intro a; rw [h2, hkeep]
            · intro w; rw [h3, hw0]; simp [or_assoc]
          | accept => exact absurd (hacc _ hg i (by simp)) hst
    · rw [if_neg hpos]
      have hcomp : isComp R i = false := by simp [isComp, hr]; exact fun h => hpos h.symm
      have hred : ∀ a, redOn R s a i = false := by intro a; simp [redOn, hcomp]
      obtain ⟨acts', ws', h1, h2, h3⟩ := ih (acts := acts) (ws := ws) hl' hp.2 hmax' hacc'
      refine ⟨acts', ws', h1, ?_, ?_⟩
      · intro a; rw [h2]; simp [accOn, hcomp, firstRed, hred]
      · intro w; rw [h3, WarnOf.cons_skip hred]

/-! ## The shifts and gotos -/

theorem shiftActs_get {g : Goto} (hg : (g.map Prod.fst).Nodup) (t : Term) :
    get t (shiftActs g) = (get (.tm t) g).map .shift := by
  have gen : ∀ (g : Goto) (m : List (Term × Action State)), (g.map Prod.fst).Nodup → 
      get t (g.foldl (fun m (X, s) => match X with | .tm t => put t (.shift s) m | .nt _ => m) m) =
        ((get (.tm t) g).map .shift).or (get t m) := by
    intro g
    induction g with
    | nil => intro m _; simp [get]
    | cons x g ih =>
      intro m hn
      obtain ⟨X, S⟩ := x
      rw [List.map_cons, List.nodup_cons] at hn
      rw [List.foldl_cons, ih _ hn.2]
      cases X with
      | nt n => simp [get]
      | tm u =>
        simp only [get, get_put]
        by_cases h : t = u
        · subst h
          have : get (Sym.tm t) g = none := by
            cases hgt : get (Sym.tm t) g with
            | none => rfl
            | some v => exact absurd (get_isSome_iff.1 ⟨v, hgt⟩) hn.1
          simp [this]
        · have : ¬ (Sym.tm u = Sym.tm t) := by simp; exact fun h' => h h'.symm
          simp [h, this]
  have := gen g [] hg
  unfold shiftActs
  refine Eq.trans this ?_
  simp [get]

theorem gotoActs_get {g : Goto} (hg : (g.map Prod.fst).Nodup) (n : Nat) : get n (gotoActs g) = get (.nt n) g := by
  have gen : ∀ (g : Goto) (m : List (Nat × State)), (g.map Prod.fst).Nodup → 
      get n (g.foldl (fun m (X, s) => match X with | .nt n => put n s m | .tm _ => m) m) = (get (.nt n) g).or (get n m) := by
    intro g
    induction g with
    | nil => intro m _; simp [get]
    | cons x g ih =>
      intro m hn
      obtain ⟨X, S⟩ := x
      rw [List.map_cons, List.nodup_cons] at hn
      rw [List.foldl_cons, ih _ hn.2]
      cases X with
      | tm t => simp [get]
      | nt u =>
        simp only [get, get_put]
        by_cases h : n = u
        · subst h
          have : get (Sym.nt n) g = none := by
            cases hgt : get (Sym.nt n) g with
            | none => rfl
            | some v => exact absurd (get_isSome_iff.1 ⟨v, hgt⟩) hn.1
          simp [this]
        · have : ¬ (Sym.nt u = Sym.nt n) := by simp; exact fun h' => h h'.symm
          simp [h, this]
  have := gen g [] hg
  unfold gotoActs
  refine Eq.trans this ?_
  simp [get]

end Verif.Par
