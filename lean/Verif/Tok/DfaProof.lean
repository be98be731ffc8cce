import Verif.Tok.DfaSem
import Verif.Tok.NfaMain

/-! # Helper lemmas: ε-closure, range splitting, subset construction -/

namespace Verif.Tok

/-! ## Table look-up -/

theorem lastLE_some {c : Nat} {r : Row} {x} (h : lastLE c r = some x) : x ∈ r ∧ x.1.1 ≤ c := by
  induction r with
  | nil => simp [lastLE] at h
  | cons y t ih =>
    unfold lastLE at h
    split at h
    · rename_i hy
      cases ht : lastLE c t with
      | none => simp [ht] at h; subst h; exact ⟨by simp, hy⟩
      | some z =>
        simp [ht] at h
        subst h
        have := ih ht
        exact ⟨List.mem_cons_of_mem _ this.1, this.2⟩
    · cases h

theorem lastLE_max {c : Nat} {r : Row} (hr : r.Pairwise fun x y => x.1.2 ≤ y.1.1) (hn : ∀ x ∈ r, x.1.1 < x.1.2)
    {x} (hx : x ∈ r) (hc : x.1.1 ≤ c) (hc2 : c < x.1.2) : lastLE c r = some x := by
  induction r with
  | nil => simp at hx
  | cons y t ih =>
    rw [List.pairwise_cons] at hr
    unfold lastLE
    rcases List.mem_cons.1 hx with rfl | hx
    · rw [if_pos hc]
      cases ht : lastLE c t with
      | none => rfl
      | some z =>
        have h1 := lastLE_some ht
        have h2 := hr.1 z h1.1
        omega
    · have h1 := hr.1 x hx
      have h2 := hn y (by simp)
      rw [if_pos (by omega), ih hr.2 (fun x hx => hn x (List.mem_cons_of_mem _ hx)) hx]
      rfl

theorem nextInRow_iff {r : Row} {len c n : Nat} (h : RowWF r len) :
    nextInRow r c = some n ↔ ∃ lo hi, ((lo, hi), n) ∈ r ∧ lo ≤ c ∧ c < hi := by
  unfold nextInRow
  constructor
  · intro hh
    split at hh
    · rename_i s e m hl
      split at hh
      · cases hh
        have := lastLE_some hl
        exact ⟨s, e, this.1, this.2, by assumption⟩
      · cases hh
    · cases hh
  · rintro ⟨lo, hi, h1, h2, h3⟩
    rw [lastLE_max h.sorted h.ranges h1 h2 h3]
    simp [h3]

/-! ## ε-closure -/

theorem mem_epsOf {ns p q} : q ∈ epsOf ns p ↔ Eps ns p q := by
  unfold epsOf Eps
  cases ns[p]? <;> simp

theorem stp_nextOf {ns p c q} : Stp ns p c q ↔ ∃ r t, (r, t) ∈ nextOf ns p ∧ r.1 ≤ c ∧ c < r.2 ∧ q ∈ t := by
  unfold nextOf Stp
  cases ns[p]? <;> simp

def pot (ns : List Node) (set : List Nat) (l : List Nat) : Nat :=
  ((l.filter fun p => decide (p ∉ set)).map fun p => (epsOf ns p).length).sum

theorem pot_insert {ns set p l} (hl : l.Nodup) (hp : p ∉ set) :
    pot ns (OSet.insert p set) l + (if p ∈ l then (epsOf ns p).length else 0) = pot ns set l := by
  induction l with
  | nil => simp [pot]
  | cons a t ih =>
    rw [List.nodup_cons] at hl
    have ih := ih hl.2
    unfold pot at ih ⊢
    by_cases ha : a = p
    · subst ha
      have hnt : a ∉ t := hl.1
      simp [hnt] at ih
      simp [hp, ih]
      omega
    · have hpa : ¬ p = a := fun h => ha h.symm
      by_cases hs : a ∈ set
      · simp [ha, hs, hpa] at ih ⊢
        exact ih
      · simp [ha, hs, hpa] at ih ⊢
        omega

theorem pot_nil {ns : List Node} : pot ns [] (List.range ns.length) = (ns.map fun n => n.eps.length).sum := by
  unfold pot
  have : (List.range ns.length).filter (fun p => decide (p ∉ ([] : List Nat))) = List.range ns.length := by
    rw [List.filter_eq_self]; simp
  rw [this]
  congr 1
  apply List.ext_getElem
  · simp
  · intro i h1 h2
    simp at h1
    simp [epsOf, h1]

theorem closeLoop_isSome {ns f set q} (h : q.length + pot ns set (List.range ns.length) ≤ f) :
    ∃ r, closeLoop ns f set q = some r := by
  induction f generalizing set q with
  | zero =>
    cases q with
    | nil => exact ⟨set, by simp [closeLoop]⟩
    | cons a t => simp at h
  | succ f ih =>
    cases q with
    | nil => exact ⟨set, by simp [closeLoop]⟩
    | cons a t =>
      unfold closeLoop
      split
      · apply ih
        simp at h
        omega
      · rename_i ha
        apply ih
        have := pot_insert (ns := ns) (l := List.range ns.length) List.nodup_range ha
        simp at h ⊢
        by_cases hl : a < ns.length
        · simp [hl] at this; omega
        · have : epsOf ns a = [] := by simp [epsOf, List.getElem?_eq_none (Nat.le_of_not_lt hl)]
          simp [this] at *
          omega

/-- State of the closure loop started at `p`. -/
structure CloseInv (ns : List Node) (p : Nat) (set q : List Nat) : Prop where
  sorted : OSet.Sorted set
  sound : ∀ a, a ∈ set ∨ a ∈ q → NPath ns p [] a
  start : p ∈ set ∨ p ∈ q
  closed : ∀ a ∈ set, ∀ b, Eps ns a b → b ∈ set ∨ b ∈ q

theorem closeLoop_inv {ns p f set q r} (h : CloseInv ns p set q) (hr : closeLoop ns f set q = some r) :
    CloseInv ns p r [] := by
  induction f generalizing set q with
  | zero =>
    cases q with
    | nil => simp [closeLoop] at hr; subst hr; exact h
    | cons a t => simp [closeLoop] at hr
  | succ f ih =>
    cases q with
    | nil => simp [closeLoop] at hr; subst hr; exact h
    | cons a t =>
      unfold closeLoop at hr
      split at hr
      · rename_i ha
        refine ih ⟨h.sorted, ?_, ?_, ?_⟩ hr
        · rintro b (hb | hb)
          · exact h.sound b (Or.inl hb)
          · exact h.sound b (Or.inr (List.mem_cons_of_mem _ hb))
        · rcases h.start with hs | hs
          · exact Or.inl hs
          · rcases List.mem_cons.1 hs with rfl | hs
            · exact Or.inl ha
            · exact Or.inr hs
        · intro b hb c hc
          rcases h.closed b hb c hc with hs | hs
          · exact Or.inl hs
          · rcases List.mem_cons.1 hs with rfl | hs
            · exact Or.inl ha
            · exact Or.inr hs
      · refine ih ⟨OSet.sorted_insert h.sorted, ?_, ?_, ?_⟩ hr
        · intro b hb
          have ha := h.sound a (Or.inr (by simp))
          simp only [OSet.mem_insert, List.mem_append, mem_epsOf] at hb
          rcases hb with (rfl | hb) | hb | hb
          · exact ha
          · exact h.sound b (Or.inl hb)
          · exact h.sound b (Or.inr (List.mem_cons_of_mem _ hb))
          · have := Path.trans ha (.single_eps hb)
            simpa using this
        · simp only [OSet.mem_insert, List.mem_append]
          rcases h.start with hs | hs
          · exact Or.inl (Or.inr hs)
          · rcases List.mem_cons.1 hs with rfl | hs
            · exact Or.inl (Or.inl rfl)
            · exact Or.inr (Or.inl hs)
        · intro b hb c hc
          simp only [OSet.mem_insert, List.mem_append, mem_epsOf] at hb ⊢
          rcases hb with rfl | hb
          · exact Or.inr (Or.inr hc)
          · rcases h.closed b hb c hc with hs | hs
            · exact Or.inl (Or.inr hs)
            · rcases List.mem_cons.1 hs with rfl | hs
              · exact Or.inl (Or.inl rfl)
              · exact Or.inr (Or.inl hs)

theorem closure_inv {ns p} : CloseInv ns p (closure ns p) [] := by
  obtain ⟨r, hr⟩ := closeLoop_isSome (ns := ns) (f := closeFuel ns) (set := []) (q := [p]) (by
    rw [pot_nil]; simp [closeFuel])
  unfold closure
  rw [hr]
  refine closeLoop_inv ⟨OSet.sorted_nil, ?_, by simp, by simp⟩ hr
  intro a ha
  simp at ha
  subst ha
  exact .nil _

theorem sorted_closure {ns p} : OSet.Sorted (closure ns p) := closure_inv.sorted

theorem path_nil_closed {E : Nat → Nat → Prop} {S} {P : Nat → Prop} {a w b} (h : Path E S a w b) (hw : w = [])
    (hc : ∀ a b, P a → E a b → P b) (ha : P a) : P b := by
  induction h with
  | nil => exact ha
  | eps he _ ih => exact ih hw (hc _ _ ha he)
  | step => cases hw

theorem mem_closure {ns p q} : q ∈ closure ns p ↔ NPath ns p [] q := by
  have inv := closure_inv (ns := ns) (p := p)
  constructor
  · intro h; exact inv.sound q (Or.inl h)
  · intro h
    refine path_nil_closed (P := fun a => a ∈ closure ns p) h rfl ?_ ?_
    · intro a b ha he
      simpa using inv.closed a ha b he
    · simpa using inv.start

/-! ## Entries -/

def KeysSorted {β : Type} (l : List (Nat × β)) : Prop := l.Pairwise fun a b => a.1 < b.1

theorem entry_keys {β : Type} {k : Nat} {d : β} {f : β → β} {l : List (Nat × β)} {a y} (h : (a, y) ∈ entry k d f l) :
    a = k ∨ ∃ y', (a, y') ∈ l := by
  induction l with
  | nil => simp [entry] at h; exact Or.inl h.1
  | cons b t ih =>
    obtain ⟨j, x⟩ := b
    unfold entry at h
    split at h
    · rcases List.mem_cons.1 h with h | h
      · cases h; exact Or.inl rfl
      · exact Or.inr ⟨y, h⟩
    · split at h
      · rcases List.mem_cons.1 h with h | h
        · cases h; exact Or.inr ⟨_, List.mem_cons_self⟩
        · rcases ih h with h | ⟨y', h⟩
          · exact Or.inl h
          · exact Or.inr ⟨y', List.mem_cons_of_mem _ h⟩
      · rcases List.mem_cons.1 h with h | h
        · cases h; exact Or.inr ⟨x, by simp⟩
        · exact Or.inr ⟨y, List.mem_cons_of_mem _ h⟩

theorem keysSorted_entry {β : Type} {k : Nat} {d : β} {f : β → β} {l : List (Nat × β)} (h : KeysSorted l) :
    KeysSorted (entry k d f l) := by
  induction l with
  | nil => simp [entry, KeysSorted]
  | cons b t ih =>
    obtain ⟨j, x⟩ := b
    unfold KeysSorted at h ih ⊢
    rw [List.pairwise_cons] at h
    unfold entry
    split
    · rename_i hk
      rw [List.pairwise_cons, List.pairwise_cons]
      refine ⟨?_, h.1, h.2⟩
      intro a ha
      rcases List.mem_cons.1 ha with rfl | ha
      · exact hk
      · exact Nat.lt_trans hk (h.1 a ha)
    · split
      · rename_i hk
        rw [List.pairwise_cons]
        refine ⟨?_, ih h.2⟩
        rintro ⟨a, y⟩ ha
        rcases entry_keys ha with rfl | ⟨y', hy⟩
        · exact hk
        · exact h.1 (a, y') hy
      · rw [List.pairwise_cons]
        exact ⟨h.1, h.2⟩

theorem entry_all {β : Type} {k : Nat} {d : β} {f : β → β} {l : List (Nat × β)} {P : Nat → β → Prop}
    (h : ∀ a y, (a, y) ∈ l → P a y) (hd : P k (f d)) (hf : ∀ x, P k x → P k (f x)) :
    ∀ a y, (a, y) ∈ entry k d f l → P a y := by
  induction l with
  | nil => intro a y hm; simp [entry] at hm; rw [hm.1, hm.2]; exact hd
  | cons b t ih =>
    obtain ⟨j, x⟩ := b
    intro a y hm
    unfold entry at hm
    split at hm
    · rcases List.mem_cons.1 hm with hm | hm
      · cases hm; exact hd
      · exact h _ _ hm
    · split at hm
      · rcases List.mem_cons.1 hm with hm | hm
        · cases hm; exact h _ _ (by simp)
        · exact ih (fun a y hm => h a y (List.mem_cons_of_mem _ hm)) a y hm
      · rcases List.mem_cons.1 hm with hm | hm
        · obtain rfl : k = j := by omega
          cases hm
          exact hf _ (h _ _ List.mem_cons_self)
        · exact h _ _ (List.mem_cons_of_mem _ hm)

/-- Some entry satisfies `P`. -/
def Any {β : Type} (P : Nat → β → Prop) (l : List (Nat × β)) : Prop := ∃ a y, (a, y) ∈ l ∧ P a y

theorem any_cons {β : Type} {P : Nat → β → Prop} {a y} {l : List (Nat × β)} : Any P ((a, y) :: l) ↔ P a y ∨ Any P l := by
  unfold Any
  constructor
  · rintro ⟨b, z, h, hp⟩
    rcases List.mem_cons.1 h with h | h
    · cases h; exact Or.inl hp
    · exact Or.inr ⟨b, z, h, hp⟩
  · rintro (h | ⟨b, z, h, hp⟩)
    · exact ⟨a, y, by simp, h⟩
    · exact ⟨b, z, List.mem_cons_of_mem _ h, hp⟩

theorem any_nil {β : Type} {P : Nat → β → Prop} : ¬ Any P ([] : List (Nat × β)) := by
  rintro ⟨_, _, h, _⟩; simp at h

theorem any_entry {β : Type} {k : Nat} {d : β} {f : β → β} {l : List (Nat × β)} {P : Nat → β → Prop} {R : Prop}
    (hd : ¬ P k d) (hf : ∀ x, P k (f x) ↔ P k x ∨ R) : Any P (entry k d f l) ↔ Any P l ∨ R := by
  induction l with
  | nil => simp only [entry, any_cons, any_nil, or_false, hf, hd, false_or]
  | cons b t ih =>
    obtain ⟨j, x⟩ := b
    unfold entry
    split
    · rw [any_cons, hf]
      simp only [hd, false_or]
      exact or_comm
    · split
      · rw [any_cons, any_cons, ih, or_assoc]
      · obtain rfl : k = j := by omega
        rw [any_cons, any_cons, hf]
        constructor
        · rintro ((h | h) | h)
          · exact Or.inl (Or.inl h)
          · exact Or.inr h
          · exact Or.inl (Or.inr h)
        · rintro ((h | h) | h)
          · exact Or.inl (Or.inl h)
          · exact Or.inr h
          · exact Or.inl (Or.inr h)

/-- `q` is a target of an edge with range end `e` in an end map. -/
def InM (m : EndMap) (e q : Nat) : Prop := Any (fun e' t => e' = e ∧ q ∈ t) m

/-- `q` is a target of an edge with range `s..e`. -/
def InL (l : List (Nat × EndMap)) (s e q : Nat) : Prop := Any (fun s' m => s' = s ∧ InM m e q) l

/-- `q` is a target of an edge whose range contains `c`. -/
def Cov (l : List (Nat × EndMap)) (c q : Nat) : Prop := ∃ s e, s ≤ c ∧ c < e ∧ InL l s e q

theorem inM_entry {m : EndMap} {k t e q} :
    InM (entry k [] (fun s => OSet.union s t) m) e q ↔ InM m e q ∨ (k = e ∧ q ∈ t) := by
  unfold InM
  apply any_entry
  · simp
  · intro x
    simp only [OSet.mem_union]
    constructor
    · rintro ⟨h, h1 | h1⟩
      · exact Or.inl ⟨h, h1⟩
      · exact Or.inr ⟨h, h1⟩
    · rintro (⟨h, h1⟩ | ⟨h, h1⟩)
      · exact ⟨h, Or.inl h1⟩
      · exact ⟨h, Or.inr h1⟩

theorem inL_entry {l : List (Nat × EndMap)} {a b t s e q} :
    InL (entry a [] (entry b [] (fun x => OSet.union x t)) l) s e q ↔ InL l s e q ∨ (a = s ∧ b = e ∧ q ∈ t) := by
  unfold InL
  apply any_entry
  · rintro ⟨_, h⟩; exact any_nil h
  · intro x
    rw [inM_entry]
    constructor
    · rintro ⟨h, h1 | h1⟩
      · exact Or.inl ⟨h, h1⟩
      · exact Or.inr ⟨h, h1⟩
    · rintro (⟨h, h1⟩ | ⟨h, h1⟩)
      · exact ⟨h, Or.inl h1⟩
      · exact ⟨h, Or.inr h1⟩

/-- Good end map with all ends above `s`. -/
structure EndOk (s : Nat) (m : EndMap) : Prop where
  keys : KeysSorted m
  gt : ∀ e t, (e, t) ∈ m → s < e
  sorted : ∀ e t, (e, t) ∈ m → OSet.Sorted t
  ne : ∀ e t, (e, t) ∈ m → t ≠ []

theorem endOk_nil {s} : EndOk s [] := ⟨List.Pairwise.nil, by simp, by simp, by simp⟩

theorem union_ne_nil {s t : List Nat} (h : t ≠ []) : OSet.union s t ≠ [] := by
  cases t with
  | nil => exact absurd rfl h
  | cons a t =>
    intro he
    have : a ∈ OSet.union s (a :: t) := by simp
    rw [he] at this
    simp at this

theorem endOk_entry {s m e t} (h : EndOk s m) (he : s < e) (ht : t ≠ []) :
    EndOk s (entry e [] (fun x => OSet.union x t) m) where
  keys := keysSorted_entry h.keys
  gt := entry_all (P := fun a _ => s < a) h.gt he (fun _ _ => he)
  sorted := entry_all (P := fun _ y => OSet.Sorted y) h.sorted (OSet.sorted_union OSet.sorted_nil) (fun _ hx => OSet.sorted_union hx)
  ne := entry_all (P := fun _ y => y ≠ []) h.ne (union_ne_nil ht) (fun _ _ => union_ne_nil ht)

/-- Edges of all nodes have non-empty ranges and at least one target. -/
def EdgesOk (ns : List Node) : Prop := ∀ p r t, (r, t) ∈ nextOf ns p → r.1 < r.2 ∧ t ≠ []

structure ListOk (l : List (Nat × EndMap)) : Prop where
  keys : KeysSorted l
  ends : ∀ s m, (s, m) ∈ l → EndOk s m

theorem flatMap_closure_ne {ns t} (h : t ≠ []) : t.flatMap (closure ns) ≠ [] := by
  cases t with
  | nil => exact absurd rfl h
  | cons a t =>
    intro he
    have : a ∈ (a :: t).flatMap (closure ns) := by
      rw [List.mem_flatMap]
      exact ⟨a, by simp, mem_closure.2 (.nil _)⟩
    rw [he] at this
    simp at this

theorem listOk_entry {l : List (Nat × EndMap)} {r : Nat × Nat} {t : List Nat} (h : ListOk l) (hr : r.1 < r.2) (ht : t ≠ []) :
    ListOk (entry r.1 [] (entry r.2 [] (fun x => OSet.union x t)) l) where
  keys := keysSorted_entry h.keys
  ends := entry_all (P := fun s m => EndOk s m) h.ends (endOk_entry endOk_nil hr ht) (fun _ hm => endOk_entry hm hr ht)

theorem collectNext_spec {ns set} (hns : EdgesOk ns) :
    ListOk (collectNext ns set) ∧ ∀ s e q, InL (collectNext ns set) s e q ↔
      ∃ p ∈ set, ∃ t, ((s, e), t) ∈ nextOf ns p ∧ q ∈ t.flatMap (closure ns) := by
  unfold collectNext
  suffices ∀ l, ListOk l →
      let r := set.foldl (fun m p => (nextOf ns p).foldl (fun m (rt : (Nat × Nat) × List Nat) =>
        entry rt.1.1 [] (entry rt.1.2 [] (fun s => OSet.union s (rt.2.flatMap (closure ns)))) m) m) l
      ListOk r ∧ ∀ s e q, InL r s e q ↔ InL l s e q ∨
        ∃ p ∈ set, ∃ t, ((s, e), t) ∈ nextOf ns p ∧ q ∈ t.flatMap (closure ns) by
    obtain ⟨h1, h2⟩ := this [] ⟨List.Pairwise.nil, by simp⟩
    refine ⟨h1, fun s e q => ?_⟩
    rw [h2]
    constructor
    · rintro (h | h)
      · exact absurd h any_nil
      · exact h
    · exact Or.inr
  have inner : ∀ (es : List ((Nat × Nat) × List Nat)), (∀ r t, (r, t) ∈ es → r.1 < r.2 ∧ t ≠ []) → ∀ l, ListOk l →
      let r := es.foldl (fun m (rt : (Nat × Nat) × List Nat) =>
        entry rt.1.1 [] (entry rt.1.2 [] (fun s => OSet.union s (rt.2.flatMap (closure ns)))) m) l
      ListOk r ∧ ∀ s e q, InL r s e q ↔ InL l s e q ∨ ∃ t, ((s, e), t) ∈ es ∧ q ∈ t.flatMap (closure ns) := by
    intro es
    induction es with
    | nil => intro _ l hl; exact ⟨hl, fun s e q => by simp⟩
    | cons a es ih =>
      obtain ⟨r, t⟩ := a
      intro he l hl
      have hrt := he r t (by simp)
      obtain ⟨h1, h2⟩ := ih (fun r t h => he r t (List.mem_cons_of_mem _ h)) _ (listOk_entry hl hrt.1 (flatMap_closure_ne hrt.2))
      refine ⟨h1, fun s e q => ?_⟩
      simp only [List.foldl_cons]
      rw [h2, inL_entry, or_assoc]
      apply or_congr Iff.rfl
      constructor
      · rintro (⟨rfl, rfl, h⟩ | ⟨t', h, h'⟩)
        · exact ⟨t, by simp, h⟩
        · exact ⟨t', List.mem_cons_of_mem _ h, h'⟩
      · rintro ⟨t', h, h'⟩
        rcases List.mem_cons.1 h with h | h
        · cases h; exact Or.inl ⟨rfl, rfl, h'⟩
        · exact Or.inr ⟨t', h, h'⟩
  induction set with
  | nil => intro l hl; exact ⟨hl, fun s e q => by simp⟩
  | cons p set ih =>
    intro l hl
    obtain ⟨i1, i2⟩ := inner (nextOf ns p) (hns p) l hl
    obtain ⟨h1, h2⟩ := ih _ i1
    refine ⟨h1, fun s e q => ?_⟩
    simp only [List.foldl_cons]
    rw [h2, i2, or_assoc]
    apply or_congr Iff.rfl
    constructor
    · rintro (⟨t, h⟩ | ⟨p', hp, h⟩)
      · exact ⟨p, by simp, t, h⟩
      · exact ⟨p', List.mem_cons_of_mem _ hp, h⟩
    · rintro ⟨p', hp, h⟩
      rcases List.mem_cons.1 hp with rfl | hp
      · exact Or.inl h
      · exact Or.inr ⟨p', hp, h⟩

/-! ## Alignment -/

/-- No edge reaches beyond a later begin. -/
def Aligned (l : List (Nat × EndMap)) : Prop := l.Pairwise fun a b => ∀ e t, (e, t) ∈ a.2 → e ≤ b.1

theorem inL_cons {s m l s' e q} : InL ((s, m) :: l) s' e q ↔ (s = s' ∧ InM m e q) ∨ InL l s' e q := any_cons

theorem inM_filter {m : EndMap} {f : Nat → Bool} {e q} :
    InM (m.filter fun kv => f kv.1) e q ↔ InM m e q ∧ f e = true := by
  unfold InM Any
  constructor
  · rintro ⟨a, y, h, rfl, hq⟩
    simp only [List.mem_filter] at h
    exact ⟨⟨a, y, h.1, rfl, hq⟩, h.2⟩
  · rintro ⟨⟨a, y, h, rfl, hq⟩, hf⟩
    exact ⟨a, y, List.mem_filter.2 ⟨h, hf⟩, rfl, hq⟩

theorem foldl_union_mem {g : EndMap} {init : List Nat} {q} :
    q ∈ g.foldl (fun s kv => OSet.union s kv.2) init ↔ q ∈ init ∨ ∃ e, InM g e q := by
  induction g generalizing init with
  | nil =>
    simp only [List.foldl_nil]
    constructor
    · exact Or.inl
    · rintro (h | ⟨e, h⟩)
      · exact h
      · exact absurd h any_nil
  | cons a g ih =>
    obtain ⟨k, t⟩ := a
    rw [List.foldl_cons, ih, OSet.mem_union, or_assoc]
    apply or_congr Iff.rfl
    unfold InM
    constructor
    · rintro (h | ⟨e, h⟩)
      · exact ⟨k, any_cons.2 (Or.inl ⟨rfl, h⟩)⟩
      · exact ⟨e, any_cons.2 (Or.inr h)⟩
    · rintro ⟨e, h⟩
      rcases any_cons.1 h with ⟨_, h⟩ | h
      · exact Or.inl h
      · exact Or.inr ⟨e, h⟩

theorem foldl_entry_spec {g : EndMap} {s : Nat} (hg : ∀ e t, (e, t) ∈ g → s < e ∧ t ≠ []) :
    ∀ m, EndOk s m →
      let r := g.foldl (fun m kv => entry kv.1 [] (fun x => OSet.union x kv.2) m) m
      EndOk s r ∧ ∀ e q, InM r e q ↔ InM m e q ∨ InM g e q := by
  induction g with
  | nil =>
    intro m hm
    refine ⟨hm, fun e q => ?_⟩
    constructor
    · exact Or.inl
    · rintro (h | h)
      · exact h
      · exact absurd h any_nil
  | cons a g ih =>
    obtain ⟨k, t⟩ := a
    intro m hm
    have hk := hg k t (by simp)
    obtain ⟨h1, h2⟩ := ih (fun e t h => hg e t (List.mem_cons_of_mem _ h)) _ (endOk_entry hm hk.1 hk.2)
    refine ⟨h1, fun e q => ?_⟩
    simp only [List.foldl_cons]
    rw [h2, inM_entry, or_assoc]
    apply or_congr Iff.rfl
    exact (any_cons (P := fun e' t => e' = e ∧ q ∈ t)).symm

theorem endOk_filter {s m f} (h : EndOk s m) : EndOk s (m.filter f) where
  keys := List.Pairwise.filter _ h.keys
  gt e t hm := h.gt e t (List.mem_filter.1 hm).1
  sorted e t hm := h.sorted e t (List.mem_filter.1 hm).1
  ne e t hm := h.ne e t (List.mem_filter.1 hm).1

theorem cov_cons {s m l c q} : Cov ((s, m) :: l) c q ↔ (s ≤ c ∧ ∃ e, c < e ∧ InM m e q) ∨ Cov l c q := by
  unfold Cov
  constructor
  · rintro ⟨s', e, h1, h2, h3⟩
    rcases inL_cons.1 h3 with ⟨rfl, h⟩ | h
    · exact Or.inl ⟨h1, e, h2, h⟩
    · exact Or.inr ⟨s', e, h1, h2, h⟩
  · rintro (⟨h1, e, h2, h3⟩ | ⟨s', e, h1, h2, h3⟩)
    · exact ⟨s, e, h1, h2, inL_cons.2 (Or.inl ⟨rfl, h3⟩)⟩
    · exact ⟨s', e, h1, h2, inL_cons.2 (Or.inr h3)⟩

theorem cov_nil {c q} : ¬ Cov [] c q := by
  rintro ⟨s, e, _, _, h⟩
  exact any_nil h

theorem inM_mem {m : EndMap} {e q} (h : InM m e q) : ∃ t, (e, t) ∈ m ∧ q ∈ t := by
  obtain ⟨a, t, h1, rfl, h2⟩ := h
  exact ⟨t, h1, h2⟩

theorem alignFrom_spec {cur : Nat × EndMap} {rest : List (Nat × EndMap)} (h : ListOk (cur :: rest)) :
    ListOk (alignFrom cur rest) ∧ Aligned (alignFrom cur rest) ∧
      (alignFrom cur rest).map Prod.fst = (cur :: rest).map Prod.fst ∧
      ∀ c q, Cov (alignFrom cur rest) c q ↔ Cov (cur :: rest) c q := by
  induction rest generalizing cur with
  | nil => exact ⟨h, by simp [alignFrom, Aligned], rfl, fun c q => Iff.rfl⟩
  | cons nx rest ih =>
    obtain ⟨s, m⟩ := cur
    obtain ⟨upper, m2⟩ := nx
    have hk := List.pairwise_cons.1 h.keys
    have hsu : s < upper := hk.1 (upper, m2) (by simp)
    have hm := h.ends s m (by simp)
    have hm2 := h.ends upper m2 (by simp)
    have hrest : ListOk ((upper, m2) :: rest) := ⟨hk.2, fun s m hh => h.ends s m (List.mem_cons_of_mem _ hh)⟩
    -- all later keys are at least `upper`
    have later : ∀ {cur' : Nat × EndMap}, cur'.1 = upper → ListOk (cur' :: rest) →
        ∀ b ∈ alignFrom cur' rest, upper ≤ b.1 := by
      intro cur' hc hl b hb
      have hmap := (ih hl).2.2.1
      have : b.1 ∈ (cur' :: rest).map Prod.fst := by rw [← hmap]; exact List.mem_map_of_mem hb
      simp only [List.map_cons, List.mem_cons, List.mem_map] at this
      rcases this with h1 | ⟨x, hx, h1⟩
      · omega
      · have := (List.pairwise_cons.1 hl.keys).1 x hx
        omega
    unfold alignFrom
    simp only
    split
    · rename_i hg
      simp only [List.isEmpty_iff, List.filter_eq_nil_iff, decide_eq_true_eq] at hg
      obtain ⟨i1, i2, i3, i4⟩ := ih hrest
      refine ⟨⟨?_, ?_⟩, ?_, ?_, ?_⟩
      · refine List.pairwise_cons.2 ⟨?_, i1.keys⟩
        intro b hb
        have := later rfl hrest b hb
        simp only
        omega
      · intro s' m' hh
        rcases List.mem_cons.1 hh with hh | hh
        · cases hh; exact hm
        · exact i1.ends _ _ hh
      · refine List.pairwise_cons.2 ⟨?_, i2⟩
        intro b hb e t he
        have h1 := later rfl hrest b hb
        have h2 := hg _ he
        simp only at h2
        omega
      · simp only [List.map_cons, i3]
      · intro c q
        rw [cov_cons, cov_cons, i4]
    · generalize hgdef : (m.filter fun kv => decide (upper < kv.1)) = g
      have hgm : ∀ e t, (e, t) ∈ g → upper < e ∧ t ≠ [] := by
        intro e t he
        rw [← hgdef] at he
        simp only [List.mem_filter, decide_eq_true_eq] at he
        exact ⟨he.2, hm.ne _ _ he.1⟩
      rename_i hgne
      have hgin : ∀ e q, InM g e q ↔ InM m e q ∧ upper < e := by
        intro e q
        have := inM_filter (m := m) (f := fun k => decide (upper < k)) (e := e) (q := q)
        rw [hgdef] at this
        simpa using this
      have hlne : g.foldl (fun s kv => OSet.union s kv.2) [] ≠ [] := by
        have hg0 : g ≠ [] := by
          intro h0; rw [hgdef, h0] at hgne; simp at hgne
        cases g with
        | nil => exact absurd rfl hg0
        | cons a g =>
          obtain ⟨e, t⟩ := a
          have := (hgm e t (by simp)).2
          cases t with
          | nil => exact absurd rfl this
          | cons q t =>
            intro h0
            have : q ∈ List.foldl (fun s kv => OSet.union s kv.2) [] ((e, q :: t) :: g) :=
              foldl_union_mem.2 (Or.inr ⟨e, any_cons.2 (Or.inl ⟨rfl, by simp⟩)⟩)
            rw [h0] at this
            simp at this
      generalize hldef : g.foldl (fun s kv => OSet.union s kv.2) [] = limit at hlne
      have hlm : ∀ q, q ∈ limit ↔ ∃ e, InM m e q ∧ upper < e := by
        intro q
        rw [← hldef, foldl_union_mem]
        simp [hgin]
      obtain ⟨f1, f2⟩ := foldl_entry_spec hgm m2 hm2
      generalize hm2def : g.foldl (fun m kv => entry kv.1 [] (fun x => OSet.union x kv.2) m) m2 = m2' at f1 f2
      have hrest' : ListOk ((upper, m2') :: rest) := by
        refine ⟨List.pairwise_cons.2 ⟨(List.pairwise_cons.1 hk.2).1, (List.pairwise_cons.1 hk.2).2⟩, ?_⟩
        intro s' m' hh
        rcases List.mem_cons.1 hh with hh | hh
        · cases hh; exact f1
        · exact hrest.ends _ _ (List.mem_cons_of_mem _ hh)
      obtain ⟨i1, i2, i3, i4⟩ := ih hrest'
      have hm1 : EndOk s (entry upper [] (fun s => OSet.union s limit) (m.filter fun kv => !decide (upper < kv.1))) :=
        endOk_entry (endOk_filter hm) hsu hlne
      have hm1le : ∀ e t, (e, t) ∈ entry upper [] (fun s => OSet.union s limit) (m.filter fun kv => !decide (upper < kv.1)) →
          e ≤ upper := by
        intro e t he
        rcases entry_keys he with h1 | ⟨y, h1⟩
        · omega
        · simp only [List.mem_filter, Bool.not_eq_true', decide_eq_false_iff_not] at h1
          omega
      refine ⟨⟨?_, ?_⟩, ?_, ?_, ?_⟩
      · refine List.pairwise_cons.2 ⟨?_, i1.keys⟩
        intro b hb
        have := later rfl hrest' b hb
        simp only
        omega
      · intro s' m' hh
        rcases List.mem_cons.1 hh with hh | hh
        · cases hh; exact hm1
        · exact i1.ends _ _ hh
      · refine List.pairwise_cons.2 ⟨?_, i2⟩
        intro b hb e t he
        have h1 := later rfl hrest' b hb
        have h2 := hm1le e t he
        omega
      · simp only [List.map_cons, i3]
      · intro c q
        rw [cov_cons, i4, cov_cons, cov_cons, cov_cons]
        have e1 : ∀ e, InM (entry upper [] (fun s => OSet.union s limit) (m.filter fun kv => !decide (upper < kv.1))) e q ↔
            (InM m e q ∧ e ≤ upper) ∨ (upper = e ∧ ∃ e', InM m e' q ∧ upper < e') := by
          intro e
          rw [inM_entry, hlm]
          have := inM_filter (m := m) (f := fun k => !decide (upper < k)) (e := e) (q := q)
          rw [this]
          simp
        simp only [e1, f2, hgin]
        constructor
        · rintro (⟨h1, e, h2, ⟨h3, h4⟩ | ⟨rfl, e', h3, h4⟩⟩ | ⟨h1, e, h2, h3 | ⟨h3, h4⟩⟩ | h)
          · exact Or.inl ⟨h1, e, h2, h3⟩
          · exact Or.inl ⟨h1, e', by omega, h3⟩
          · exact Or.inr (Or.inl ⟨h1, e, h2, h3⟩)
          · exact Or.inl ⟨by omega, e, h2, h3⟩
          · exact Or.inr (Or.inr h)
        · rintro (⟨h1, e, h2, h3⟩ | ⟨h1, e, h2, h3⟩ | h)
          · by_cases hu : upper < e
            · by_cases hc : c < upper
              · exact Or.inl ⟨h1, upper, hc, Or.inr ⟨rfl, e, h3, hu⟩⟩
              · exact Or.inr (Or.inl ⟨by omega, e, h2, Or.inr ⟨h3, hu⟩⟩)
            · exact Or.inl ⟨h1, e, h2, Or.inl ⟨h3, by omega⟩⟩
          · exact Or.inr (Or.inl ⟨h1, e, h2, Or.inl h3⟩)
          · exact Or.inr (Or.inr h)

theorem align_spec {l : List (Nat × EndMap)} (h : ListOk l) :
    ListOk (align l) ∧ Aligned (align l) ∧ ∀ c q, Cov (align l) c q ↔ Cov l c q := by
  cases l with
  | nil => exact ⟨h, List.Pairwise.nil, fun c q => Iff.rfl⟩
  | cons cur rest =>
    obtain ⟨h1, h2, _, h4⟩ := alignFrom_spec h
    exact ⟨h1, h2, h4⟩

/-! ## Splitting -/

theorem splitOne_spec {b m} (h : EndOk b m) :
    OSet.Sorted (splitOne b m).2 ∧
    (∀ q, q ∈ (splitOne b m).2 ↔ ∃ e, InM m e q) ∧
    (∀ x ∈ (splitOne b m).1, b ≤ x.1.1 ∧ x.1.1 < x.1.2 ∧ (∃ t, (x.1.2, t) ∈ m) ∧ OSet.Sorted x.2 ∧ x.2 ≠ [] ∧
      ∀ c q, x.1.1 ≤ c → c < x.1.2 → (q ∈ x.2 ↔ ∃ e, c < e ∧ InM m e q)) ∧
    ((splitOne b m).1.Pairwise fun x y => x.1.2 ≤ y.1.1) ∧
    (∀ c e t, b ≤ c → c < e → (e, t) ∈ m → ∃ x ∈ (splitOne b m).1, x.1.1 ≤ c ∧ c < x.1.2) := by
  induction m generalizing b with
  | nil =>
    refine ⟨OSet.sorted_nil, fun q => ?_, by simp [splitOne], by simp [splitOne], by simp⟩
    constructor
    · simp [splitOne]
    · rintro ⟨e, h⟩; exact absurd h any_nil
  | cons a m ih =>
    obtain ⟨e, t⟩ := a
    have hk := List.pairwise_cons.1 h.keys
    have hbe := h.gt e t (by simp)
    have ht : t ≠ [] := h.ne e t (by simp)
    have hm : EndOk e m := ⟨hk.2, fun e' t' hh => hk.1 _ hh, fun e' t' hh => h.sorted _ _ (List.mem_cons_of_mem _ hh),
      fun e' t' hh => h.ne _ _ (List.mem_cons_of_mem _ hh)⟩
    obtain ⟨i1, i2, i3, i4, i5⟩ := ih hm
    have hsum : ∀ q, q ∈ OSet.union (splitOne e m).2 t ↔ ∃ e', InM ((e, t) :: m) e' q := by
      intro q
      rw [OSet.mem_union, i2]
      unfold InM
      constructor
      · rintro (⟨e', h⟩ | h)
        · exact ⟨e', any_cons.2 (Or.inr h)⟩
        · exact ⟨e, any_cons.2 (Or.inl ⟨rfl, h⟩)⟩
      · rintro ⟨e', h⟩
        rcases any_cons.1 h with ⟨_, h⟩ | h
        · exact Or.inr h
        · exact Or.inl ⟨e', h⟩
    have hends : ∀ e' q, InM ((e, t) :: m) e' q → e ≤ e' := by
      intro e' q hh
      rcases any_cons.1 hh with ⟨rfl, _⟩ | hh
      · exact Nat.le_refl _
      · obtain ⟨t', h1, _⟩ := inM_mem hh
        exact Nat.le_of_lt (hm.gt _ _ h1)
    simp only [splitOne]
    refine ⟨OSet.sorted_union i1, hsum, ?_, ?_, ?_⟩
    · intro x hx
      rcases List.mem_cons.1 hx with rfl | hx
      · refine ⟨Nat.le_refl _, hbe, ⟨t, by simp⟩, OSet.sorted_union OSet.sorted_nil, union_ne_nil (union_ne_nil ht), ?_⟩
        intro c q h1 h2
        simp only at h1 h2
        rw [OSet.mem_union, hsum]
        simp only [List.not_mem_nil, false_or]
        constructor
        · rintro ⟨e', h⟩
          exact ⟨e', by have := hends e' q h; omega, h⟩
        · rintro ⟨e', _, h⟩; exact ⟨e', h⟩
      · obtain ⟨j1, j2, ⟨t', j3⟩, j4, j5, j6⟩ := i3 x hx
        refine ⟨by omega, j2, ⟨t', List.mem_cons_of_mem _ j3⟩, j4, j5, ?_⟩
        intro c q h1 h2
        rw [j6 c q h1 h2]
        unfold InM
        constructor
        · rintro ⟨e', h3, h4⟩; exact ⟨e', h3, any_cons.2 (Or.inr h4)⟩
        · rintro ⟨e', h3, h4⟩
          rcases any_cons.1 h4 with ⟨rfl, _⟩ | h4
          · omega
          · exact ⟨e', h3, h4⟩
    · rw [List.pairwise_cons]
      refine ⟨fun x hx => (i3 x hx).1, i4⟩
    · intro c e' t' h1 h2 h3
      by_cases hc : c < e
      · exact ⟨_, List.mem_cons_self, h1, hc⟩
      · rcases List.mem_cons.1 h3 with h3 | h3
        · cases h3; omega
        · obtain ⟨x, hx, h4⟩ := i5 c e' t' (by omega) h2 h3
          exact ⟨x, List.mem_cons_of_mem _ hx, h4⟩

theorem split_spec {l : List (Nat × EndMap)} (h : ListOk l) (ha : Aligned l) :
    (∀ x ∈ split l, x.1.1 < x.1.2 ∧ OSet.Sorted x.2 ∧ x.2 ≠ [] ∧
      ∀ c q, x.1.1 ≤ c → c < x.1.2 → (q ∈ x.2 ↔ Cov l c q)) ∧
    ((split l).Pairwise fun x y => x.1.2 ≤ y.1.1) ∧
    (∀ c q, Cov l c q → ∃ x ∈ split l, x.1.1 ≤ c ∧ c < x.1.2) ∧
    (∀ b, (∀ a ∈ l, b ≤ a.1) → ∀ x ∈ split l, b ≤ x.1.1) := by
  induction l with
  | nil => exact ⟨by simp [split], by simp [split], fun c q h => absurd h cov_nil, by simp [split]⟩
  | cons a l ih =>
    obtain ⟨s, m⟩ := a
    have hk := List.pairwise_cons.1 h.keys
    have ha' := List.pairwise_cons.1 ha
    have hl : ListOk l := ⟨hk.2, fun s m hh => h.ends s m (List.mem_cons_of_mem _ hh)⟩
    have hm := h.ends s m (by simp)
    obtain ⟨i1, i2, i3, i4⟩ := ih hl ha'.2
    obtain ⟨s1, s2, s3, s4, s5⟩ := splitOne_spec hm
    have hsp : split ((s, m) :: l) = (splitOne s m).1 ++ split l := by simp [split]
    rw [hsp]
    -- the ranges of `(s, m)` end before the later begins
    have hfirst : ∀ x ∈ (splitOne s m).1, ∀ a ∈ l, x.1.2 ≤ a.1 := by
      intro x hx a hal
      obtain ⟨_, _, ⟨t, ht⟩, _⟩ := s3 x hx
      exact ha'.1 a hal _ _ ht
    refine ⟨?_, ?_, ?_, ?_⟩
    · intro x hx
      rcases List.mem_append.1 hx with hx | hx
      · obtain ⟨j1, j2, ⟨t, j3⟩, j4, j5, j6⟩ := s3 x hx
        refine ⟨j2, j4, j5, fun c q h1 h2 => ?_⟩
        rw [j6 c q h1 h2, cov_cons]
        constructor
        · rintro ⟨e, h3, h4⟩; exact Or.inl ⟨by omega, e, h3, h4⟩
        · rintro (⟨_, h3⟩ | ⟨s', e, h3, h4, h5⟩)
          · exact h3
          · obtain ⟨s'', m', h6, rfl, h7⟩ := h5
            have := hfirst x hx _ h6
            simp only at this
            omega
      · obtain ⟨j1, j2, j3, j4⟩ := i1 x hx
        refine ⟨j1, j2, j3, fun c q h1 h2 => ?_⟩
        rw [j4 c q h1 h2, cov_cons]
        constructor
        · exact Or.inr
        · rintro (⟨h3, e, h4, h5⟩ | h3)
          · obtain ⟨t, ht, _⟩ := inM_mem h5
            have : e ≤ x.1.1 := i4 e (fun a hal => ha'.1 a hal _ _ ht) x hx
            omega
          · exact h3
    · rw [List.pairwise_append]
      refine ⟨s4, i2, ?_⟩
      intro x hx y hy
      exact i4 x.1.2 (fun a hal => hfirst x hx a hal) y hy
    · intro c q hc
      rcases cov_cons.1 hc with ⟨h1, e, h2, h3⟩ | h1
      · obtain ⟨t, ht, _⟩ := inM_mem h3
        obtain ⟨x, hx, h4⟩ := s5 c e t h1 h2 ht
        exact ⟨x, List.mem_append_left _ hx, h4⟩
      · obtain ⟨x, hx, h4⟩ := i3 c q h1
        exact ⟨x, List.mem_append_right _ hx, h4⟩
    · intro b hb x hx
      rcases List.mem_append.1 hx with hx | hx
      · have := (s3 x hx).1
        have := hb (s, m) (by simp)
        simp only at this
        omega
      · exact i4 b (fun a ha => hb a (List.mem_cons_of_mem _ ha)) x hx

/-- The nodes reached from a set by one character and ε edges. -/
def Delta (ns : List Node) (set : List Nat) (c q : Nat) : Prop := ∃ p ∈ set, ∃ p', Stp ns p c p' ∧ NPath ns p' [] q

/-- Range splitting is exact. -/
theorem outRanges_spec {ns set} (hns : EdgesOk ns) :
    (∀ x ∈ outRanges ns set, x.1.1 < x.1.2 ∧ OSet.Sorted x.2 ∧ x.2 ≠ [] ∧
      ∀ c q, x.1.1 ≤ c → c < x.1.2 → (q ∈ x.2 ↔ Delta ns set c q)) ∧
    ((outRanges ns set).Pairwise fun x y => x.1.2 ≤ y.1.1) ∧
    (∀ c q, Delta ns set c q → ∃ x ∈ outRanges ns set, x.1.1 ≤ c ∧ c < x.1.2) := by
  obtain ⟨h1, h2⟩ := collectNext_spec (set := set) hns
  obtain ⟨a1, a2, a3⟩ := align_spec h1
  obtain ⟨s1, s2, s3, _⟩ := split_spec a1 a2
  have hd : ∀ c q, Cov (align (collectNext ns set)) c q ↔ Delta ns set c q := by
    intro c q
    rw [a3]
    unfold Cov Delta
    constructor
    · rintro ⟨s, e, h3, h4, h5⟩
      obtain ⟨p, hp, t, ht, hq⟩ := (h2 s e q).1 h5
      rw [List.mem_flatMap] at hq
      obtain ⟨p', hp', hq⟩ := hq
      exact ⟨p, hp, p', stp_nextOf.2 ⟨(s, e), t, ht, h3, h4, hp'⟩, mem_closure.1 hq⟩
    · rintro ⟨p, hp, p', hs, hq⟩
      obtain ⟨⟨s, e⟩, t, ht, h3, h4, hp'⟩ := stp_nextOf.1 hs
      exact ⟨s, e, h3, h4, (h2 s e q).2 ⟨p, hp, t, ht, List.mem_flatMap.2 ⟨p', hp', mem_closure.2 hq⟩⟩⟩
  refine ⟨?_, s2, ?_⟩
  · intro x hx
    obtain ⟨j1, j2, j3, j4⟩ := s1 x hx
    refine ⟨j1, j2, j3, fun c q h3 h4 => ?_⟩
    rw [j4 c q h3 h4, hd]
  · intro c q h
    exact s3 c q ((hd c q).2 h)

end Verif.Tok
