import Verif.Par.CanonProof

/-!
# `LR1Parser::new` makes the canonical tables
-/

namespace Verif.Par

theorem snoc_induction {α : Type} {P : List α → Prop} (hnil : P []) (hsnoc : ∀ l a, P l → P (l ++ [a])) (l : List α) : P l := by
  have : ∀ l : List α, P l.reverse := by
    intro l
    induction l with
    | nil => exact hnil
    | cons a l ih => rw [List.reverse_cons]; exact hsnoc _ _ ih
  simpa using this l.reverse

theorem walkFrom_append (T : Tables) (q : Nat) (γ δ : List Sym) :
    T.walkFrom q (γ ++ δ) = (T.walkFrom q γ).bind fun q' => T.walkFrom q' δ := by
  induction γ generalizing q with
  | nil => rfl
  | cons X γ ih =>
    simp only [List.cons_append, Tables.walkFrom]
    cases T.goes q X with
    | none => rfl
    | some q' => simp [ih]

theorem walk_snoc (T : Tables) (γ : List Sym) (X : Sym) : T.walk (γ ++ [X]) = (T.walk γ).bind fun q => T.goes q X := by
  unfold Tables.walk
  rw [walkFrom_append]
  congr 1
  funext q
  simp [Tables.walkFrom]

section
variable {R : List PRule} {s : Nat} {r0 : PRule} (hs : R[s]? = some r0) (hlen : R.length = s + 1)
variable (hok : ∀ r ∈ R, Sym.tm .eoi ∉ r.rhs)
variable {start : State} {sl : List (State × Goto)} (hc : Coll R s start sl)
variable {keys : List State} (hkn : keys.Nodup) (hkm : ∀ S, S ∈ keys ↔ S ∈ sl.map Prod.fst)
variable {T : Tables} (hst : T.start = keys.idxOf start) (hrows : ∀ x ∈ sl, Rows R s keys T x.1 x.2)

include hc hok in
theorem get_eoi {x : State × Goto} (hx : x ∈ sl) : get (.tm .eoi) x.2 = none := by
  obtain ⟨γ, hγ⟩ := hc.reach x hx
  rw [hc.gnone x hx γ hγ]
  rintro i _ j ⟨r, h1, h2, _⟩
  exact hok r (List.mem_of_getElem? h1) (List.mem_of_getElem? h2)

include hc hok hrows in
theorem rows_goes {x : State × Goto} (hx : x ∈ sl) (X : Sym) : T.goes (keys.idxOf x.1) X = (get X x.2).map keys.idxOf := by
  have hr := hrows x hx
  cases X with
  | nt n => exact hr.goto n
  | tm t =>
    obtain ⟨row, h1, h2⟩ := hr.act
    unfold Tables.goes Tables.act
    simp only [h1, Option.bind_some]
    rw [h2 t]
    by_cases h : t = Term.eoi ∧ List.any x.1 (accOn R s) = true
    · rw [if_pos h, h.1, get_eoi hok hc hx]
      rfl
    · rw [if_neg h]
      cases get (.tm t) x.2 with
      | some S' => rfl
      | none => cases firstRed R s t x.1 <;> rfl

include hc in
theorem expects_iff {x : State × Goto} (hx : x ∈ sl) {γ : List Sym} (hγ : Is R s γ x.1) (X : Sym) :
    Expects R s γ X ↔ ∃ S', get X x.2 = some S' := by
  have h := hc.gnone x hx γ hγ X
  constructor
  · rintro ⟨i, r, h1, h2, h3⟩
    cases hg : get X x.2 with
    | some S' => exact ⟨S', rfl⟩
    | none => exact absurd ⟨r, h2, h3, rfl⟩ (h.1 hg i h1 _)
  · rintro ⟨S', hS'⟩
    have : ¬ get X x.2 = none := by rw [hS']; simp
    rw [h] at this
    simp only [Classical.not_forall, Classical.not_not] at this
    obtain ⟨i, hi, j, r, h1, h2, _⟩ := this
    exact ⟨i, r, hi, h1, h2⟩

include hc hok hst hrows in
theorem walk_is {γ : List Sym} {q : Nat} (h : T.walk γ = some q) :
    ∃ x ∈ sl, Is R s γ x.1 ∧ q = keys.idxOf x.1 ∧ ∃ i, Valid R s γ i := by
  induction γ using snoc_induction generalizing q with
  | hnil =>
    simp only [Tables.walk, Tables.walkFrom, Option.some.injEq] at h
    obtain ⟨x, hx, he⟩ := List.mem_map.1 hc.start_mem
    refine ⟨x, hx, by rw [he]; exact hc.start_is, by rw [he, ← h, hst], _, .start⟩
  | hsnoc γ X ih =>
    rw [walk_snoc, Option.bind_eq_some_iff] at h
    obtain ⟨q1, h1, h2⟩ := h
    obtain ⟨x, hx, hγ, rfl, i, hi⟩ := ih h1
    rw [rows_goes hok hc hrows hx, Option.map_eq_some_iff] at h2
    obtain ⟨S', g1, g2⟩ := h2
    have hS' := hc.gsome x hx γ hγ X S' g1
    obtain ⟨y, hy, he⟩ := List.mem_map.1 (hc.gclosed x hx X S' g1)
    obtain ⟨i, r, k1, k2, k3⟩ := (expects_iff hc hx hγ X).2 ⟨S', g1⟩
    exact ⟨y, hy, by rw [he]; exact hS', by rw [he]; exact g2.symm, _, .advance γ i r X k1 k2 k3⟩

include hc hok hst hrows in
theorem is_walk {γ : List Sym} (h : ∃ i, Valid R s γ i) : ∃ x ∈ sl, Is R s γ x.1 ∧ T.walk γ = some (keys.idxOf x.1) := by
  induction γ using snoc_induction with
  | hnil =>
    obtain ⟨x, hx, he⟩ := List.mem_map.1 hc.start_mem
    refine ⟨x, hx, by rw [he]; exact hc.start_is, ?_⟩
    simp only [Tables.walk, Tables.walkFrom]
    rw [he, ← hst]
  | hsnoc γ X ih =>
    obtain ⟨j, hj⟩ := h
    obtain ⟨j', i, hi, hm⟩ := (valid_snoc.1 hj).nonempty
    obtain ⟨x, hx, hγ, hw⟩ := ih ⟨i, hi⟩
    obtain ⟨r, h1, h2, _⟩ := hm
    obtain ⟨S', hS'⟩ := (expects_iff hc hx hγ X).1 ⟨i, r, hi, h1, h2⟩
    obtain ⟨y, hy, he⟩ := List.mem_map.1 (hc.gclosed x hx X S' hS')
    refine ⟨y, hy, by rw [he]; exact hc.gsome x hx γ hγ X S' hS', ?_⟩
    rw [walk_snoc, hw]
    simp only [Option.bind_some]
    rw [rows_goes hok hc hrows hx, hS', he]
    rfl

theorem isComp_iff {R : List PRule} {i : Item} : isComp R i = true ↔ ∃ r, R[i.rule]? = some r ∧ i.pos = r.rhs.length := by
  unfold isComp
  cases R[i.rule]? with
  | none => simp
  | some r =>
    simp only [Option.map_some, beq_iff_eq, Option.some.injEq, exists_eq_left']
    exact eq_comm

theorem redOn_iff {R : List PRule} {s : Nat} {γ : List Sym} {S : State} (hγ : ∀ i, i ∈ S ↔ Valid R s γ i) {a : Term} {r : Nat} :
    (∃ i ∈ S, redOn R s a i = true ∧ i.rule = r) ↔ r ≠ s ∧ Complete R s γ r a := by
  constructor
  · rintro ⟨i, hi, h, rfl⟩
    simp only [redOn, Bool.and_eq_true, decide_eq_true_eq] at h
    obtain ⟨⟨h1, h2⟩, h3⟩ := h
    obtain ⟨rule, h4, h5⟩ := isComp_iff.1 h1
    refine ⟨h2, rule, h4, ?_⟩
    rw [← h5, ← h3]
    exact (hγ i).1 hi
  · rintro ⟨h1, rule, h2, h3⟩
    refine ⟨_, (hγ _).2 h3, ?_, rfl⟩
    simp only [redOn, Bool.and_eq_true, decide_eq_true_eq]
    exact ⟨⟨isComp_iff.2 ⟨rule, h2, rfl⟩, h1⟩, trivial⟩

theorem accOn_iff {R : List PRule} {s : Nat} {γ : List Sym} {S : State} (hγ : ∀ i, i ∈ S ↔ Valid R s γ i) :
    S.any (accOn R s) = true ↔ Accepts R s γ := by
  rw [List.any_eq_true]
  constructor
  · rintro ⟨i, hi, h⟩
    simp only [accOn, Bool.and_eq_true, decide_eq_true_eq] at h
    obtain ⟨rule, h4, h5⟩ := isComp_iff.1 h.1
    refine ⟨i.la, rule, h.2 ▸ h4, ?_⟩
    have : (⟨s, rule.rhs.length, i.la⟩ : Item) = i := by
      obtain ⟨i1, i2, i3⟩ := i
      simp only at h h5
      rw [h.2, h5]
    rw [this]
    exact (hγ i).1 hi
  · rintro ⟨a, rule, h2, h3⟩
    refine ⟨_, (hγ _).2 h3, ?_⟩
    simp only [accOn, Bool.and_eq_true, decide_eq_true_eq]
    exact ⟨isComp_iff.2 ⟨rule, h2, rfl⟩, trivial⟩

theorem firstRed_iff {R : List PRule} {s : Nat} {γ : List Sym} {S : State} (hγ : ∀ i, i ∈ S ↔ Valid R s γ i)
    (hord : S.Pairwise fun i j => i.rule ≤ j.rule) {a : Term} {r : Nat} :
    firstRed R s a S = some r ↔ r ≠ s ∧ Complete R s γ r a ∧ ∀ r', r' ≠ s → Complete R s γ r' a → r ≤ r' := by
  rw [firstRed_some hord, redOn_iff hγ, and_assoc]
  apply and_congr Iff.rfl
  apply and_congr Iff.rfl
  constructor
  · intro h r' h1 h2
    obtain ⟨i, hi, h3, h4⟩ := (redOn_iff hγ).2 ⟨h1, h2⟩
    rw [← h4]; exact h i hi h3
  · intro h i hi h3
    obtain ⟨h1, h2⟩ := (redOn_iff hγ).1 ⟨i, hi, h3, rfl⟩
    exact h _ h1 h2

include hs hlen hc hok hst hrows hkm in
theorem canonical_of_rows (hne : ∀ q es, get q T.errors = some es → es ≠ []) : Canonical R s T where
  walk_iff γ := by
    constructor
    · rintro ⟨q, hq⟩
      obtain ⟨x, _, _, _, h⟩ := walk_is hok hc hst hrows hq
      exact h
    · intro h
      obtain ⟨x, _, _, h⟩ := is_walk hok hc hst hrows h
      exact ⟨_, h⟩
  same γ γ' q q' h h' := by
    obtain ⟨x, hx, hγ, rfl, _⟩ := walk_is hok hc hst hrows h
    obtain ⟨y, hy, hγ', rfl, _⟩ := walk_is hok hc hst hrows h'
    constructor
    · intro he i
      have := idxOf_inj ((hkm _).2 (List.mem_map.2 ⟨x, hx, rfl⟩)) ((hkm _).2 (List.mem_map.2 ⟨y, hy, rfl⟩)) he
      rw [← hγ.mem, ← hγ'.mem, this]
    · intro he
      have : x.1 = y.1 := OSet.ext hγ.sorted hγ'.sorted (fun i => by rw [hγ.mem, hγ'.mem]; exact he i)
      rw [this]
  row γ q h := by
    obtain ⟨x, hx, hγ, rfl, _⟩ := walk_is hok hc hst hrows h
    obtain ⟨row, h1, _⟩ := (hrows x hx).act
    exact ⟨row, h1⟩
  goes γ q X h := by
    obtain ⟨x, hx, hγ, rfl, _⟩ := walk_is hok hc hst hrows h
    rw [expects_iff hc hx hγ, rows_goes hok hc hrows hx]
    cases get X x.2 <;> simp
  accept γ q a h := by
    obtain ⟨x, hx, hγ, rfl, _⟩ := walk_is hok hc hst hrows h
    obtain ⟨row, h1, h2⟩ := (hrows x hx).act
    unfold Tables.act
    simp only [h1, Option.bind_some]
    rw [h2, ← accOn_iff hγ.mem]
    constructor
    · intro h
      split at h
      · rename_i h'; exact h'
      · split at h
        · cases h
        · simp at h
    · intro h
      rw [if_pos h]
  reduce γ q a r h := by
    obtain ⟨x, hx, hγ, rfl, _⟩ := walk_is hok hc hst hrows h
    obtain ⟨row, h1, h2⟩ := (hrows x hx).act
    unfold Tables.act
    simp only [h1, Option.bind_some]
    rw [h2, ← accOn_iff hγ.mem, expects_iff hc hx hγ]
    have hfr := fun r => firstRed_iff (r := r) (a := a) hγ.mem (hγ.items hs hlen).2.1
    constructor
    · intro h
      split at h
      · cases h
      · rename_i hna
        split at h
        · cases h
        · rename_i hg
          simp only [Option.map_eq_some_iff] at h
          obtain ⟨r', h3, h4⟩ := h
          cases h4
          obtain ⟨k1, k2, k3⟩ := (hfr r).1 h3
          exact ⟨k1, k2, (by rintro ⟨S', hS'⟩; rw [hg] at hS'; cases hS'), hna, k3⟩
    · rintro ⟨k1, k2, k3, k4, k5⟩
      rw [if_neg k4]
      cases hg : get (.tm a) x.2 with
      | some S' => exact absurd ⟨S', hg⟩ k3
      | none =>
        simp only
        rw [(hfr r).2 ⟨k1, k2, k5⟩]
        rfl
  errors γ q r h := by
    obtain ⟨x, hx, hγ, rfl, _⟩ := walk_is hok hc hst hrows h
    obtain ⟨es, h1, h2⟩ := (hrows x hx).errors
    obtain ⟨es', h3, h4⟩ := errorRulesOf_spec (hγ.items hs hlen).1
    rw [h1] at h3; cases h3
    have : (get (keys.idxOf x.1) T.errors).getD [] = es := by
      rw [h2]
      split
      · rename_i he; simp at he; simp [he]
      · rfl
    rw [this, h4]
    constructor
    · rintro ⟨i, hi, rule, k⟩
      exact ⟨i, rule, (hγ.mem i).1 hi, k⟩
    · rintro ⟨i, rule, hi, k⟩
      exact ⟨i, (hγ.mem i).2 hi, rule, k⟩
  errors_ne := hne

include hs hlen hc in
theorem warn_of_rows (T : Tables) (hok : ∀ r ∈ R, Sym.tm .eoi ∉ r.rhs) (hst : T.start = keys.idxOf start)
    (hrows : ∀ x ∈ sl, Rows R s keys T x.1 x.2) {ws : List Warning}
    (hw : ∀ w, w ∈ ws ↔ ∃ x ∈ sl, WarnOf R s x.1 (shiftActs x.2) x.1 w) : WarnExact R s ws where
  shiftReduce S S' r := by
    rw [hw]
    constructor
    · rintro ⟨x, hx, l1, i, l2, he, h1, h2⟩
      obtain ⟨γ, hγ⟩ := hc.reach x hx
      rcases h2 with ⟨S'', h2, h3⟩ | ⟨r', _, h3⟩
      · cases h3
        rw [shiftActs_get (hc.gnodup x hx)] at h2
        simp only [Option.map_eq_some_iff] at h2
        obtain ⟨S1, h2, h4⟩ := h2
        cases h4
        have hS := hc.gsome x hx γ hγ _ _ h2
        have hi : i ∈ x.1 := by rw [he]; simp
        obtain ⟨k1, k2⟩ := (redOn_iff hγ.mem).1 ⟨i, hi, h1, rfl⟩
        exact ⟨γ, i.la, ⟨hγ.sorted, hγ.mem⟩, ⟨hS.sorted, hS.mem⟩, k1, k2, (expects_iff hc hx hγ _).2 ⟨_, h2⟩⟩
      · cases h3
    · rintro ⟨γ, a, hS, hS', h1, h2, h3⟩
      obtain ⟨rule, hrule, hv⟩ := h2
      obtain ⟨x, hx, hγ, _⟩ := is_walk hok hc hst hrows ⟨_, hv⟩
      have hxS : x.1 = S := OSet.ext hγ.sorted hS.1 (fun i => (hγ.mem i).trans (hS.2 i).symm)
      subst hxS
      obtain ⟨S1, hS1⟩ := (expects_iff hc hx hγ _).1 h3
      have hS1' := hc.gsome x hx γ hγ _ _ hS1
      have : S1 = S' := OSet.ext hS1'.sorted hS'.1 (fun i => (hS1'.mem i).trans (hS'.2 i).symm)
      subst this
      obtain ⟨i, hi, h4, h5⟩ := (redOn_iff hγ.mem).2 ⟨h1, rule, hrule, hv⟩
      obtain ⟨l1, l2, he⟩ := List.append_of_mem hi
      have hla : i.la = a := by
        simp only [redOn, Bool.and_eq_true, decide_eq_true_eq] at h4
        exact h4.2
      refine ⟨x, hx, l1, i, l2, he, by rw [hla]; exact h4, Or.inl ⟨S1, ?_, by rw [h5]⟩⟩
      rw [shiftActs_get (hc.gnodup x hx), hla, hS1]
      rfl
  reduceReduce S r r' := by
    rw [hw]
    constructor
    · rintro ⟨x, hx, l1, i, l2, he, h1, h2⟩
      obtain ⟨γ, hγ⟩ := hc.reach x hx
      obtain ⟨_, hord, _⟩ := hγ.items hs hlen
      rcases h2 with ⟨S'', h2, h3⟩ | ⟨r1, h2, h3⟩
      · cases h3
      · cases h3
        rw [shiftActs_get (hc.gnodup x hx)] at h2
        rcases h2 with h2 | ⟨h2, h4⟩
        · simp at h2
        · have hi : i ∈ x.1 := by rw [he]; simp
          obtain ⟨k1, k2⟩ := (redOn_iff hγ.mem).1 ⟨i, hi, h1, rfl⟩
          have hfr : firstRed R s i.la x.1 = some r := by
            rw [he, firstRed_append, h4]; rfl
          obtain ⟨k3, k4, k5⟩ := (firstRed_iff hγ.mem hord).1 hfr
          have hnd : x.1.Nodup := hγ.sorted.nodup
          have hlt : r < i.rule := by
            refine Nat.lt_of_le_of_ne (k5 _ k1 k2) ?_
            intro heq
            have hord1 : l1.Pairwise fun i j => i.rule ≤ j.rule := by
              rw [he] at hord; exact (List.pairwise_append.1 hord).1
            obtain ⟨⟨j, hj, hj1, hj2⟩, _⟩ := (firstRed_some hord1).1 h4
            simp only [redOn, Bool.and_eq_true, decide_eq_true_eq] at hj1 h1
            obtain ⟨ru, a1, a2⟩ := isComp_iff.1 hj1.1.1
            obtain ⟨ru', b1, b2⟩ := isComp_iff.1 h1.1.1
            have hrl : j.rule = i.rule := hj2.trans heq
            rw [hrl, b1] at a1; cases a1
            have : j = i := by
              obtain ⟨j1, j2, j3⟩ := j
              obtain ⟨i1, i2, i3⟩ := i
              simp only at hrl a2 b2 hj1
              rw [hrl, a2, b2, hj1.2]
            subst this
            rw [he, List.nodup_append] at hnd
            exact hnd.2.2 j hj j (by simp) rfl
          refine ⟨γ, i.la, ⟨hγ.sorted, hγ.mem⟩, k3, k1, hlt, k4, k2, ?_, k5⟩
          rw [expects_iff hc hx hγ]
          rintro ⟨S', hS'⟩
          rw [hS'] at h2; simp at h2
    · rintro ⟨γ, a, hS, h1, h2, h3, h4, h5, h6, h7⟩
      obtain ⟨rule, hrule, hv⟩ := h4
      obtain ⟨x, hx, hγ, _⟩ := is_walk hok hc hst hrows ⟨_, hv⟩
      have hxS : x.1 = S := OSet.ext hγ.sorted hS.1 (fun i => (hγ.mem i).trans (hS.2 i).symm)
      subst hxS
      obtain ⟨_, hord, _⟩ := hγ.items hs hlen
      obtain ⟨i, hi, h8, h9⟩ := (redOn_iff hγ.mem).2 ⟨h2, h5⟩
      obtain ⟨l1, l2, he⟩ := List.append_of_mem hi
      have hla : i.la = a := by
        simp only [redOn, Bool.and_eq_true, decide_eq_true_eq] at h8
        exact h8.2
      have hfr := (firstRed_iff hγ.mem hord).2 ⟨h1, ⟨rule, hrule, hv⟩, h7⟩
      rw [he, firstRed_append] at hfr
      refine ⟨x, hx, l1, i, l2, he, by rw [hla]; exact h8, Or.inr ⟨r, Or.inr ⟨?_, ?_⟩, by rw [h9]⟩⟩
      · rw [shiftActs_get (hc.gnodup x hx), hla]
        rw [expects_iff hc hx hγ] at h6
        cases hg : get (.tm a) x.2 with
        | none => rfl
        | some S' => exact absurd ⟨S', hg⟩ h6
      · rw [hla]
        cases hf1 : firstRed R s a l1 with
        | some r1 => rw [hf1] at hfr; exact hfr
        | none =>
          rw [hf1] at hfr
          simp only [Option.none_or, firstRed, h8, if_true, Option.some.injEq] at hfr
          omega

end

/-! ## The start rule -/

theorem freshSym_spec (rules : List PRule) : ∀ r ∈ rules, r.lhs ≠ freshSym rules ∧ Sym.nt (freshSym rules) ∉ r.rhs := by
  have hrhs : ∀ (l : List Sym) (m n : Nat), (m ≤ l.foldl (fun m X => match X with | .nt n => max m (n + 1) | .tm _ => m) m) ∧
      (Sym.nt n ∈ l → n < l.foldl (fun m X => match X with | .nt n => max m (n + 1) | .tm _ => m) m) := by
    intro l
    induction l with
    | nil => simp
    | cons X l ih =>
      intro m n
      rw [List.foldl_cons]
      cases X with
      | tm t =>
        refine ⟨(ih m n).1, ?_⟩
        intro h
        exact (ih m n).2 (by simpa using h)
      | nt k =>
        simp only
        have h1 := ih (max m (k + 1)) n
        refine ⟨by omega, ?_⟩
        intro h
        rcases List.mem_cons.1 h with h | h
        · cases h; omega
        · exact h1.2 h
  have hrules : ∀ (R : List PRule) (m : Nat),
      (m ≤ R.foldl (fun m r => r.rhs.foldl (fun m X => match X with | .nt n => max m (n + 1) | .tm _ => m) (max m (r.lhs + 1))) m) ∧
      ∀ r ∈ R, ∀ n, (r.lhs = n ∨ Sym.nt n ∈ r.rhs) →
        n < R.foldl (fun m r => r.rhs.foldl (fun m X => match X with | .nt n => max m (n + 1) | .tm _ => m) (max m (r.lhs + 1))) m := by
    intro R
    induction R with
    | nil => simp
    | cons r R ih =>
      intro m
      rw [List.foldl_cons]
      obtain ⟨h1, h2⟩ := ih (r.rhs.foldl (fun m X => match X with | .nt n => max m (n + 1) | .tm _ => m) (max m (r.lhs + 1)))
      have h3 := hrhs r.rhs (max m (r.lhs + 1))
      refine ⟨?_, ?_⟩
      · have := (h3 0).1; omega
      · intro r' hr' n hn
        rcases List.mem_cons.1 hr' with rfl | hr'
        · rcases hn with rfl | hn
          · have := (h3 0).1; omega
          · have := (h3 n).2 hn; omega
        · exact h2 r' hr' n hn
  have hb : (rules.all fun r => decide (r.lhs ≠ symBound rules) && r.rhs.all fun X => decide (X ≠ .nt (symBound rules))) = true := by
    rw [List.all_eq_true]
    intro r hr
    have h := (hrules rules 0).2 r hr
    simp only [Bool.and_eq_true, decide_eq_true_eq, List.all_eq_true]
    refine ⟨?_, ?_⟩
    · intro he
      have := h _ (Or.inl he)
      exact absurd this (Nat.lt_irrefl _)
    · rintro X hX rfl
      exact absurd (h _ (Or.inr hX)) (Nat.lt_irrefl _)
  have hfound : ∃ n, ((List.range (symBound rules + 1)).find? fun n => rules.all fun r => decide (r.lhs ≠ n) && r.rhs.all fun X => decide (X ≠ .nt n)) = some n := by
    cases hf : (List.range (symBound rules + 1)).find? fun n => rules.all fun r => decide (r.lhs ≠ n) && r.rhs.all fun X => decide (X ≠ .nt n) with
    | some n => exact ⟨n, rfl⟩
    | none =>
      rw [List.find?_eq_none] at hf
      exact absurd hb (hf (symBound rules) (by simp))
  obtain ⟨n, hn⟩ := hfound
  have hfs : freshSym rules = n := by unfold freshSym; rw [hn]; rfl
  rw [hfs]
  have := List.find?_some hn
  rw [List.all_eq_true] at this
  intro r hr
  have := this r hr
  simp only [Bool.and_eq_true, decide_eq_true_eq, List.all_eq_true] at this
  exact ⟨this.1, fun h => this.2 _ h rfl⟩

/-! ## `new` -/

/-- The rules of the grammar with the start rule appended. -/
def Gram.rules' (g : Gram) : List PRule := g.aug (freshSym g.rules)

theorem rules'_start (g : Gram) : g.rules'[g.rules.length]? = some ⟨freshSym g.rules, [.nt g.start]⟩ := by
  simp [Gram.rules', Gram.aug]

theorem rules'_length (g : Gram) : g.rules'.length = g.rules.length + 1 := by simp [Gram.rules', Gram.aug]

theorem rules'_ok {g : Gram} (h : g.Ok) : ∀ r ∈ g.rules', Sym.tm .eoi ∉ r.rhs := by
  intro r hr
  rcases List.mem_append.1 hr with hr | hr
  · exact h r hr
  · simp at hr; subst hr; simp

/-- The symbols in the tables are symbols of the rules. -/
structure TabSyms (R : List PRule) (T : Tables) : Prop where
  action : ∀ q a x, T.act q a = some x → a = .eoi ∨ ∃ r ∈ R, Sym.tm a ∈ r.rhs
  goto : ∀ q n q', (get q T.goto).bind (get n) = some q' → ∃ r ∈ R, Sym.nt n ∈ r.rhs
  rows : ∀ q row, get q T.action = some row → ∃ γ, T.walk γ = some q
  gotoRows : ∀ q row, get q T.goto = some row → ∃ γ, T.walk γ = some q
  numbers : ∃ n, ∀ q, (∃ row, get q T.action = some row) ↔ q < n

/-- Everything about `new`. -/
theorem new_spec_full {o : Seeds} (ho : o.Fair) {g : Gram} (hok : g.Ok) (fuel : Nat) :
    (∀ T ws, newTables fuel o g = .ok (T, ws) →
      Canonical g.rules' g.rules.length T ∧ WarnExact g.rules' g.rules.length ws ∧ ¬ Bad g.rules' g.rules.length ∧ TabSyms g.rules' T) ∧
    (newTables fuel o g = .panic → Bad g.rules' g.rules.length) ∧
    (enough g.rules' ≤ fuel → newTables fuel o g ≠ .fuel) := by
  have hs := rules'_start g
  have hlen := rules'_length g
  have hok' := rules'_ok hok
  unfold newTables
  simp only
  rw [show g.aug (freshSym g.rules) = g.rules' from rfl]
  generalize g.rules' = R at *
  generalize g.rules.length = s at *
  have hen : enough R ≤ fuel → R.length < fuel ∧ R.length * (termsOf R).length < fuel ∧ (expUniverse R).length < fuel ∧
      1 + ((symUniverse R).length + 1) * (stateUniverse R).length ≤ fuel := by
    unfold enough
    generalize R.length * (termsOf R).length = a
    generalize ((symUniverse R).length + 1) * (stateUniverse R).length = b
    omega
  cases hnull : calcNull fuel R with
  | panic => exact absurd hnull nullLoop_no_panic
  | fuel =>
    simp only [reduceCtorEq, false_implies, implies_true, true_and]
    intro hf
    obtain ⟨res, h⟩ := calcNull_total (hen hf).1
    rw [hnull] at h; cases h
  | ok null =>
    have hn := calcNull_exact hnull
    simp only
    cases hfirst : calcFirst fuel null R with
    | panic => exact absurd hfirst firstLoop_no_panic
    | fuel =>
      simp only [reduceCtorEq, false_implies, implies_true, true_and]
      intro hf
      obtain ⟨res, h⟩ := calcFirst_total hn (hen hf).2.1
      rw [hfirst] at h; cases h
    | ok first =>
      have hf := calcFirst_exact hn hfirst
      simp only
      have hK : ∀ i, Clo R (· ∈ [⟨s, 0, .eoi⟩]) i ↔ Valid R s [] i := by
        intro i
        rw [valid_nil]
        exact ⟨fun h => h.mono (by simp), fun h => h.mono (by simp)⟩
      cases hcl : closure R null first fuel [⟨s, 0, .eoi⟩] with
      | panic =>
        simp only [reduceCtorEq, false_implies, implies_true, true_and, ne_eq, not_false_eq_true, and_true]
        intro _
        obtain ⟨i, h1, h2⟩ := (closure_spec hn hf).2 hcl
        exact ⟨[], i, (hK i).1 h1, h2⟩
      | fuel =>
        simp only [reduceCtorEq, false_implies, implies_true, true_and]
        intro hfu
        exact absurd hcl (closure_total hn hf (by simp [LaOk]) (hen hfu).2.2.1)
      | ok start =>
        simp only
        obtain ⟨k1, k2, k3⟩ := (closure_spec hn hf).1 start hcl
        have hstart : Is R s [] start :=
          ⟨k3 (by simp [OSet.Sorted]), fun i => (k1 i).trans (hK i), k2⟩
        obtain ⟨g1, g2⟩ := allGoto_coll (fuel := fuel) hs hn hf ho hstart
        cases hall : allGoto o R null first fuel start with
        | panic =>
          simp only [reduceCtorEq, false_implies, implies_true, true_and, ne_eq, not_false_eq_true, and_true]
          exact fun _ => g2 hall
        | fuel =>
          simp only [reduceCtorEq, false_implies, implies_true, true_and]
          intro hfu
          refine absurd hall (allLoop_fuel hs hn hf ho (hen hfu).2.2.1 (by simpa using ⟨[], hstart⟩) ?_)
          refine Nat.le_trans ?_ (hen hfu).2.2.2
          simp only [List.length_cons, List.length_nil, Nat.zero_add]
          refine Nat.add_le_add_left (Nat.mul_le_mul_left _ (List.length_filter_le _ _)) _
        | ok sl =>
          simp only
          have hc := g1 sl hall
          obtain ⟨T, ws, keys, f1, f2, f3, f4, f5, f6, f7, f8, f9⟩ := finish_spec hs hlen ho hc
          rw [f1]
          simp only [Res.ok.injEq, Prod.mk.injEq, reduceCtorEq, false_implies, ne_eq, not_false_eq_true, implies_true, and_true]
          rintro T' ws' ⟨rfl, rfl⟩
          refine ⟨canonical_of_rows hs hlen hok' hc f3 f4 f5 f6, warn_of_rows hs hlen hc T hok' f4 f5 f7, ?_, ?_⟩
          · rintro ⟨γ, i, hv, hst⟩
            obtain ⟨x, hx, hγ, _⟩ := is_walk hok' hc f4 f5 ⟨i, hv⟩
            exact hγ.ok i ((hγ.mem i).2 hv) hst
          · have hexp : ∀ x ∈ sl, ∀ X S', get X x.2 = some S' → ∃ r ∈ R, X ∈ r.rhs := by
              intro x hx X S' hg
              obtain ⟨γ, hγ⟩ := hc.reach x hx
              obtain ⟨i, r, _, h2, h3⟩ := (expects_iff hc hx hγ X).2 ⟨S', hg⟩
              exact ⟨r, List.mem_of_getElem? h2, List.mem_of_getElem? h3⟩
            have hwalk : ∀ x ∈ sl, ∃ γ, T.walk γ = some (keys.idxOf x.1) := by
              intro x hx
              obtain ⟨γ, hγ⟩ := hc.reach x hx
              obtain ⟨i, hi⟩ := List.exists_mem_of_ne_nil _ (hc.full x hx)
              obtain ⟨y, hy, hγ', hw⟩ := is_walk hok' hc f4 f5 ⟨i, (hγ.mem i).1 hi⟩
              have : x.1 = y.1 := OSet.ext hγ.sorted hγ'.sorted (fun i => (hγ.mem i).trans (hγ'.mem i).symm)
              exact ⟨γ, by rw [this]; exact hw⟩
            refine ⟨?_, ?_, ?_, ?_, keys.length, ?_⟩
            rotate_left 2
            · intro q row hq
              obtain ⟨x, hx, rfl⟩ := f8 q row hq
              exact hwalk x hx
            · intro q row hq
              obtain ⟨x, hx, rfl⟩ := f9 q row hq
              exact hwalk x hx
            · intro q
              constructor
              · rintro ⟨row, hq⟩
                obtain ⟨x, hx, rfl⟩ := f8 q row hq
                exact List.idxOf_lt_length_iff.2 ((f3 _).2 (List.mem_map.2 ⟨x, hx, rfl⟩))
              · intro hq
                obtain ⟨x, hx, he⟩ := List.mem_map.1 ((f3 _).1 (List.getElem_mem hq))
                obtain ⟨row, h1, _⟩ := (f5 x hx).act
                rw [he, f2.idxOf_getElem] at h1
                exact ⟨row, h1⟩
            · intro q a v hq
              simp only [Tables.act, Option.bind_eq_some_iff] at hq
              obtain ⟨row, hq1, hq2⟩ := hq
              obtain ⟨x, hx, rfl⟩ := f8 q row hq1
              obtain ⟨row', h1, h2⟩ := (f5 x hx).act
              rw [h1] at hq1; cases hq1
              rw [h2] at hq2
              split at hq2
              · rename_i h; exact Or.inl h.1
              · split at hq2
                · rename_i S' hS'; exact Or.inr (hexp x hx _ _ hS')
                · simp only [Option.map_eq_some_iff] at hq2
                  obtain ⟨r, hr, _⟩ := hq2
                  obtain ⟨γ, hγ⟩ := hc.reach x hx
                  obtain ⟨_, ⟨rule, _, hv⟩, _⟩ := (firstRed_iff hγ.mem (hγ.items hs hlen).2.1).1 hr
                  have := hv.laOk
                  simp only [LaOk, List.mem_cons, mem_termsOf] at this
                  exact this
            · intro q n q' hq
              have hq' := hq
              simp only [Option.bind_eq_some_iff] at hq'
              obtain ⟨row, hq1, _⟩ := hq'
              obtain ⟨x, hx, rfl⟩ := f9 q row hq1
              rw [(f5 x hx).goto] at hq
              simp only [Option.map_eq_some_iff] at hq
              obtain ⟨S', hS', _⟩ := hq
              exact hexp x hx _ _ hS'

theorem new_spec {o : Seeds} (ho : o.Fair) {g : Gram} (hok : g.Ok) (fuel : Nat) :
    (∀ T ws, newTables fuel o g = .ok (T, ws) →
      Canonical g.rules' g.rules.length T ∧ WarnExact g.rules' g.rules.length ws ∧ ¬ Bad g.rules' g.rules.length) ∧
    (newTables fuel o g = .panic → Bad g.rules' g.rules.length) ∧
    (enough g.rules' ≤ fuel → newTables fuel o g ≠ .fuel) := by
  obtain ⟨h1, h2, h3⟩ := new_spec_full ho hok fuel
  exact ⟨fun T ws h => ⟨(h1 T ws h).1, (h1 T ws h).2.1, (h1 T ws h).2.2.1⟩, h2, h3⟩

theorem new_syms {o : Seeds} (ho : o.Fair) {g : Gram} (hok : g.Ok) {fuel : Nat} {T : Tables} {ws : List Warning}
    (h : newTables fuel o g = .ok (T, ws)) : TabSyms g.rules' T := ((new_spec_full ho hok fuel).1 T ws h).2.2.2

end Verif.Par
