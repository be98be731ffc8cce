import Verif.Par.EqProof

/-!
# When the parsers made by `new` are equal
-/

namespace Verif.Par

variable {N T E : Type}

/-- `new` up to the point where the states are numbered. -/
theorem new_states {o : Seeds} (ho : o.Fair) {g : Gram} {fuel : Nat} {T : Tables} {ws : List Warning}
    (h : newTables fuel o g = .ok (T, ws)) :
    ∃ start sl, Coll g.rules' g.rules.length start sl ∧ finish o g.rules' g.rules.length start sl = some (T, ws) ∧
      ∀ o' : Seeds, o'.gotoOrd = o.gotoOrd → newTables fuel o' g =
        match finish o' g.rules' g.rules.length start sl with
        | none => .panic
        | some r => .ok r := by
  have hgo : ∀ o' : Seeds, o'.gotoOrd = o.gotoOrd → ∀ null first f q sl,
      allLoop o' g.rules' null first fuel f q sl = allLoop o g.rules' null first fuel f q sl := by
    intro o' he null first f
    induction f with
    | zero => intro q sl; cases q <;> rfl
    | succ f ih =>
      intro q sl
      cases q with
      | nil => rfl
      | cons s q => simp only [allLoop, he, ih]
  unfold newTables at h ⊢
  simp only at h ⊢
  rw [show g.aug (freshSym g.rules) = g.rules' from rfl] at *
  split at h
  · cases h
  · cases h
  · rename_i null hnull
    have hn := calcNull_exact hnull
    split at h
    · cases h
    · cases h
    · rename_i first hfirst
      have hf := calcFirst_exact hn hfirst
      split at h
      · cases h
      · cases h
      · rename_i start hcl
        split at h
        · cases h
        · cases h
        · rename_i sl hsl
          split at h
          · cases h
          · rename_i r hfin
            cases h
            have hK : ∀ i, Clo g.rules' (· ∈ [⟨g.rules.length, 0, .eoi⟩]) i ↔ Valid g.rules' g.rules.length [] i := by
              intro i
              rw [valid_nil]
              exact ⟨fun h => h.mono (by simp), fun h => h.mono (by simp)⟩
            obtain ⟨k1, k2, k3⟩ := (closure_spec hn hf).1 start hcl
            have hstart : Is g.rules' g.rules.length [] start :=
              ⟨k3 (by simp [OSet.Sorted]), fun i => (k1 i).trans (hK i), k2⟩
            refine ⟨start, sl, (allGoto_coll (rules'_start g) hn hf ho hstart).1 sl hsl, hfin, ?_⟩
            intro o' he
            have : allGoto o' g.rules' null first fuel start = .ok sl := by rw [← hsl]; exact hgo o' he _ _ _ _ _
            simp only [this]
            cases finish o' g.rules' g.rules.length start sl <;> rfl

theorem calcTable_goto_ne {R : List PRule} {s : Nat} {sl : List (State × Goto)} {at' gt ws} (h : calcTable R s sl = some (at', gt, ws)) :
    ∀ x ∈ gt, x.2 ≠ [] := by
  induction sl generalizing at' gt ws with
  | nil => cases h; simp
  | cons x sl ih =>
    obtain ⟨S, g⟩ := x
    unfold calcTable at h
    split at h
    · cases h
    · split at h
      · cases h
      · rename_i at1 gt1 ws2 h2
        cases h
        intro y hy
        split at hy
        · exact ih h2 y hy
        · rename_i hne
          rcases List.mem_cons.1 hy with rfl | hy
          · intro he
            simp only at he
            rw [he] at hne
            exact hne rfl
          · exact ih h2 y hy

theorem allSome_ne {α β : Type} {f : α → Option β} {l : List α} {r : List β} (h : allSome f l = some r) (hl : l ≠ []) : r ≠ [] := by
  cases l with
  | nil => exact absurd rfl hl
  | cons x l =>
    unfold allSome at h
    split at h
    · cases h
    · split at h
      · cases h
      · cases h; simp

theorem errorRules_lt {R : List PRule} {n : Nat} {l : List State} {r : List (Nat × List Nat)} (h : errorRules R n l = some r) :
    ∀ x ∈ r, x.1 < n + l.length := by
  induction l generalizing n r with
  | nil => cases h; simp
  | cons s l ih =>
    unfold errorRules at h
    split at h
    · rename_i es r' h1 h2
      have := ih h2
      cases h
      intro x hx
      rw [List.length_cons]
      split at hx
      · have := this x hx; omega
      · rcases List.mem_cons.1 hx with rfl | hx
        · simp only; omega
        · have := this x hx; omega
    · cases h

/-- No goto row is empty, and only states have error rules. -/
theorem finish_more {o : Seeds} (ho : o.Fair) {R : List PRule} {s : Nat} {start : State} {sl : List (State × Goto)} (hc : Coll R s start sl)
    {T : Tables} {ws : List Warning} (h : finish o R s start sl = some (T, ws)) :
    (∀ q row, get q T.goto = some row → row ≠ []) ∧ (∀ q es, get q T.errors = some es → ∃ row, get q T.action = some row) := by
  unfold finish at h
  simp only at h
  split at h
  · cases h
  · rename_i at' gt ws' hct
    split at h
    · rename_i a g' e s' ha hg he hs
      cases h
      obtain ⟨k1, k2, k3, k4⟩ := calcTable_keys hct
      constructor
      · intro q row hq
        obtain ⟨x, hx, hxy⟩ := (allSome_mem hg _).1 (get_mem hq)
        simp only [numberGotos, Option.bind_eq_some_iff, Option.map_eq_some_iff] at hxy
        obtain ⟨i, hi, l, hl, heq⟩ := hxy
        cases heq
        exact allSome_ne hl (calcTable_goto_ne hct x hx)
      · intro q es hq
        have hlt := errorRules_lt he _ (get_mem hq)
        simp only [Nat.zero_add] at hlt
        have hnd : (o.keyOrd (sl.map Prod.fst)).Nodup := (List.Perm.nodup_iff (ho.keyOrd _)).2 hc.nodup
        have hS := List.getElem_mem hlt
        have hS' : (o.keyOrd (sl.map Prod.fst))[q] ∈ at'.map Prod.fst := by
          rw [k1]
          have h1 := (ho.keyOrd _).mem_iff.1 hS
          obtain ⟨x, hx, hx'⟩ := List.mem_map.1 h1
          exact List.mem_map.2 ⟨x, (ho.tableOrd sl).mem_iff.2 hx, hx'⟩
        obtain ⟨x, hx, hx'⟩ := List.mem_map.1 hS'
        obtain ⟨j, hj⟩ := List.mem_iff_getElem?.1 hx
        obtain ⟨y, _, hy⟩ := (allSome_spec ha).2 j x hj
        have hy' := hy
        simp only [numberActions, Option.bind_eq_some_iff, Option.map_eq_some_iff] at hy'
        obtain ⟨i, hi, l, hl, rfl⟩ := hy'
        rw [indexOf_some] at hi
        have hiq : i = q := by
          rw [hi.2, hx']
          exact hnd.idxOf_getElem q hlt
        subst hiq
        exact get_isSome_iff.2 (List.mem_map.2 ⟨_, (allSome_mem ha _).2 ⟨x, hx, hy⟩, rfl⟩)
    · cases h

structure TabMore (T : Tables) : Prop where
  goto_ne : ∀ q row, get q T.goto = some row → row ≠ []
  errors : ∀ q es, get q T.errors = some es → ∃ row, get q T.action = some row

theorem new_more {o : Seeds} (ho : o.Fair) {g : Gram} {fuel : Nat} {T : Tables} {ws : List Warning}
    (h : newTables fuel o g = .ok (T, ws)) : TabMore T := by
  obtain ⟨start, sl, hc, hf, _⟩ := new_states ho h
  obtain ⟨h1, h2⟩ := finish_more ho hc hf
  exact ⟨h1, h2⟩

section
variable {A B : Tables} {R : List PRule} {s : Nat}

/-- Tables for the same grammar with the same numbers of states are the same. -/
theorem same_of_walk (ha : Canonical R s A) (hb : Canonical R s B) (hsa : TabSyms R A) (hsb : TabSyms R B) (hma : TabMore A) (hmb : TabMore B)
    (hw : ∀ γ, A.walk γ = B.walk γ) : A.Same B := by
  have hgoes : ∀ γ q, A.walk γ = some q → ∀ X, A.goes q X = B.goes q X := by
    intro γ q hq X
    have := hw (γ ++ [X])
    rw [walk_snoc, walk_snoc, ← hw γ, hq] at this
    exact this
  have hact : ∀ γ q, A.walk γ = some q → ∀ a, A.act q a = B.act q a := by
    intro γ q hq a
    have hq' : B.walk γ = some q := by rw [← hw]; exact hq
    rcases act_rel ha hb hq hq' a with ⟨k1, k2⟩ | ⟨r, r', k1, k2⟩ | ⟨k1, k2⟩ | ⟨r, rule, k1, k2, _⟩
    · rw [k1, k2]
    · have := hgoes γ q hq (.tm a)
      rw [act_shift.2 k1, act_shift.2 k2] at this
      cases this
      rw [k1, k2]
    · rw [k1, k2]
    · rw [k1, k2]
  have hst : A.start = B.start := by
    have := hw []
    simpa [Tables.walk, Tables.walkFrom] using this
  have hrow : ∀ γ q, A.walk γ = some q → ∃ row row', get q A.action = some row ∧ get q B.action = some row' ∧ ∀ a, get a row = get a row' := by
    intro γ q hq
    obtain ⟨row, h1⟩ := ha.row γ q hq
    obtain ⟨row', h2⟩ := hb.row γ q (by rw [← hw]; exact hq)
    refine ⟨row, row', h1, h2, fun a => ?_⟩
    have := hact γ q hq a
    simpa [Tables.act, h1, h2] using this
  refine ⟨fun q => ?_, fun q => ?_, fun q => ?_, hst⟩
  · cases h1 : get q A.action with
    | none =>
      cases h2 : get q B.action with
      | none => trivial
      | some row' =>
        obtain ⟨γ, hγ⟩ := hsb.rows q row' h2
        obtain ⟨row, _, h3, _⟩ := hrow γ q (by rw [hw]; exact hγ)
        rw [h1] at h3; cases h3
    | some row =>
      obtain ⟨γ, hγ⟩ := hsa.rows q row h1
      obtain ⟨row, row', h3, h4, h5⟩ := hrow γ q hγ
      rw [h1] at h3; cases h3
      rw [h4]
      exact h5
  · have hg : ∀ γ, A.walk γ = some q → ∀ n, (get q A.goto).bind (get n) = (get q B.goto).bind (get n) := fun γ hγ n => hgoes γ q hγ (.nt n)
    have hex : ∀ row : List (Nat × Nat), row ≠ [] → ∃ n v, get n row = some v := by
      intro row hne
      cases row with
      | nil => exact absurd rfl hne
      | cons x row => exact ⟨x.1, get_isSome_iff.2 (by simp)⟩
    cases h1 : get q A.goto with
    | none =>
      cases h2 : get q B.goto with
      | none => trivial
      | some row' =>
        exfalso
        obtain ⟨γ, hγ⟩ := hsb.gotoRows q row' h2
        obtain ⟨n, v, hv⟩ := hex row' (hmb.goto_ne q row' h2)
        have := hg γ (by rw [hw]; exact hγ) n
        rw [h1, h2] at this
        simp [hv] at this
    | some row =>
      obtain ⟨γ, hγ⟩ := hsa.gotoRows q row h1
      have := hg γ hγ
      rw [h1] at this
      cases h2 : get q B.goto with
      | none =>
        exfalso
        obtain ⟨n, v, hv⟩ := hex row (hma.goto_ne q row h1)
        have := this n
        rw [h2] at this
        simp [hv] at this
      | some row' =>
        rw [h2] at this
        exact fun n => this n
  · have he : ∀ γ, A.walk γ = some q → LookRel (fun es es' => ∀ r, r ∈ es' ↔ r ∈ es) (get q A.errors) (get q B.errors) := by
      intro γ hγ
      rcases errors_rel ha hb hγ (by rw [← hw]; exact hγ) with ⟨k1, k2⟩ | ⟨l, l', k1, k2, k3⟩
      · rw [k1, k2]; trivial
      · rw [k1, k2]; exact k3
    cases h1 : get q A.errors with
    | none =>
      cases h2 : get q B.errors with
      | none => trivial
      | some es =>
        obtain ⟨row, hr⟩ := hmb.errors q es h2
        obtain ⟨γ, hγ⟩ := hsb.rows q row hr
        have := he γ (by rw [hw]; exact hγ)
        rw [h1, h2] at this
        exact this
    | some es =>
      obtain ⟨row, hr⟩ := hma.errors q es h1
      obtain ⟨γ, hγ⟩ := hsa.rows q row hr
      have := he γ hγ
      rw [h1] at this
      exact this

end

/-! ## Another numbering -/

/-- The first one moves to the end. -/
def turn {α : Type} : List α → List α
  | [] => []
  | x :: l => l ++ [x]

theorem turn_perm {α : Type} (l : List α) : (turn l).Perm l := by
  cases l with
  | nil => exact .refl _
  | cons x l => exact List.perm_append_singleton x l

theorem turn_idx {α : Type} [BEq α] [LawfulBEq α] {l : List α} (hn : l.Nodup) {x y : α} (hx : x ∈ l) (hy : y ∈ l) (hxy : x ≠ y) :
    (turn l).idxOf x ≠ l.idxOf x := by
  cases l with
  | nil => cases hx
  | cons z l =>
    rw [List.nodup_cons] at hn
    unfold turn
    by_cases hz : z = x
    · subst hz
      rw [List.idxOf_append, if_neg hn.1]
      simp
      rintro rfl
      simp at hy
      exact hxy hy.symm
    · have hx' : x ∈ l := by
        rcases List.mem_cons.1 hx with h | h
        · exact absurd h.symm hz
        · exact h
      rw [List.idxOf_append, if_pos hx', List.idxOf_cons, beq_eq_false_iff_ne.2 hz]
      simp

/-- Seeds that give other numbers to the states. -/
def Seeds.turn (o : Seeds) : Seeds := { o with keyOrd := fun l => Verif.Par.turn (o.keyOrd l) }

theorem Seeds.turn_fair {o : Seeds} (ho : o.Fair) : o.turn.Fair :=
  ⟨ho.gotoOrd, fun l => (turn_perm _).trans (ho.keyOrd l), ho.tableOrd⟩

theorem finish_start {o : Seeds} {R : List PRule} {s : Nat} {start : State} {sl : List (State × Goto)}
    {T : Tables} {ws : List Warning} (h : finish o R s start sl = some (T, ws)) :
    start ∈ o.keyOrd (sl.map Prod.fst) ∧ T.start = (o.keyOrd (sl.map Prod.fst)).idxOf start := by
  unfold finish at h
  simp only at h
  split at h
  · cases h
  · split at h
    · rename_i hs
      cases h
      rw [indexOf_some] at hs
      exact hs
    · cases h

/-- There are two states, so that the start state can have another number. -/
theorem turn_start {o : Seeds} (ho : o.Fair) {g : Gram} {fuel : Nat} {T : Tables} {ws : List Warning}
    (h : newTables fuel o g = .ok (T, ws)) :
    ∃ T', newTables fuel o.turn g = .ok (T', ws) ∧ T'.start ≠ T.start := by
  obtain ⟨start, sl, hc, hf, hn⟩ := new_states ho h
  obtain ⟨T', ws', keys, k1, _⟩ := finish_spec (rules'_start g) (rules'_length g) (Seeds.turn_fair ho) hc
  have h' := hn o.turn rfl
  rw [k1] at h'
  have hws : ws' = ws := by
    unfold finish at hf k1
    simp only at hf k1
    change (match calcTable g.rules' g.rules.length (o.tableOrd sl) with
      | none => none
      | some (at', gt, ws) => _) = _ at k1
    split at hf
    · cases hf
    · rename_i at' gt ws0 hct
      rw [hct] at k1
      simp only at k1
      split at hf
      · cases hf
        split at k1
        · cases k1; rfl
        · cases k1
      · cases hf
  subst hws
  refine ⟨T', h', ?_⟩
  obtain ⟨m1, e1⟩ := finish_start hf
  obtain ⟨_, e2⟩ := finish_start k1
  have hnd : (o.keyOrd (sl.map Prod.fst)).Nodup := (List.Perm.nodup_iff (ho.keyOrd _)).2 hc.nodup
  -- the state after the start symbol
  obtain ⟨x, hx, hx1⟩ := List.mem_map.1 hc.start_mem
  have hS : ∃ S', get (.nt g.start) x.2 = some S' := by
    cases hg : get (Sym.nt g.start) x.2 with
    | some S' => exact ⟨S', rfl⟩
    | none =>
      exfalso
      exact (hc.gnone x hx [] (by rw [hx1]; exact hc.start_is) (.nt g.start)).1 hg _ .start ⟨g.rules.length, 1, .eoi⟩ ⟨_, rules'_start g, rfl, rfl⟩
  obtain ⟨S', hS'⟩ := hS
  have hmem : S' ∈ o.keyOrd (sl.map Prod.fst) := (ho.keyOrd _).mem_iff.2 (hc.gclosed x hx _ _ hS')
  have hne : start ≠ S' := by
    intro he
    have h1 : Valid g.rules' g.rules.length ([] ++ [.nt g.start]) ⟨g.rules.length, 0 + 1, .eoi⟩ := .advance _ _ _ _ .start (rules'_start g) rfl
    have h2 := ((hc.gsome x hx [] (by rw [hx1]; exact hc.start_is) _ _ hS').mem _).2 h1
    rw [← he] at h2
    have h3 := valid_nil.1 ((hc.start_is.mem _).1 h2)
    generalize hi : (⟨g.rules.length, 0 + 1, .eoi⟩ : Item) = i at h3
    cases h3 with
    | base _ h => subst h; cases hi
    | step => cases hi
  rw [e1, e2]
  exact turn_idx hnd m1 hmem hne

end Verif.Par
