import Verif.Par.Eq
import Verif.Par.BisimProof
import Verif.Par.NodupProof

/-!
# Lemmas about equality of parsers
-/

namespace Verif.Par

variable {N T E : Type}

/-! ## Maps -/

/-- Both are missing, or both are there and related. -/
def LookRel {β : Type} (r : β → β → Prop) : Option β → Option β → Prop
  | none, none => True
  | some v, some v' => r v v'
  | _, _ => False

section
variable {κ β : Type} [DecidableEq κ]

theorem mapEq_iff {eqv : β → β → Bool} {m m' : List (κ × β)} (hn : (m.map Prod.fst).Nodup) (hn' : (m'.map Prod.fst).Nodup) :
    mapEq eqv m m' = true ↔ ∀ k, LookRel (fun v v' => eqv v v' = true) (get k m) (get k m') := by
  unfold mapEq
  rw [Bool.and_eq_true, beq_iff_eq, List.all_eq_true]
  constructor
  · rintro ⟨h1, h2⟩ k
    cases hk : get k m with
    | some v =>
      have := h2 _ (get_mem hk)
      simp only at this
      cases hk' : get k m' with
      | some v' => rw [hk'] at this; exact this
      | none => rw [hk'] at this; cases this
    | none =>
      cases hk' : get k m' with
      | none => trivial
      | some v' =>
        exfalso
        have hmem : k ∈ m'.map Prod.fst := get_isSome_iff.1 ⟨v', hk'⟩
        have hnot : k ∉ m.map Prod.fst := fun h => by
          obtain ⟨v, hv⟩ := get_isSome_iff.2 h
          rw [hk] at hv; cases hv
        have := length_le_of_nodup_subset (s := k :: m.map Prod.fst) (t := m'.map Prod.fst) (List.nodup_cons.2 ⟨hnot, hn⟩) (by
          intro x hx
          rcases List.mem_cons.1 hx with rfl | hx
          · exact hmem
          · obtain ⟨⟨y, v⟩, hy, rfl⟩ := List.mem_map.1 hx
            have := h2 _ hy
            simp only at this
            cases hk' : get y m' with
            | some v' => exact get_isSome_iff.1 ⟨v', hk'⟩
            | none => rw [hk'] at this; cases this)
        simp only [List.length_cons, List.length_map] at this
        omega
  · intro h
    have key : ∀ {a b : List (κ × β)}, (a.map Prod.fst).Nodup → (∀ k v, get k a = some v → ∃ v', get k b = some v') → a.length ≤ b.length := by
      intro a b ha hab
      have := length_le_of_nodup_subset (s := a.map Prod.fst) (t := b.map Prod.fst) ha (by
        intro x hx
        obtain ⟨v, hv⟩ := get_isSome_iff.2 hx
        exact get_isSome_iff.1 (hab x v hv))
      simpa using this
    refine ⟨Nat.le_antisymm (key hn ?_) (key hn' ?_), ?_⟩
    · intro k v hk
      have := h k
      rw [hk] at this
      cases hk' : get k m' with
      | some v' => exact ⟨v', rfl⟩
      | none => rw [hk'] at this; exact this.elim
    · intro k v hk
      have := h k
      rw [hk] at this
      cases hk' : get k m with
      | some v' => exact ⟨v', rfl⟩
      | none => rw [hk'] at this; exact this.elim
    · rintro ⟨k, v⟩ hx
      have := h k
      rw [get_of_mem hn hx] at this
      simp only
      cases hk' : get k m' with
      | some v' => rw [hk'] at this; exact this
      | none => rw [hk'] at this; exact this.elim

theorem LookRel.eq {o o' : Option β} : LookRel (fun v v' => v = v') o o' ↔ o = o' := by
  cases o <;> cases o' <;> simp [LookRel]

theorem LookRel.imp {r r' : β → β → Prop} {o o' : Option β} (h : LookRel r o o') (hr : ∀ v v', o = some v → o' = some v' → r v v' → r' v v') :
    LookRel r' o o' := by
  cases o with
  | none =>
    cases o' with
    | none => trivial
    | some => exact h
  | some v =>
    cases o' with
    | none => exact h
    | some v' => exact hr v v' rfl rfl h

end

theorem setEq_iff {l l' : List Nat} : setEq l l' = true ↔ ∀ r, r ∈ l' ↔ r ∈ l := by
  unfold setEq
  simp only [Bool.and_eq_true, List.all_eq_true, List.contains_iff_mem]
  exact ⟨fun h r => ⟨h.2 r, h.1 r⟩, fun h => ⟨fun r => (h r).2, fun r => (h r).1⟩⟩

theorem rulesEq_iff {l l' : List (Rule N T E)} : rulesEq l l' = true ↔ l.map Rule.plain = l'.map Rule.plain := by
  induction l generalizing l' with
  | nil => cases l' <;> simp [rulesEq]
  | cons r l ih =>
    cases l' with
    | nil => simp [rulesEq]
    | cons r' l' => simp [rulesEq, ih, Rule.beq, Rule.plain]

/-! ## Tables -/

/-- Tables that give the same answers. -/
structure Tables.Same (A B : Tables) : Prop where
  action : ∀ q, LookRel (fun row row' => ∀ a, get a row = get a row') (get q A.action) (get q B.action)
  goto : ∀ q, LookRel (fun row row' => ∀ n, get n row = get n row') (get q A.goto) (get q B.goto)
  errors : ∀ q, LookRel (fun es es' => ∀ r, r ∈ es' ↔ r ∈ es) (get q A.errors) (get q B.errors)
  start : A.start = B.start

theorem mapEq_rows {κ β : Type} [DecidableEq κ] [DecidableEq β] {m m' : List (Nat × List (κ × β))} (hn : (m.map Prod.fst).Nodup)
    (hn' : (m'.map Prod.fst).Nodup) (hr : ∀ x ∈ m, (x.2.map Prod.fst).Nodup) (hr' : ∀ x ∈ m', (x.2.map Prod.fst).Nodup) :
    mapEq (mapEq fun x y => x == y) m m' = true ↔
      ∀ q, LookRel (fun row row' => ∀ a, get a row = get a row') (get q m) (get q m') := by
  rw [mapEq_iff hn hn']
  have key : ∀ q row row', get q m = some row → get q m' = some row' →
      (mapEq (fun x y => x == y) row row' = true ↔ ∀ a, get a row = get a row') := by
    intro q row row' h1 h2
    rw [mapEq_iff (hr _ (get_mem h1)) (hr' _ (get_mem h2))]
    simp only [beq_iff_eq]
    exact forall_congr' fun a => LookRel.eq
  exact ⟨fun h q => (h q).imp fun v v' h1 h2 => (key q v v' h1 h2).1, fun h q => (h q).imp fun v v' h1 h2 => (key q v v' h1 h2).2⟩

theorem Tables.eq_iff {A B : Tables} (ha : A.Keys) (hb : B.Keys) : A.eq B = true ↔ A.Same B := by
  unfold Tables.eq
  simp only [Bool.and_eq_true, beq_iff_eq]
  rw [mapEq_rows ha.action hb.action ha.row hb.row, mapEq_rows ha.goto hb.goto ha.gotoRow hb.gotoRow, mapEq_iff ha.errors hb.errors]
  simp only [setEq_iff]
  exact ⟨fun ⟨⟨⟨h1, h2⟩, h3⟩, h4⟩ => ⟨h1, h2, h3, h4⟩, fun ⟨h1, h2, h3, h4⟩ => ⟨⟨⟨h1, h2⟩, h3⟩, h4⟩⟩

/-! ## Runs -/

section
variable {A B : Tables} (hs : A.Same B)
include hs

theorem Tables.Same.act (q : Nat) (a : Term) : A.act q a = B.act q a := by
  have := hs.action q
  unfold Tables.act
  cases h1 : get q A.action with
  | none =>
    cases h2 : get q B.action with
    | none => rfl
    | some row' => rw [h1, h2] at this; exact this.elim
  | some row =>
    cases h2 : get q B.action with
    | none => rw [h1, h2] at this; exact this.elim
    | some row' => rw [h1, h2] at this; exact this a

theorem Tables.Same.gotoSome (q n : Nat) : (get q A.goto).bind (get n) = (get q B.goto).bind (get n) := by
  have := hs.goto q
  cases h1 : get q A.goto with
  | none =>
    cases h2 : get q B.goto with
    | none => rfl
    | some row' => rw [h1, h2] at this; exact this.elim
  | some row =>
    cases h2 : get q B.goto with
    | none => rw [h1, h2] at this; exact this.elim
    | some row' => rw [h1, h2] at this; exact this n

theorem Tables.Same.goes (q : Nat) (X : Sym) : A.goes q X = B.goes q X := by
  cases X with
  | nt n => exact hs.gotoSome q n
  | tm t => simp only [Tables.goes, hs.act]

theorem Tables.Same.walk (γ : List Sym) : A.walk γ = B.walk γ := by
  unfold Tables.walk
  rw [hs.start]
  generalize B.start = q
  induction γ generalizing q with
  | nil => rfl
  | cons X γ ih =>
    simp only [Tables.walkFrom, hs.goes]
    cases B.goes q X with
    | none => rfl
    | some q' => exact ih q'

theorem Tables.Same.recovRules {rv rv' : List Nat} (hr : ∀ r, r ∈ rv' ↔ r ∈ rv) (e back : Bool) (q : Nat) :
    OptRel (recovRules A.errors e rv q back) (recovRules B.errors e rv' q back) := by
  unfold Verif.Par.recovRules
  split
  · trivial
  · have := hs.errors q
    cases h1 : get q A.errors with
    | none =>
      cases h2 : get q B.errors with
      | none => trivial
      | some l' => rw [h1, h2] at this; exact this.elim
    | some l =>
      cases h2 : get q B.errors with
      | none => rw [h1, h2] at this; exact this.elim
      | some l' =>
        rw [h1, h2] at this
        have k3 : ∀ r, r ∈ l' ↔ r ∈ l := this
        simp only [isEmpty_rel hr]
        split
        · exact k3
        · have hany : (rv'.any fun r => l'.contains r) = (rv.any fun r => l.contains r) := by
            rw [Bool.eq_iff_iff]
            simp only [List.any_eq_true, List.contains_iff_mem]
            exact ⟨fun ⟨r, x, y⟩ => ⟨r, (hr r).1 x, (k3 r).1 y⟩, fun ⟨r, x, y⟩ => ⟨r, (hr r).2 x, (k3 r).2 y⟩⟩
          rw [hany]
          split
          · intro r
            simp only [List.mem_filter, List.contains_iff_mem, hr, k3]
          · trivial

/-- Results of the search for a state to recover in. -/
theorem Tables.Same.recover (st : List (Nat × SSym N)) {rv rv' : List Nat} (hr : ∀ r, r ∈ rv' ↔ r ∈ rv) (e : Bool) (q head errHead : Nat) (back : Bool) :
    (recover A.errors e rv st q head errHead back = none ∧ recover B.errors e rv' st q head errHead back = none) ∨
    ∃ q0 st0 l l' x, recover A.errors e rv st q head errHead back = some (q0, st0, l, x) ∧
      recover B.errors e rv' st q head errHead back = some (q0, st0, l', x) ∧ ∀ r, r ∈ l' ↔ r ∈ l := by
  induction st generalizing q head errHead back with
  | nil =>
    have := hs.recovRules hr e back q
    simp only [Verif.Par.recover]
    cases h1 : Verif.Par.recovRules A.errors e rv q back with
    | none =>
      cases h2 : Verif.Par.recovRules B.errors e rv' q back with
      | none => exact Or.inl ⟨rfl, rfl⟩
      | some l' => rw [h1, h2] at this; exact this.elim
    | some l =>
      cases h2 : Verif.Par.recovRules B.errors e rv' q back with
      | none => rw [h1, h2] at this; exact this.elim
      | some l' => rw [h1, h2] at this; exact Or.inr ⟨_, _, _, _, _, rfl, rfl, this⟩
  | cons y st ih =>
    obtain ⟨s, y⟩ := y
    have := hs.recovRules hr e back q
    simp only [Verif.Par.recover]
    cases h1 : Verif.Par.recovRules A.errors e rv q back with
    | none =>
      cases h2 : Verif.Par.recovRules B.errors e rv' q back with
      | none => cases y <;> exact ih _ _ _ _
      | some l' => rw [h1, h2] at this; exact this.elim
    | some l =>
      cases h2 : Verif.Par.recovRules B.errors e rv' q back with
      | none => rw [h1, h2] at this; exact this.elim
      | some l' => rw [h1, h2] at this; exact Or.inr ⟨_, _, _, _, _, rfl, rfl, this⟩

end

/-- The same but for the order of a set. -/
def CfgEq (c c' : Cfg N T) : Prop := ∃ rv, c' = { c with recov := rv } ∧ ∀ r, r ∈ rv ↔ r ∈ c.recov

inductive StepEq : Step N T E → Step N T E → Prop
  | more (c c') : CfgEq c c' → StepEq (.more c) (.more c')
  | done (r c c') : CfgEq c c' → StepEq (.done r c) (.done r c')
  | panic : StepEq .panic .panic

theorem CfgEq.fill {idx : T → Nat} {c c' : Cfg N T} (h : CfgEq c c') : CfgEq (fill idx c) (fill idx c') := by
  obtain ⟨rv, rfl, hr⟩ := h
  obtain ⟨state, read, src, buffer, stack, recov, log, pulls⟩ := c
  cases buffer with
  | cons b buffer => exact ⟨rv, rfl, hr⟩
  | nil => cases src <;> exact ⟨rv, rfl, hr⟩

variable {p p' : Parser N T E} {idx : T → Nat}

theorem onError_same (hs : p.tab.Same p'.tab) {c c' : Cfg N T} (h : CfgEq c c') (a : Term) (i : Nat) :
    StepEq (onError idx p c a i) (onError idx p' c' a i) := by
  obtain ⟨rv, rfl, hr⟩ := h
  unfold onError
  simp only
  rcases hs.recover c.stack hr (a == .eoi) c.state i i false with ⟨h1, h2⟩ | ⟨q, st, l, l', ⟨head, errHead, back⟩, h1, h2, h3⟩
  · rw [h1, h2]; exact .done _ _ _ ⟨rv, rfl, hr⟩
  · rw [h1, h2]
    simp only
    cases repush idx c.read head i c.buffer with
    | none => exact .panic
    | some buffer =>
      have := hs.action q
      cases k1 : get q p.tab.action with
      | none =>
        cases k2 : get q p'.tab.action with
        | none => exact .panic
        | some row' => rw [k1, k2] at this; exact this.elim
      | some row =>
        cases k2 : get q p'.tab.action with
        | none => rw [k1, k2] at this; exact this.elim
        | some row' =>
          rw [k1, k2] at this
          have this : ∀ a, get a row = get a row' := this
          simp only [← this]
          split
          · exact .more _ _ ⟨l', rfl, h3⟩
          · exact .panic

theorem onReduce_same (hs : p.tab.Same p'.tab) (hp : p.rules = p'.rules) {c c' : Cfg N T} (h : CfgEq c c') (r : Nat) :
    StepEq (onReduce p c r) (onReduce p' c' r) := by
  obtain ⟨rv, rfl, hr⟩ := h
  unfold onReduce
  rw [← hp]
  cases p.rules[r]? with
  | none => exact .panic
  | some rule =>
    simp only
    split
    · exact .panic
    · cases mkArgs c.read 0 ((c.stack.take rule.rhs.length).reverse.map Prod.snd) with
      | none => exact .panic
      | some args =>
        simp only
        cases rule.gen args with
        | error e => exact .done _ _ _ ⟨rv, rfl, hr⟩
        | ok v =>
          simp only [← hs.gotoSome]
          cases (get ((((c.stack.take rule.rhs.length).reverse).head?.map Prod.fst).getD c.state) p.tab.goto).bind (get rule.lhs) with
          | none => exact .panic
          | some q =>
            refine .more _ _ ⟨_, rfl, ?_⟩
            intro x
            have : (r ∈ rv) ↔ (r ∈ c.recov) := hr r
            simp only [List.contains_iff_mem, this]
            split
            · exact Iff.rfl
            · exact hr x

theorem step_same (hs : p.tab.Same p'.tab) (hp : p.rules = p'.rules) {c c' : Cfg N T} (h : CfgEq c c') :
    StepEq (step idx p c) (step idx p' c') := by
  have h := h.fill (idx := idx)
  unfold step
  generalize fill idx c = d at h
  generalize fill idx c' = d' at h
  obtain ⟨rv, rfl, hr⟩ := h
  simp only
  cases hb : d.buffer with
  | nil => exact .panic
  | cons ai buffer =>
    obtain ⟨a, i⟩ := ai
    simp only
    have := hs.action d.state
    cases k1 : get d.state p.tab.action with
    | none =>
      cases k2 : get d.state p'.tab.action with
      | none => exact .panic
      | some row' => rw [k1, k2] at this; exact this.elim
    | some row =>
      cases k2 : get d.state p'.tab.action with
      | none => rw [k1, k2] at this; exact this.elim
      | some row' =>
        rw [k1, k2] at this
        have this : ∀ a, get a row = get a row' := this
        simp only [← this]
        cases get a row with
        | none => exact onError_same hs ⟨rv, by rw [hb], hr⟩ a i
        | some act =>
          cases act with
          | shift s =>
            cases a with
            | sym t => exact .more _ _ ⟨rv, rfl, hr⟩
            | err => exact .panic
            | eoi => exact .more _ _ ⟨rv, rfl, hr⟩
          | reduce r => exact onReduce_same hs hp ⟨rv, by rw [hb], hr⟩ r
          | accept =>
            simp only
            cases hst : d.stack with
            | nil => exact .panic
            | cons x st =>
              obtain ⟨q, y⟩ := x
              cases y with
              | nt v i => exact .done _ _ _ ⟨rv, by rw [hb, hst], hr⟩
              | tok => exact .panic
              | err => exact .panic
              | eoi => exact .panic

theorem run_same (hs : p.tab.Same p'.tab) (hp : p.rules = p'.rules) {c c' : Cfg N T} (h : CfgEq c c') (n : Nat) :
    StepEq (run idx p n c) (run idx p' n c') := by
  induction n generalizing c c' with
  | zero => exact .more _ _ h
  | succ n ih =>
    simp only [run]
    have := step_same (idx := idx) hs hp h
    cases h1 : step idx p c with
    | more d =>
      rw [h1] at this
      generalize step idx p' c' = y at this
      cases this with
      | more _ _ h2 => exact ih h2
    | done r d =>
      rw [h1] at this
      generalize step idx p' c' = y at this
      cases this with
      | done _ _ _ h2 => exact .done _ _ _ h2
    | panic =>
      rw [h1] at this
      generalize step idx p' c' = y at this
      cases this
      exact .panic

theorem Tables.Same.init (hs : p.tab.Same p'.tab) (input : List T) : CfgEq (Cfg.init p input) (Cfg.init p' input) :=
  ⟨[], by simp [Cfg.init, hs.start], fun _ => Iff.rfl⟩

theorem eq_outcome (hs : p.tab.Same p'.tab) (hp : p.rules = p'.rules) (idx : T → Nat) (input : List T) :
    (∀ x c, ParsesTo idx p input x c → ∃ c', ParsesTo idx p' input x c' ∧ c'.log = c.log ∧ c'.pulls = c.pulls) ∧
    (ParsePanics idx p input → ParsePanics idx p' input) ∧ (ParseDiverges idx p input → ParseDiverges idx p' input) := by
  have h := run_same (idx := idx) hs hp (hs.init input)
  refine ⟨?_, ?_, ?_⟩
  · rintro x c ⟨n, hn⟩
    have := h n
    rw [hn] at this
    generalize hy : run idx p' n (Cfg.init p' input) = y at this
    cases this with
    | done _ _ c' h1 =>
      obtain ⟨rv, rfl, _⟩ := h1
      exact ⟨_, ⟨n, hy⟩, rfl, rfl⟩
  · rintro ⟨n, hn⟩
    have := h n
    rw [hn] at this
    generalize hy : run idx p' n (Cfg.init p' input) = y at this
    cases this
    exact ⟨n, hy⟩
  · intro hd n
    obtain ⟨c, hn⟩ := hd n
    have := h n
    rw [hn] at this
    generalize hy : run idx p' n (Cfg.init p' input) = y at this
    cases this with
    | more _ c' _ => exact ⟨c', rfl⟩

theorem Tables.Same.symm {A B : Tables} (h : A.Same B) : B.Same A := by
  have key : ∀ {β : Type} {r r' : β → β → Prop} {o o' : Option β}, LookRel r o o' → (∀ v v', r v v' → r' v' v) → LookRel r' o' o := by
    intro β r r' o o' h hr
    cases o with
    | none =>
      cases o' with
      | none => trivial
      | some => exact h
    | some v =>
      cases o' with
      | none => exact h
      | some v' => exact hr _ _ h
  exact ⟨fun q => key (h.action q) fun _ _ h a => (h a).symm, fun q => key (h.goto q) fun _ _ h a => (h a).symm,
    fun q => key (h.errors q) fun _ _ h a => (h a).symm, h.start.symm⟩

theorem Tables.Same.refl (A : Tables) : A.Same A := by
  have key : ∀ {β : Type} {r : β → β → Prop} {o : Option β}, (∀ v, r v v) → LookRel r o o := by
    intro β r o hr
    cases o with
    | none => trivial
    | some v => exact hr v
  exact ⟨fun q => key fun _ _ => rfl, fun q => key fun _ _ => rfl, fun q => key fun _ _ => Iff.rfl, rfl⟩

theorem Tables.Same.trans {A B C : Tables} (h : A.Same B) (h' : B.Same C) : A.Same C := by
  have key : ∀ {β : Type} {r : β → β → Prop} {o o' o'' : Option β}, LookRel r o o' → LookRel r o' o'' →
      (∀ v v' v'', r v v' → r v' v'' → r v v'') → LookRel r o o'' := by
    intro β r o o' o'' h h' hr
    cases o <;> cases o' <;> cases o'' <;> first | trivial | exact h.elim | exact h'.elim | exact hr _ _ _ h h'
  exact ⟨fun q => key (h.action q) (h'.action q) fun _ _ _ h h' a => (h a).trans (h' a),
    fun q => key (h.goto q) (h'.goto q) fun _ _ _ h h' a => (h a).trans (h' a),
    fun q => key (h.errors q) (h'.errors q) fun _ _ _ h h' a => (h' a).trans (h a), h.start.trans h'.start⟩

end Verif.Par
