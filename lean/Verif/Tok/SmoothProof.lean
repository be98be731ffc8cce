import Verif.Tok.Smooth
import Verif.Tok.MinProof
import Verif.Tok.LiveProof
import Verif.Tok.BuilderProof

/-!
# When hash collisions can do no harm: proofs for C77
-/

namespace Verif.Tok

/-! ## Rows that compare equal -/

theorem rowEq_ge : ∀ {r r' : Row} {k : Nat}, rowEq r r' = true → Ord k r' → ∀ x ∈ r, k ≤ x.1.1 := by
  intro r
  induction r with
  | nil => intro r' k _ _ x hx; cases hx
  | cons y t ih =>
    intro r' k h ho x hx
    cases r' with
    | nil => simp [rowEq] at h
    | cons y' t' =>
      obtain ⟨⟨s, e⟩, g⟩ := y
      obtain ⟨⟨s', e'⟩, g'⟩ := y'
      simp only [rowEq, Bool.and_eq_true, beq_iff_eq] at h
      obtain ⟨⟨rfl, rfl⟩, h⟩ := h
      rcases List.mem_cons.1 hx with rfl | hx
      · exact ho.1
      · have := ih h ho.2.2 x hx
        have h1 := ho.1
        have h2 := ho.2.1
        omega

theorem rowEq_symm : ∀ {r r' : Row}, rowEq r r' = true → rowEq r' r = true := by
  intro r
  induction r with
  | nil =>
    intro r' h
    cases r' with
    | nil => rfl
    | cons => simp [rowEq] at h
  | cons y t ih =>
    intro r' h
    cases r' with
    | nil => simp [rowEq] at h
    | cons y' t' =>
      obtain ⟨⟨s, e⟩, g⟩ := y
      obtain ⟨⟨s', e'⟩, g'⟩ := y'
      simp only [rowEq, Bool.and_eq_true, beq_iff_eq] at h ⊢
      exact ⟨⟨h.1.1.symm, h.1.2.symm⟩, ih h.2⟩

/-- `r` ends a range behind `c`, `r'` goes on with the same target. -/
def Shorter (r r' : Row) (c g : Nat) : Prop := InRow r c g ∧ InRow r' c g ∧ InRow r' (c + 1) g ∧ ∀ n, ¬ InRow r (c + 1) n

theorem shorter_head {s e e' g : Nat} {t t' : Row} (hs : s < e) (h' : Ord e' t') (hlt : e < e') (he : rowEq t t' = true) :
    Shorter (((s, e), g) :: t) (((s, e'), g) :: t') (e - 1) g := by
  have e1 : e - 1 + 1 = e := by omega
  refine ⟨inRow_cons.2 (.inl ⟨by omega, by omega, rfl⟩), inRow_cons.2 (.inl ⟨by omega, by omega, rfl⟩), inRow_cons.2 (.inl ⟨by omega, by omega, rfl⟩), ?_⟩
  intro n hn
  rw [e1] at hn
  rcases inRow_cons.1 hn with ⟨_, h2, _⟩ | ⟨lo, hi, h1, h2, h3⟩
  · omega
  · have := rowEq_ge he h' _ h1
    simp only at this
    omega

theorem shorter_cons {s e g0 c g : Nat} {t t' : Row} (h : Ord e t) (hh : Shorter t t' c g) :
    Shorter (((s, e), g0) :: t) (((s, e), g0) :: t') c g := by
  refine ⟨inRow_cons.2 (.inr hh.1), inRow_cons.2 (.inr hh.2.1), inRow_cons.2 (.inr hh.2.2.1), ?_⟩
  intro n hn
  rcases inRow_cons.1 hn with ⟨_, h2, _⟩ | hn
  · have := h.inRow_ge hh.1
    omega
  · exact hh.2.2.2 n hn

theorem rowEq_shorter : ∀ {r r' : Row} {k k' : Nat}, Ord k r → Ord k' r' → rowEq r r' = true → r ≠ r' →
    ∃ c g, Shorter r r' c g ∨ Shorter r' r c g := by
  intro r
  induction r with
  | nil =>
    intro r' k k' _ _ h hne
    cases r' with
    | nil => exact absurd rfl hne
    | cons => simp [rowEq] at h
  | cons y t ih =>
    intro r' k k' ho ho' h hne
    cases r' with
    | nil => simp [rowEq] at h
    | cons y' t' =>
      obtain ⟨⟨s, e⟩, g⟩ := y
      obtain ⟨⟨s', e'⟩, g'⟩ := y'
      simp only [rowEq, Bool.and_eq_true, beq_iff_eq] at h
      obtain ⟨⟨rfl, rfl⟩, h⟩ := h
      rcases Nat.lt_trichotomy e e' with hlt | rfl | hlt
      · exact ⟨_, _, .inl (shorter_head ho.2.1 ho'.2.2 hlt h)⟩
      · obtain ⟨c, g1, hc⟩ := ih ho.2.2 ho'.2.2 h (fun e => hne (by rw [e]))
        rcases hc with hc | hc
        · exact ⟨c, g1, .inl (shorter_cons ho.2.2 hc)⟩
        · exact ⟨c, g1, .inr (shorter_cons ho'.2.2 hc)⟩
      · exact ⟨_, _, .inr (shorter_head ho'.2.1 ho.2.2 hlt (rowEq_symm h))⟩

/-! ## Rows and their beginnings -/

/-- A range of the row begins at `c`. -/
def Head (r : Row) (c g : Nat) : Prop := ∃ e, ((c, e), g) ∈ r

theorem head_cons {s e n t c g} : Head (((s, e), n) :: t) c g ↔ (c = s ∧ g = n) ∨ Head t c g := by
  unfold Head
  constructor
  · rintro ⟨x, h⟩
    rcases List.mem_cons.1 h with h | h
    · cases h; exact .inl ⟨rfl, rfl⟩
    · exact .inr ⟨x, h⟩
  · rintro (⟨rfl, rfl⟩ | ⟨x, h⟩)
    · exact ⟨e, by simp⟩
    · exact ⟨x, List.mem_cons_of_mem _ h⟩

theorem Ord.head_ge {k r c g} (h : Ord k r) (hh : Head r c g) : k ≤ c := by
  obtain ⟨e, he⟩ := hh
  exact h.ge _ he

theorem rowEq_head : ∀ {r r' : Row}, rowEq r r' = true → ∀ c g, Head r c g ↔ Head r' c g := by
  intro r
  induction r with
  | nil =>
    intro r' h
    cases r' with
    | nil => intro c g; exact Iff.rfl
    | cons => simp [rowEq] at h
  | cons y t ih =>
    intro r' h
    cases r' with
    | nil => simp [rowEq] at h
    | cons y' t' =>
      obtain ⟨⟨s, e⟩, g⟩ := y
      obtain ⟨⟨s', e'⟩, g'⟩ := y'
      simp only [rowEq, Bool.and_eq_true, beq_iff_eq] at h
      obtain ⟨⟨rfl, rfl⟩, h⟩ := h
      intro c g
      rw [head_cons, head_cons, ih h]

theorem head_rowEq : ∀ {r r' : Row} {k k'}, Ord k r → Ord k' r' → (∀ c g, Head r c g ↔ Head r' c g) → rowEq r r' = true := by
  intro r
  induction r with
  | nil =>
    intro r' k k' _ _ h
    cases r' with
    | nil => rfl
    | cons y' t' =>
      obtain ⟨⟨s', e'⟩, g'⟩ := y'
      obtain ⟨_, he⟩ := (h s' g').2 (head_cons.2 (.inl ⟨rfl, rfl⟩))
      cases he
  | cons y t ih =>
    intro r' k k' ho ho' h
    cases r' with
    | nil =>
      obtain ⟨⟨s, e⟩, g⟩ := y
      obtain ⟨_, he⟩ := (h s g).1 (head_cons.2 (.inl ⟨rfl, rfl⟩))
      cases he
    | cons y' t' =>
      obtain ⟨⟨s, e⟩, g⟩ := y
      obtain ⟨⟨s', e'⟩, g'⟩ := y'
      have h1 := head_cons.1 ((h s g).1 (head_cons.2 (.inl ⟨rfl, rfl⟩)))
      have h2 := head_cons.1 ((h s' g').2 (head_cons.2 (.inl ⟨rfl, rfl⟩)))
      have o1 := ho.2.1
      have o2 := ho'.2.1
      have he : s = s' ∧ g = g' := by
        rcases h1 with h1 | h1
        · exact h1
        · rcases h2 with h2 | h2
          · exact ⟨h2.1.symm, h2.2.symm⟩
          · have := ho.2.2.head_ge h2
            have := ho'.2.2.head_ge h1
            omega
      obtain ⟨rfl, rfl⟩ := he
      simp only [rowEq, Bool.and_eq_true, beq_iff_eq]
      refine ⟨⟨trivial, trivial⟩, ih ho.2.2 ho'.2.2 ?_⟩
      intro c x
      have := h c x
      rw [head_cons, head_cons] at this
      constructor
      · intro hh
        rcases this.1 (.inr hh) with ⟨rfl, _⟩ | h3
        · have := ho.2.2.head_ge hh
          omega
        · exact h3
      · intro hh
        rcases this.2 (.inr hh) with ⟨rfl, _⟩ | h3
        · have := ho'.2.2.head_ge hh
          omega
        · exact h3

theorem head_iff : ∀ {r : Row} {k c g}, Canon k r → (Head r c g ↔ InRow r c g ∧ ∀ y, c = y + 1 → ¬ InRow r y g) := by
  intro r
  induction r with
  | nil =>
    intro k c g _
    constructor
    · rintro ⟨_, h⟩; cases h
    · rintro ⟨h, _⟩; exact absurd h not_inRow_nil
  | cons y t ih =>
    intro k c g hc
    obtain ⟨⟨s, e⟩, n⟩ := y
    have ho := hc.2.2.1.ord
    have hse := hc.2.1
    have hnext : Head t e n → False := by
      rintro ⟨x, hx⟩
      cases t with
      | nil => cases hx
      | cons z t =>
        obtain ⟨⟨s1, e1⟩, n1⟩ := z
        have h1 := hc.2.2.2 _ rfl
        simp only at h1
        rcases List.mem_cons.1 hx with hx | hx
        · cases hx; exact h1 ⟨rfl, rfl⟩
        · have := ho.2.2.ge _ hx
          have := ho.1
          have := ho.2.1
          simp only at *
          omega
    rw [head_cons, ih hc.2.2.1]
    constructor
    · rintro (⟨rfl, rfl⟩ | ⟨h1, h2⟩)
      · refine ⟨inRow_cons.2 (.inl ⟨Nat.le_refl _, hse, rfl⟩), ?_⟩
        rintro y rfl hy
        rcases inRow_cons.1 hy with ⟨h3, _⟩ | hy
        · omega
        · have := ho.inRow_ge hy
          omega
      · refine ⟨inRow_cons.2 (.inr h1), ?_⟩
        rintro y rfl hy
        rcases inRow_cons.1 hy with ⟨h3, h4, rfl⟩ | hy
        · have := ho.inRow_ge h1
          obtain rfl : e = y + 1 := by omega
          exact hnext ((ih hc.2.2.1).2 ⟨h1, h2⟩)
        · exact h2 y rfl hy
    · rintro ⟨h1, h2⟩
      rcases inRow_cons.1 h1 with ⟨h3, h4, rfl⟩ | h1
      · left
        refine ⟨?_, rfl⟩
        apply Classical.byContradiction
        intro hne
        exact h2 (c - 1) (by omega) (inRow_cons.2 (.inl ⟨by omega, by omega, rfl⟩))
      · exact .inr ⟨h1, fun y hy h3 => h2 y hy (inRow_cons.2 (.inr h3))⟩

/-! ## Observations -/

/-- `Same`, `Begins` and `Torn` for what an automaton shows. -/
def SameO (ob : List Nat → Option (Option Nat)) (n : Nat) (u v : List Nat) : Prop := ∀ x, x.length ≤ n → ob (u ++ x) = ob (v ++ x)

def BeginsO (ob : List Nat → Option (Option Nat)) (n : Nat) (u : List Nat) (c : Nat) : Prop :=
  ob (u ++ [c]) ≠ none ∧ ∀ y, c = y + 1 → ob (u ++ [y]) ≠ none → ¬ SameO ob n (u ++ [y]) (u ++ [c])

def TornO (ob : List Nat → Option (Option Nat)) (n : Nat) (u v : List Nat) (c : Nat) : Prop :=
  ob (u ++ [c]) ≠ none ∧ ¬ ob (u ++ [c + 1]) ≠ none ∧ ob (v ++ [c]) ≠ none ∧ ob (v ++ [c + 1]) ≠ none ∧
  SameO ob n u v ∧ SameO ob n (u ++ [c]) (v ++ [c]) ∧ SameO ob n (v ++ [c]) (v ++ [c + 1]) ∧
  ∀ x, (BeginsO ob n u x ↔ BeginsO ob n v x) ∧ (BeginsO ob n u x → SameO ob n (u ++ [x]) (v ++ [x]))

/-- At most `n` characters do not tell the states apart. -/
def DFA.Upto (d : DFA) (n i j : Nat) : Prop := ∀ x : List Nat, x.length ≤ n → d.obsFrom i x = d.obsFrom j x

/-- The groups are those after `n` rounds. -/
structure Level (d : DFA) (n : Nat) (gm : List Nat) : Prop where
  len : gm.length = d.rows.length
  same : ∀ i j, i < d.rows.length → j < d.rows.length → (gm.getD i 0 = gm.getD j 0 ↔ d.Upto n i j)

theorem obsFrom_nil (d : DFA) (i : Nat) : d.obsFrom i [] = some (d.accept i) := rfl

theorem obsFrom_cons (d : DFA) (i c : Nat) (x : List Nat) : d.obsFrom i (c :: x) = (d.next i c).bind fun m => d.obsFrom m x := by
  unfold DFA.obsFrom
  simp only [DFA.run]
  cases d.next i c <;> rfl

theorem upto_step {d : DFA} {n i j : Nat} : d.Upto (n + 1) i j ↔ d.Upto n i j ∧ ∀ c, (d.next i c = none ↔ d.next j c = none) ∧
    ∀ m m', d.next i c = some m → d.next j c = some m' → d.Upto n m m' := by
  constructor
  · intro h
    refine ⟨fun x hx => h x (by omega), fun c => ⟨?_, ?_⟩⟩
    · have h1 := h [c] (by simp)
      rw [obsFrom_cons, obsFrom_cons] at h1
      cases h2 : d.next i c <;> cases h3 : d.next j c <;> rw [h2, h3] at h1 <;> simp [obsFrom_nil] at h1 ⊢
    · intro m m' h2 h3 x hx
      have h1 := h (c :: x) (by simpa using hx)
      rw [obsFrom_cons, obsFrom_cons, h2, h3] at h1
      exact h1
  · rintro ⟨h1, h2⟩ x hx
    cases x with
    | nil => exact h1 [] (by simp)
    | cons c x =>
      rw [obsFrom_cons, obsFrom_cons]
      obtain ⟨h3, h4⟩ := h2 c
      cases h5 : d.next i c with
      | none => rw [h3.1 h5]
      | some m =>
        cases h6 : d.next j c with
        | none => rw [h3.2 h6] at h5; cases h5
        | some m' => exact h4 m m' h5 h6 x (by simpa using hx)

theorem level_key {d : DFA} {p n : Nat} {gm : List Nat} (h : d.WF p) (hl : Level d n gm) {i j : Nat} (hi : i < d.rows.length) (hj : j < d.rows.length) :
    gm.getD i 0 = gm.getD j 0 ∧ compress gm (d.rows.getD i []) = compress gm (d.rows.getD j []) ↔ d.Upto (n + 1) i j := by
  rw [compress_eq_iff h hi hj, hl.same i j hi hj, upto_step]
  refine and_congr_right fun _ => forall_congr' fun c => ?_
  cases h1 : d.next i c with
  | none =>
    cases h2 : d.next j c with
    | none => simp
    | some m' => simp
  | some m =>
    cases h2 : d.next j c with
    | none => simp
    | some m' =>
      simp only [Option.map_some, Option.some.injEq]
      rw [hl.same m m' (next_lt h h1) (next_lt h h2)]
      simp

theorem level_step {d : DFA} {p n : Nat} {gm : List Nat} {st : Round} (h : d.WF p) (hl : Level d n gm) (hs : RoundSpec d.rows gm st) :
    Level d (n + 1) st.gm :=
  ⟨hs.len, fun i j hi hj => (hs.same i j hi hj).trans (level_key h hl hi hj)⟩

theorem level_init {d : DFA} {p : Nat} (h : d.WF p) : Level d 0 (initGroups d) := by
  have hi := initGroups_inv h
  refine ⟨hi.len, fun i j h1 h2 => ?_⟩
  have hval : ∀ i, i < d.rows.length → (initGroups d).getD i 0 = match d.accept i with
      | some e => e + 1
      | none => 0 := by
    intro i hi
    simp only [initGroups, List.getD_eq_getElem?_getD, List.getElem?_map, List.getElem?_range hi, Option.map_some, Option.getD_some, DFA.accept]
    cases d.ends[i]? <;> rfl
  constructor
  · intro he x hx
    obtain rfl : x = [] := List.eq_nil_of_length_eq_zero (by omega)
    rw [obsFrom_nil, obsFrom_nil, hi.acc i j h1 h2 he]
  · intro he
    have := he [] (by simp)
    rw [obsFrom_nil, obsFrom_nil, Option.some.injEq] at this
    rw [hval i h1, hval j h2, this]

/-! ## Texts and keys -/

theorem obs_snoc {d : DFA} {u : List Nat} {i : Nat} (hu : d.run d.b u = some i) (c : Nat) : d.run d.b (u ++ [c]) = d.next i c := by
  rw [DFA.run_snoc, hu]
  rfl

theorem obs_none {d : DFA} {w : List Nat} : d.obs w ≠ none ↔ ∃ m, d.run d.b w = some m := by
  unfold DFA.obs
  cases d.run d.b w <;> simp


section
variable {d : DFA} {p n : Nat} {gm : List Nat} (h : d.WF p) (hl : Level d n gm)
include h hl

theorem sameO_iff {u v : List Nat} {i j : Nat} (hu : d.run d.b u = some i) (hv : d.run d.b v = some j) :
    SameO d.obs n u v ↔ gm.getD i 0 = gm.getD j 0 := by
  rw [hl.same i j (run_lt h u _ _ h.b hu) (run_lt h v _ _ h.b hv)]
  refine forall_congr' fun x => imp_congr_right fun _ => ?_
  have h1 := DFA.obsFrom_append d _ _ u x hu
  have h2 := DFA.obsFrom_append d _ _ v x hv
  rw [← h1, ← h2]
  rfl

omit hl in
theorem key_inRow {u : List Nat} {i : Nat} (hu : d.run d.b u = some i) {c g : Nat} :
    InRow (compress gm (d.rows.getD i [])) c g ↔ ∃ m, d.run d.b (u ++ [c]) = some m ∧ gm.getD m 0 = g := by
  rw [compress_inRow h (run_lt h u _ _ h.b hu), obs_snoc hu, Option.map_eq_some_iff]

theorem beginsO_iff {u : List Nat} {i : Nat} (hu : d.run d.b u = some i) (c : Nat) :
    BeginsO d.obs n u c ↔ ∃ g, Head (compress gm (d.rows.getD i [])) c g := by
  have hc := (compress_spec gm (ord_of_wf (row_wf h (run_lt h u _ _ h.b hu)))).1
  simp only [head_iff hc]
  constructor
  · rintro ⟨h1, h2⟩
    obtain ⟨m, hm⟩ := obs_none.1 h1
    refine ⟨gm.getD m 0, (key_inRow h hu).2 ⟨m, hm, rfl⟩, ?_⟩
    intro y hy h3
    obtain ⟨m', hm', he⟩ := (key_inRow h hu).1 h3
    exact h2 y hy (obs_none.2 ⟨m', hm'⟩) ((sameO_iff h hl hm' hm).2 he)
  · rintro ⟨g, h1, h2⟩
    obtain ⟨m, hm, rfl⟩ := (key_inRow h hu).1 h1
    refine ⟨obs_none.2 ⟨m, hm⟩, ?_⟩
    intro y hy h3 h4
    obtain ⟨m', hm'⟩ := obs_none.1 h3
    exact h2 y hy ((key_inRow h hu).2 ⟨m', hm', (sameO_iff h hl hm' hm).1 h4⟩)

theorem shorter_torn {u v : List Nat} {i j : Nat} (hu : d.run d.b u = some i) (hv : d.run d.b v = some j) (hg : gm.getD i 0 = gm.getD j 0)
    (he : rowEq (compress gm (d.rows.getD i [])) (compress gm (d.rows.getD j [])) = true) {c g : Nat}
    (hs : Shorter (compress gm (d.rows.getD i [])) (compress gm (d.rows.getD j [])) c g) : TornO d.obs n u v c := by
  obtain ⟨h1, h2, h3, h4⟩ := hs
  obtain ⟨m1, r1, e1⟩ := (key_inRow h hu).1 h1
  obtain ⟨m2, r2, e2⟩ := (key_inRow h hv).1 h2
  obtain ⟨m3, r3, e3⟩ := (key_inRow h hv).1 h3
  refine ⟨obs_none.2 ⟨_, r1⟩, ?_, obs_none.2 ⟨_, r2⟩, obs_none.2 ⟨_, r3⟩, (sameO_iff h hl hu hv).2 hg,
    (sameO_iff h hl r1 r2).2 (e1.trans e2.symm), (sameO_iff h hl r2 r3).2 (e2.trans e3.symm), ?_⟩
  · intro hx
    obtain ⟨m, hm⟩ := obs_none.1 hx
    exact h4 _ ((key_inRow h hu).2 ⟨m, hm, rfl⟩)
  · intro x
    have hh := rowEq_head he x
    refine ⟨?_, ?_⟩
    · rw [beginsO_iff h hl hu, beginsO_iff h hl hv]
      simp only [hh]
    · rw [beginsO_iff h hl hu]
      rintro ⟨g, hx⟩
      have hx' := (hh g).1 hx
      have c1 := (compress_spec gm (ord_of_wf (row_wf h (run_lt h u _ _ h.b hu)))).1
      have c2 := (compress_spec gm (ord_of_wf (row_wf h (run_lt h v _ _ h.b hv)))).1
      obtain ⟨m, hm, k1⟩ := (key_inRow h hu).1 ((head_iff c1).1 hx).1
      obtain ⟨m', hm', k2⟩ := (key_inRow h hv).1 ((head_iff c2).1 hx').1
      exact (sameO_iff h hl hm hm').2 (k1.trans k2.symm)

theorem torn_keys {u v : List Nat} {c : Nat} (ht : TornO d.obs n u v c) : ∃ i j, i < d.rows.length ∧ j < d.rows.length ∧
    gm.getD i 0 = gm.getD j 0 ∧ rowEq (compress gm (d.rows.getD i [])) (compress gm (d.rows.getD j [])) = true ∧
    compress gm (d.rows.getD i []) ≠ compress gm (d.rows.getD j []) := by
  obtain ⟨h1, h2, h3, h4, h5, h6, h7, h8⟩ := ht
  have hsome : ∀ {w : List Nat} {c}, d.obs (w ++ [c]) ≠ none → ∃ i, d.run d.b w = some i := by
    intro w c hw
    obtain ⟨m, hm⟩ := obs_none.1 hw
    cases hr : d.run d.b w with
    | none => rw [DFA.run_snoc, hr] at hm; cases hm
    | some i => exact ⟨i, rfl⟩
  obtain ⟨i, hu⟩ := hsome h1
  obtain ⟨j, hv⟩ := hsome h3
  have il := run_lt h u _ _ h.b hu
  have jl := run_lt h v _ _ h.b hv
  have c1 := (compress_spec gm (ord_of_wf (row_wf h il))).1
  have c2 := (compress_spec gm (ord_of_wf (row_wf h jl))).1
  refine ⟨i, j, il, jl, (sameO_iff h hl hu hv).1 h5, head_rowEq c1.ord c2.ord ?_, ?_⟩
  · intro x g
    have hx := h8 x
    rw [beginsO_iff h hl hu, beginsO_iff h hl hv] at hx
    have key : ∀ {g g'}, Head (compress gm (d.rows.getD i [])) x g → Head (compress gm (d.rows.getD j [])) x g' → g = g' := by
      intro g g' k1 k2
      obtain ⟨m, hm, rfl⟩ := (key_inRow h hu).1 ((head_iff c1).1 k1).1
      obtain ⟨m', hm', rfl⟩ := (key_inRow h hv).1 ((head_iff c2).1 k2).1
      exact (sameO_iff h hl hm hm').1 (hx.2 ⟨_, k1⟩)
    constructor
    · intro k1
      obtain ⟨g', k2⟩ := hx.1.1 ⟨g, k1⟩
      rw [key k1 k2]
      exact k2
    · intro k2
      obtain ⟨g', k1⟩ := hx.1.2 ⟨g, k2⟩
      rw [← key k1 k2]
      exact k1
  · intro he
    obtain ⟨m, hm⟩ := obs_none.1 h4
    have := (key_inRow (gm := gm) h hv).2 ⟨m, hm, rfl⟩
    rw [← he] at this
    obtain ⟨m', hm', _⟩ := (key_inRow h hu).1 this
    exact h2 (obs_none.2 ⟨m', hm'⟩)

/-- If the texts are nowhere torn, keys that compare equal are equal. -/
theorem keys_eq (hr : ∀ i, i < d.rows.length → ∃ w, d.run d.b w = some i) (hn : ∀ u v c, ¬ TornO d.obs n u v c) {i j : Nat}
    (hi : i < d.rows.length) (hj : j < d.rows.length) (hg : gm.getD i 0 = gm.getD j 0)
    (he : rowEq (compress gm (d.rows.getD i [])) (compress gm (d.rows.getD j [])) = true) :
    compress gm (d.rows.getD i []) = compress gm (d.rows.getD j []) := by
  refine Classical.byContradiction fun hne => ?_
  obtain ⟨u, hu⟩ := hr i hi
  obtain ⟨v, hv⟩ := hr j hj
  obtain ⟨c, g, hc⟩ := rowEq_shorter (compress_spec gm (ord_of_wf (row_wf h hi))).1.ord (compress_spec gm (ord_of_wf (row_wf h hj))).1.ord he hne
  rcases hc with hc | hc
  · exact hn u v c (shorter_torn h hl hu hv hg he hc)
  · exact hn v u c (shorter_torn h hl hv hu hg.symm (rowEq_symm he) hc)

end

/-- The oracle without collisions. -/
def MinOracle.calm (o : MinOracle) : MinOracle := { o with collide := fun _ _ _ _ _ => false }

theorem MinOracle.Fair.calm {o : MinOracle} (h : o.Fair) : o.calm.Fair := ⟨h.visit, h.order, h.pick⟩

theorem splitInsert_smooth {col : Nat → Row → Row → Bool} {key : Row} {n : Nat} {L : List (Row × List Nat)}
    (h : ∀ k s, (k, s) ∈ L → rowEq k key = true → k = key) : splitInsert col key n L = splitInsert (fun _ _ _ => false) key n L := by
  rw [splitInsert_calmly fun c hc h1 h2 => absurd (h c.1 c.2 hc h2) h1, splitInsert_calmly fun _ _ _ _ => rfl]

theorem splitSet_smooth {col : Nat → Row → Row → Bool} {rows : List Row} {gm nodes : List Nat}
    (h : ∀ i ∈ nodes, ∀ j ∈ nodes, rowEq (compress gm (rows.getD i [])) (compress gm (rows.getD j [])) = true →
      compress gm (rows.getD i []) = compress gm (rows.getD j [])) :
    splitSet col rows gm nodes = splitSet (fun _ _ _ => false) rows gm nodes := by
  unfold splitSet
  suffices ∀ (ns : List Nat) (L : List (Row × List Nat)), (∀ n ∈ ns, n ∈ nodes) → (∀ k s, (k, s) ∈ L → ∃ i ∈ nodes, k = compress gm (rows.getD i [])) →
      ns.foldl (fun sg n => splitInsert col (compress gm (rows.getD n [])) n sg) L =
      ns.foldl (fun sg n => splitInsert (fun _ _ _ => false) (compress gm (rows.getD n [])) n sg) L from this nodes [] (fun _ h => h) (by simp)
  intro ns
  induction ns with
  | nil => intro L _ _; rfl
  | cons n ns ih =>
    intro L hns hL
    have hn := hns n (by simp)
    rw [List.foldl_cons, List.foldl_cons, splitInsert_smooth (col := col) (L := L) (by
      intro k s hk he
      obtain ⟨i, hi, rfl⟩ := hL k s hk
      exact h i hi n hn he)]
    refine ih _ (fun m hm => hns m (List.mem_cons_of_mem _ hm)) ?_
    intro k s hk
    rcases splitInsert_keys hk with rfl | ⟨s', hk⟩
    · exact ⟨n, hn, rfl⟩
    · exact hL k s' hk

theorem foldl_congr {α β : Type} {f g : β → α → β} : ∀ {l : List α} {b : β}, (∀ b a, a ∈ l → f b a = g b a) → l.foldl f b = l.foldl g b := by
  intro l
  induction l with
  | nil => intro b _; rfl
  | cons a l ih =>
    intro b h
    rw [List.foldl_cons, List.foldl_cons, h b a (by simp)]
    exact ih fun b x hx => h b x (List.mem_cons_of_mem _ hx)

theorem minRound_smooth {o : MinOracle} (hf : o.Fair) {d : DFA} {p n : Nat} {gm new : List Nat} (h : d.WF p) (hl : Level d n gm)
    (hr : ∀ i, i < d.rows.length → ∃ w, d.run d.b w = some i) (hn : ∀ u v c, ¬ TornO d.obs n u v c) (round : Nat) :
    minRound o d.rows gm new round = minRound o.calm d.rows gm new round := by
  unfold minRound
  apply foldl_congr
  rintro st ⟨s, g⟩ hm
  obtain ⟨_, rfl⟩ := mem_groupSets.1 hm
  have hnode : ∀ i ∈ o.visit round g ((List.range gm.length).filter fun n => gm.getD n 0 == g), i < d.rows.length ∧ gm.getD i 0 = g := by
    intro i hm
    rw [(hf.visit round g _).mem_iff, List.mem_filter, List.mem_range, hl.len] at hm
    exact ⟨hm.1, by simpa using hm.2⟩
  unfold roundSet
  simp only
  rw [splitSet_smooth (col := o.collide round g) (by
    intro i h1 j h2 he
    exact keys_eq h hl hr hn (hnode i h1).1 (hnode j h2).1 ((hnode i h1).2.trans (hnode j h2).2.symm) he)]
  rfl

theorem minLoop_smooth {o : MinOracle} (hf : o.Fair) {d : DFA} {p : Nat} (h : d.WF p)
    (hr : ∀ i, i < d.rows.length → ∃ w, d.run d.b w = some i) (hn : ∀ n u v c, ¬ TornO d.obs n u v c) :
    ∀ (f round : Nat) (gm new : List Nat) (n : Nat), Level d n gm → new.length = d.rows.length →
      minLoop o d.rows f round gm new = minLoop o.calm d.rows f round gm new := by
  intro f
  induction f with
  | zero => intro round gm new n _ _; rfl
  | succ f ih =>
    intro round gm new n hl hlen
    unfold minLoop
    simp only
    rw [minRound_smooth hf h hl hr (hn n) round]
    have hs := minRound_spec hf.calm (fun _ _ _ _ _ => rfl) hl.len hlen round
    rw [ih _ _ _ (n + 1) (level_step h hl hs) hl.len]

theorem minify_smooth {o : MinOracle} (hf : o.Fair) {d : DFA} {p : Nat} (h : d.WF p)
    (hr : ∀ i, i < d.rows.length → ∃ w, d.run d.b w = some i) (hn : ∀ n u v c, ¬ TornO d.obs n u v c) : minify o d = minify o.calm d := by
  unfold minify
  simp only
  rw [minLoop_smooth hf h hr hn _ _ _ _ 0 (level_init h) (level_init h).len]
  rfl

/-! ## The check -/

/-- Later than in the first round nothing is torn. -/
theorem tornO_zero {ob : List Nat → Option (Option Nat)} {n : Nat} {u v : List Nat} {c : Nat} (h : TornO ob n u v c) : n = 0 := by
  obtain ⟨_, h2, _, h4, h5, _⟩ := h
  apply Classical.byContradiction
  intro hn
  refine h2 ?_
  rw [h5 [c + 1] (by simp; omega)]
  exact h4

theorem smooth_spec {d : DFA} {p : Nat} (h : d.WF p) (hr : ∀ i, i < d.rows.length → ∃ w, d.run d.b w = some i) :
    d.smooth = true ↔ ∀ u v c, ¬ TornO d.obs 0 u v c := by
  have hl := level_init h
  have hget : ∀ (i : Nat) x, ((initGroups d).zip (d.rows.map (compress (initGroups d))))[i]? = some x ↔
      i < d.rows.length ∧ x = ((initGroups d).getD i 0, compress (initGroups d) (d.rows.getD i [])) := by
    intro i x
    rw [List.getElem?_zip_eq_some]
    by_cases hi : i < d.rows.length
    · have hi' : i < (initGroups d).length := by rw [hl.len]; exact hi
      obtain ⟨x1, x2⟩ := x
      simp only [List.getElem?_map, List.getElem?_eq_getElem hi, List.getElem?_eq_getElem hi', Option.map_some, Option.some.injEq,
        List.getD_eq_getElem?_getD, Option.getD_some, Prod.mk.injEq, hi, true_and]
      exact ⟨fun h => ⟨h.1.symm, h.2.symm⟩, fun h => ⟨h.1.symm, h.2.symm⟩⟩
    · have hi' : ¬ i < (initGroups d).length := by rw [hl.len]; exact hi
      simp [hi]
  unfold DFA.smooth
  simp only [List.all_eq_true]
  constructor
  · intro hc u v c ht
    obtain ⟨i, j, hi, hj, h1, h2, h3⟩ := torn_keys h hl ht
    have := hc _ (List.mem_of_getElem? ((hget i _).2 ⟨hi, rfl⟩)) _ (List.mem_of_getElem? ((hget j _).2 ⟨hj, rfl⟩))
    simp only [Bool.or_eq_true, bne_iff_ne, ne_eq, Bool.not_eq_true', beq_iff_eq] at this
    rcases this with (h4 | h4) | h4
    · exact h4 h1
    · rw [h2] at h4; cases h4
    · exact h3 h4
  · intro hn x hx y hy
    obtain ⟨i, hi'⟩ := List.getElem?_of_mem hx
    obtain ⟨j, hj'⟩ := List.getElem?_of_mem hy
    obtain ⟨hi, rfl⟩ := (hget i x).1 hi'
    obtain ⟨hj, rfl⟩ := (hget j y).1 hj'
    simp only [Bool.or_eq_true, bne_iff_ne, ne_eq, Bool.not_eq_true', beq_iff_eq]
    by_cases hg : (initGroups d).getD i 0 = (initGroups d).getD j 0
    · cases he : rowEq (compress (initGroups d) (d.rows.getD i [])) (compress (initGroups d) (d.rows.getD j [])) with
      | false => simp
      | true => exact .inr (keys_eq h hl hr hn hi hj hg he)
    · exact .inl (.inl hg)

/-! ## Texts -/

theorem torn_texts {hs : List Hir} {tn : TNFA} {d : DFA} (ht : buildAll hs = .ok tn) (ho : ∀ h ∈ hs, h.ok = true)
    (hl : ∀ h ∈ hs, h.live = true) (hne : hs ≠ []) (hd : DfaOf tn d) {u v : List Nat} {c : Nat} :
    TornO d.obs 0 u v c ↔ Torn (OwnAt hs) u v c := by
  have hvia : ∀ w, d.obs w ≠ none ↔ Viable (OwnAt hs) w := stuck_viable ht ho hl hne hd
  have hleast : ∀ w k, Least (OwnAt hs) k w ↔ d.obs w = some (some k) := by
    intro w k
    rw [hd.acc]
    unfold Least
    simp only [← ownAt_iff ht ho]
  have hzero : ∀ {u v}, SameO d.obs 0 u v ↔ d.obs u = d.obs v := by
    intro u v
    constructor
    · intro h
      have := h [] (by simp)
      rwa [List.append_nil, List.append_nil] at this
    · intro h x hx
      obtain rfl : x = [] := List.eq_nil_of_length_eq_zero (by omega)
      rw [List.append_nil, List.append_nil, h]
  have hsame : ∀ {u v}, d.obs u ≠ none → d.obs v ≠ none → (SameO d.obs 0 u v ↔ Alike (OwnAt hs) u v) := by
    intro u v h1 h2
    rw [hzero]
    unfold Alike
    simp only [hleast]
    constructor
    · intro he; rw [he]; simp
    · intro h
      rcases h3 : d.obs u with _ | _ | k
      · exact absurd h3 h1
      · rcases h4 : d.obs v with _ | _ | k
        · exact absurd h4 h2
        · rfl
        · have := (h k).2 h4; rw [h3] at this; cases this
      · exact ((h k).1 h3).symm
  have hfront : ∀ {w : List Nat} {c}, d.obs (w ++ [c]) ≠ none → d.obs w ≠ none := by
    intro w c hw
    obtain ⟨m, hm⟩ := obs_none.1 hw
    cases hr : d.run d.b w with
    | none => rw [DFA.run_snoc, hr] at hm; cases hm
    | some i => exact obs_none.2 ⟨i, hr⟩
  have hbeg : ∀ {u c}, BeginsO d.obs 0 u c ↔ Begins (OwnAt hs) u c := by
    intro u c
    unfold BeginsO Begins
    simp only [← hvia]
    refine and_congr_right fun h1 => forall_congr' fun y => imp_congr_right fun _ => imp_congr_right fun h2 => ?_
    rw [hsame h2 h1]
  unfold TornO Torn
  rw [← hvia, ← hvia, ← hvia, ← hvia]
  refine and_congr_right fun h1 => and_congr_right fun h2 => and_congr_right fun h3 => and_congr_right fun h4 => ?_
  rw [hsame (hfront h1) (hfront h3), hsame h1 h3, hsame h3 h4]
  refine and_congr_right fun _ => and_congr_right fun _ => and_congr_right fun _ => forall_congr' fun x => ?_
  simp only [hbeg]
  refine and_congr_right fun h5 => imp_congr_right fun h6 => ?_
  exact hsame ((hvia _).2 h6.1) ((hvia _).2 (h5.1 h6).1)

/-- Automata for the same patterns show the same. -/
theorem obs_other {tn : TNFA} {d d' : DFA} (hd : DfaOf tn d) (hd' : DfaOf tn d') : d.obs = d'.obs := by
  funext w
  have h1 : d.obs w = none ↔ d'.obs w = none := (hd.stuck w).trans (hd'.stuck w).symm
  have h2 : ∀ k, d.obs w = some (some k) ↔ d'.obs w = some (some k) := fun k => (hd.acc w k).trans (hd'.acc w k).symm
  rcases h3 : d.obs w with _ | _ | k
  · exact (h1.1 h3).symm
  · rcases h4 : d'.obs w with _ | _ | k
    · rw [h1.2 h4] at h3; cases h3
    · rfl
    · rw [(h2 k).2 h4] at h3; cases h3
  · exact ((h2 k).1 h3).symm

/-! ## The builder -/

section
variable {π ρ α E : Type} {parse : π → Except ρ Hir} {ps : List (π × (List Nat → List α → E))} {s : Seeds}

/-- If no automaton for the patterns is torn, collisions make no difference. -/
theorem calm_of_not_torn (hparse : ParserOk parse) (hs : s.Fair)
    (hn : ∀ hirs tn d, parseAll parse (ps.map Prod.fst) = .ok hirs → buildAll hirs = .ok tn → DfaOf tn d →
      ∀ u v c, ¬ TornO d.obs 0 u v c) : Calm s parse ps := by
  have key : ∀ fuel, builderBuild fuel s parse ps = builderBuild fuel s.calm parse ps := by
    intro fuel
    unfold builderBuild
    cases h1 : parseAll parse (ps.map Prod.fst) with
    | error e => rfl
    | ok hirs =>
      simp only
      cases h2 : buildAll hirs with
      | error e => rfl
      | ok tn =>
        simp only
        have : buildTables fuel s.ord s.min tn = buildTables fuel s.calm.ord s.calm.min tn := by
          unfold buildTables
          show (match fromNfa fuel s.ord tn with | none => none | some (d, ws) => (minify s.min d).map fun d => (d, ws)) =
            (match fromNfa fuel s.ord tn with | none => none | some (d, ws) => (minify s.min.calm d).map fun d => (d, ws))
          cases h3 : fromNfa fuel s.ord tn with
          | none => rfl
          | some r =>
            obtain ⟨d, ws⟩ := r
            have hd := (fromNfa_spec (buildAll_edgesOk h2 (parseAll_wf hparse h1)) hs.ord h3).1
            simp only
            rw [minify_smooth hs.min hd.wf hd.reach fun n u v c ht => hn hirs tn d h1 h2 hd u v c (by obtain rfl := tornO_zero ht; exact ht)]
        rw [this]
  intro r
  unfold BuildsTo
  simp only [key]

end

end Verif.Tok
