import Verif.Props.TokSize
import Verif.Props.TokGen

/-!
# Property C100: there is one table for a behaviour
-/

namespace Verif.Tok

/-- The table can get into a state. -/
def DFA.Reached (d : DFA) (i : Nat) : Prop := ∃ w, d.run d.b w = some i

/-- `f` sends the states that `d` can get into onto the states of `e`, and what can be seen of the tables stays the same. -/
structure DFA.Folds (d e : DFA) (f : Nat → Nat) : Prop where
  start : f d.b = e.b
  lt : ∀ i, d.Reached i → f i < e.rows.length
  onto : ∀ g, g < e.rows.length → ∃ i, d.Reached i ∧ f i = g
  accept : ∀ i, d.Reached i → e.accept (f i) = d.accept i
  next : ∀ i c, d.Reached i → e.next (f i) c = (d.next i c).map f

/-- The tables differ only in the numbers of the states: the lists of ranges and the patterns that are accepted are the same. -/
structure DFA.Renumbered (d e : DFA) (f : Nat → Nat) : Prop where
  start : f d.b = e.b
  lt : ∀ i, i < d.rows.length → f i < e.rows.length
  inj : ∀ i j, i < d.rows.length → j < d.rows.length → f i = f j → i = j
  onto : ∀ g, g < e.rows.length → ∃ i, i < d.rows.length ∧ f i = g
  ends : ∀ i, i < d.rows.length → e.ends[f i]? = d.ends[i]?
  rows : ∀ i, i < d.rows.length → e.rows[f i]? = d.rows[i]?.map fun r => r.map fun x => (x.1, f x.2)

theorem DFA.Reached.step {d : DFA} {i c m : Nat} (h : d.Reached i) (hn : d.next i c = some m) : d.Reached m := by
  obtain ⟨w, hw⟩ := h
  refine ⟨w ++ [c], ?_⟩
  rw [DFA.run_append, hw]
  simp [DFA.run, hn]

theorem DFA.obsFrom_next {d e : DFA} {i j : Nat} (h : ∀ w, d.obsFrom i w = e.obsFrom j w) (c : Nat) :
    (d.next i c = none ∧ e.next j c = none) ∨
      ∃ m n, d.next i c = some m ∧ e.next j c = some n ∧ ∀ w, d.obsFrom m w = e.obsFrom n w := by
  have h1 : ∀ w, ((d.next i c).bind fun m => d.run m w).map d.accept = ((e.next j c).bind fun m => e.run m w).map e.accept :=
    fun w => h (c :: w)
  cases hd : d.next i c with
  | none =>
    cases he : e.next j c with
    | none => exact .inl ⟨rfl, rfl⟩
    | some n => have := h1 []; rw [hd, he] at this; simp [DFA.run] at this
  | some m =>
    cases he : e.next j c with
    | none => have := h1 []; rw [hd, he] at this; simp [DFA.run] at this
    | some n =>
      refine .inr ⟨m, n, rfl, rfl, fun w => ?_⟩
      have := h1 w
      rw [hd, he] at this
      exact this

/-- A table without states that cannot be reached or told apart, and without ranges that could be joined. -/
structure DFA.Tight (d : DFA) : Prop where
  wf : ∃ p, d.WF p
  canon : ∀ r ∈ d.rows, Canon 0 r
  lt : ∀ i, d.Reached i → i < d.rows.length
  reach : ∀ i, i < d.rows.length → d.Reached i
  told : ∀ i j, i < d.rows.length → j < d.rows.length → (∀ w, d.obsFrom i w = d.obsFrom j w) → i = j

theorem folds_of_obs {d e : DFA} (he : e.Tight) (h : ∀ w, d.obs w = e.obs w) : ∃ f, d.Folds e f := by
  have key : ∀ i, ∃ g, d.Reached i → g < e.rows.length ∧ ∀ w, e.obsFrom g w = d.obsFrom i w := by
    intro i
    by_cases hi : d.Reached i
    · obtain ⟨u, hu⟩ := hi
      have h1 := h u
      simp only [DFA.obs, hu, Option.map_some] at h1
      cases hr : e.run e.b u with
      | none => rw [hr] at h1; cases h1
      | some g =>
        refine ⟨g, fun _ => ⟨he.lt _ ⟨u, hr⟩, fun w => ?_⟩⟩
        rw [← DFA.obsFrom_append e e.b g u w hr, ← DFA.obsFrom_append d d.b i u w hu]
        exact (h (u ++ w)).symm
    · exact ⟨0, fun h => absurd h hi⟩
  let f : Nat → Nat := fun i => Classical.choose (key i)
  have hf : ∀ i, d.Reached i → f i < e.rows.length ∧ ∀ w, e.obsFrom (f i) w = d.obsFrom i w := fun i => Classical.choose_spec (key i)
  have huniq : ∀ i g, d.Reached i → g < e.rows.length → (∀ w, e.obsFrom g w = d.obsFrom i w) → f i = g := fun i g h1 h2 h3 =>
    he.told _ _ (hf i h1).1 h2 fun w => ((hf i h1).2 w).trans (h3 w).symm
  refine ⟨f, huniq _ _ ⟨[], rfl⟩ (he.lt _ ⟨[], rfl⟩) fun w => (h w).symm, fun i hi => (hf i hi).1, ?_, ?_, ?_⟩
  · intro g hg
    obtain ⟨u, hu⟩ := he.reach g hg
    have h1 := h u
    simp only [DFA.obs, hu, Option.map_some] at h1
    cases hr : d.run d.b u with
    | none => rw [hr] at h1; cases h1
    | some i =>
      refine ⟨i, ⟨u, hr⟩, huniq i g ⟨u, hr⟩ hg fun w => ?_⟩
      rw [← DFA.obsFrom_append e e.b g u w hu, ← DFA.obsFrom_append d d.b i u w hr]
      exact (h (u ++ w)).symm
  · intro i hi
    have := (hf i hi).2 []
    simpa [DFA.obsFrom, DFA.run] using this
  · intro i c hi
    rcases DFA.obsFrom_next (hf i hi).2 c with ⟨h1, h2⟩ | ⟨m, n, h1, h2, h3⟩
    · rw [h1, h2]; rfl
    · rw [h1, h2, Option.map_some, huniq n m (hi.step h2) ?_ h3]
      obtain ⟨g, _, hg⟩ : ∃ g, e.Reached g ∧ g = f i := ⟨f i, he.reach _ (hf i hi).1, rfl⟩
      exact he.lt m ((he.reach _ (hf i hi).1).step h1)

theorem DFA.Folds.run {d e : DFA} {f : Nat → Nat} (h : d.Folds e f) (w : List Nat) :
    ∀ i, d.Reached i → e.run (f i) w = (d.run i w).map f := by
  induction w with
  | nil => intro i _; rfl
  | cons c w ih =>
    intro i hi
    simp only [DFA.run, h.next i c hi]
    cases hn : d.next i c with
    | none => rfl
    | some m => exact ih m (hi.step hn)

theorem DFA.Folds.obs {d e : DFA} {f : Nat → Nat} (h : d.Folds e f) (w : List Nat) : d.obs w = e.obs w := by
  unfold DFA.obs
  rw [← h.start, h.run w _ ⟨[], rfl⟩]
  cases hr : d.run d.b w with
  | none => rfl
  | some i => simp [h.accept i ⟨w, hr⟩]

theorem DFA.Folds.unique {d e : DFA} {f g : Nat → Nat} (h : d.Folds e f) (h' : d.Folds e g) {i : Nat} (hi : d.Reached i) : f i = g i := by
  obtain ⟨w, hw⟩ := hi
  have h1 := h.run w _ ⟨[], rfl⟩
  have h2 := h'.run w _ ⟨[], rfl⟩
  rw [hw, h.start] at h1
  rw [hw, h'.start, h1] at h2
  simpa using h2

theorem minify_canon {o : MinOracle} {d d' : DFA} {p : Nat} (h : d.WF p) (hm : minify o d = some d') : ∀ r ∈ d'.rows, Canon 0 r := by
  unfold minify at hm
  obtain ⟨gm, _, rfl⟩ := Option.map_eq_some_iff.1 hm
  intro r hr
  simp only [rebuild, List.mem_map] at hr
  obtain ⟨s, _, rfl⟩ := hr
  refine (compress_spec gm ?_).1
  by_cases hi : o.pick s < d.rows.length
  · exact ord_of_wf (row_wf h hi)
  · rw [List.getD_eq_getElem?_getD, List.getElem?_eq_none (by omega)]
    trivial

theorem canon_map {f : Nat → Nat} {P : Nat → Prop} (hf : ∀ a b, P a → P b → f a = f b → a = b) (r : Row) :
    ∀ k, (∀ x ∈ r, P x.2) → Canon k r → Canon k (r.map fun x => (x.1, f x.2)) := by
  induction r with
  | nil => intro k _ _; trivial
  | cons y t ih =>
    obtain ⟨⟨s, e⟩, g⟩ := y
    intro k hP h
    refine ⟨h.1, h.2.1, ih e (fun x hx => hP x (.tail _ hx)) h.2.2.1, ?_⟩
    intro x hx
    rw [List.head?_map, Option.map_eq_some_iff] at hx
    obtain ⟨x', hx', rfl⟩ := hx
    rintro ⟨h1, h2⟩
    exact h.2.2.2 x' hx' ⟨h1, hf _ _ (hP x' (.tail _ (List.mem_of_mem_head? hx'))) (hP ((s, e), g) (.head _)) h2⟩

theorem inRow_map {f : Nat → Nat} {r : Row} {c n : Nat} : InRow (r.map fun x => (x.1, f x.2)) c n ↔ ∃ m, InRow r c m ∧ f m = n := by
  unfold InRow
  constructor
  · rintro ⟨lo, hi, h, h1, h2⟩
    obtain ⟨⟨⟨a, b⟩, m⟩, hx, e⟩ := List.mem_map.1 h
    cases e
    exact ⟨m, ⟨_, _, hx, h1, h2⟩, rfl⟩
  · rintro ⟨m, ⟨lo, hi, h, h1, h2⟩, rfl⟩
    exact ⟨lo, hi, List.mem_map.2 ⟨_, h, rfl⟩, h1, h2⟩

theorem lastLE_map {f : Nat → Nat} (c : Nat) (r : Row) :
    lastLE c (r.map fun x => (x.1, f x.2)) = (lastLE c r).map fun x => (x.1, f x.2) := by
  induction r with
  | nil => rfl
  | cons x t ih =>
    simp only [List.map_cons, lastLE, ih]
    split
    · cases lastLE c t <;> rfl
    · rfl

theorem nextInRow_map {f : Nat → Nat} (c : Nat) (r : Row) :
    nextInRow (r.map fun x => (x.1, f x.2)) c = (nextInRow r c).map f := by
  unfold nextInRow
  rw [lastLE_map]
  rcases lastLE c r with _ | ⟨⟨_, e⟩, n⟩
  · rfl
  · simp only [Option.map_some]
    split <;> rfl

variable {π ρ α E : Type} {parse : π → Except ρ Hir} {s : Seeds} {ps : List (π × (List Nat → List α → E))}
  {t : Tokenizer α E} {ws : List (Nat × Nat)}

theorem built_tight (hparse : ParserOk parse) (hs : s.Fair) (hc : Calm s parse ps) (hb : BuildsTo s parse ps (.ok (t, ws))) : t.dfa.Tight := by
  obtain ⟨hirs, h1, h2, h3, h4⟩ := builds_spec hparse hs.calm ((hc _).1 hb)
  obtain ⟨tn, d, h5, h6, h7, h8, h9⟩ := h4.dfa
  obtain ⟨f, hm⟩ := h9 s.calm_noCollision
  refine ⟨⟨_, h4.wf⟩, minify_canon h6.wf h7, ?_, ?_, ?_⟩
  · rintro i ⟨w, hw⟩
    exact run_lt h4.wf w _ _ h4.wf.b hw
  · intro g hg
    obtain ⟨i, hi, rfl⟩ := hm.onto g hg
    obtain ⟨u, hu⟩ := h6.reach i hi
    refine ⟨u, ?_⟩
    rw [hm.b, hm.run h6.wf u _ h6.wf.b, hu]
    rfl
  · intro g g' hg hg' h
    obtain ⟨i, hi, rfl⟩ := hm.onto g hg
    obtain ⟨j, hj, rfl⟩ := hm.onto g' hg'
    apply Classical.byContradiction
    intro hne
    obtain ⟨w, hw⟩ := hm.dist i j hi hj hne
    apply hw
    rw [← hm.obsFrom h6.wf hi, ← hm.obsFrom h6.wf hj]
    exact h w

theorem renumbered_of_obs {d e : DFA} (hd : d.Tight) (he : e.Tight) (h : ∀ w, d.obs w = e.obs w) : ∃ f, d.Renumbered e f := by
  obtain ⟨f, hf⟩ := folds_of_obs he h
  have hlt : ∀ i, i < d.rows.length → f i < e.rows.length := fun i hi => hf.lt i (hd.reach i hi)
  have hinj : ∀ i j, i < d.rows.length → j < d.rows.length → f i = f j → i = j := by
    intro i j hi hj e'
    apply hd.told i j hi hj
    intro w
    have hobs : ∀ k, k < d.rows.length → e.obsFrom (f k) w = d.obsFrom k w := by
      intro k hk
      unfold DFA.obsFrom
      rw [hf.run w k (hd.reach k hk)]
      cases hr : d.run k w with
      | none => rfl
      | some m =>
        obtain ⟨u, hu⟩ := hd.reach k hk
        have : d.Reached m := ⟨u ++ w, by rw [DFA.run_append, hu]; exact hr⟩
        simp [hf.accept m this]
    rw [← hobs i hi, ← hobs j hj, e']
  obtain ⟨p, hdw⟩ := hd.wf
  obtain ⟨q, hew⟩ := he.wf
  refine ⟨f, hf.start, hlt, hinj, ?_, ?_, ?_⟩
  · intro g hg
    obtain ⟨i, h1, h2⟩ := hf.onto g hg
    exact ⟨i, hd.lt i h1, h2⟩
  · intro i hi
    have := hf.accept i (hd.reach i hi)
    unfold DFA.accept at this
    have h1 : i < d.ends.length := by rw [hdw.endsLen]; exact hi
    have h2 : f i < e.ends.length := by rw [hew.endsLen]; exact hlt i hi
    rw [List.getElem?_eq_getElem h1, List.getElem?_eq_getElem h2] at this ⊢
    simpa using this
  · intro i hi
    have hr : ∀ (d : DFA) (i : Nat), i < d.rows.length → d.rows[i]? = some (d.rows.getD i []) := by
      intro d i hi
      rw [List.getD_eq_getElem?_getD, List.getElem?_eq_getElem hi]
      rfl
    rw [hr d i hi, hr e _ (hlt i hi), Option.map_some]
    congr 1
    have hmem : ∀ (d : DFA) (i : Nat), i < d.rows.length → d.rows.getD i [] ∈ d.rows := fun d i hi => List.mem_of_getElem? (hr d i hi)
    refine canon_ext (he.canon _ (hmem e _ (hlt i hi)))
      (canon_map (P := fun m => m < d.rows.length) (fun a b ha hb => hinj a b ha hb) _ 0 (fun x hx => (hdw.rows _ (hmem d i hi)).target x hx)
        (hd.canon _ (hmem d i hi))) ?_
    intro c n
    rw [← next_inRow hew (hlt i hi), inRow_map, hf.next i c (hd.reach i hi), Option.map_eq_some_iff]
    simp only [← next_inRow hdw hi]

theorem DFA.Renumbered.folds {d e : DFA} {f : Nat → Nat} (hd : d.Tight) (h : d.Renumbered e f) : d.Folds e f := by
  refine ⟨h.start, fun i hi => h.lt i (hd.lt i hi), ?_, ?_, ?_⟩
  · intro g hg
    obtain ⟨i, h1, h2⟩ := h.onto g hg
    exact ⟨i, hd.reach i h1, h2⟩
  · intro i hi
    unfold DFA.accept
    rw [h.ends i (hd.lt i hi)]
  · intro i c hi
    unfold DFA.next
    rw [h.rows i (hd.lt i hi)]
    cases d.rows[i]? with
    | none => rfl
    | some r => exact nextInRow_map c r

/-! ## C100 -/

/-- C100: every table that does the same can be folded onto the one that is built, in one way: states that cannot be reached are left
out, and states that do the same become one. -/
theorem c100_folds (hparse : ParserOk parse) (hs : s.Fair) (hc : Calm s parse ps) (hb : BuildsTo s parse ps (.ok (t, ws))) (e : DFA) :
    ((∀ w, (e.run e.b w).map e.accept = (t.dfa.run t.dfa.b w).map t.dfa.accept) ↔ ∃ f, e.Folds t.dfa f) ∧
    ∀ f g, e.Folds t.dfa f → e.Folds t.dfa g → ∀ i, e.Reached i → f i = g i :=
  ⟨⟨fun h => folds_of_obs (built_tight hparse hs hc hb) h, fun ⟨_, h⟩ w => h.obs w⟩, fun _ _ h h' _ hi => h.unique h' hi⟩

section
variable {π' ρ' α' E' : Type} {parse' : π' → Except ρ' Hir} {s' : Seeds} {ps' : List (π' × (List Nat → List α' → E'))}
  {t' : Tokenizer α' E'} {ws' : List (Nat × Nat)}

/-- C100: two tables that are built do the same exactly if they differ only in the numbers of the states. -/
theorem c100_same (hparse : ParserOk parse) (hs : s.Fair) (hc : Calm s parse ps) (hb : BuildsTo s parse ps (.ok (t, ws)))
    (hparse' : ParserOk parse') (hs' : s'.Fair) (hc' : Calm s' parse' ps') (hb' : BuildsTo s' parse' ps' (.ok (t', ws'))) :
    (∀ w, (t.dfa.run t.dfa.b w).map t.dfa.accept = (t'.dfa.run t'.dfa.b w).map t'.dfa.accept) ↔ ∃ f, t.dfa.Renumbered t'.dfa f :=
  ⟨fun h => renumbered_of_obs (built_tight hparse hs hc hb) (built_tight hparse' hs' hc' hb') h,
    fun ⟨_, h⟩ w => (h.folds (built_tight hparse hs hc hb)).obs w⟩

/-- C100: for patterns that can all match, it does not matter how they are written: the tables differ only in the numbers of the states
exactly if the first pattern that matches is the same for every text. -/
theorem c100_patterns (hparse : ParserOk parse) (hs : s.Fair) (hc : Calm s parse ps) (hl : PatsLive parse ps) (hne : ps ≠ [])
    (hb : BuildsTo s parse ps (.ok (t, ws)))
    (hparse' : ParserOk parse') (hs' : s'.Fair) (hc' : Calm s' parse' ps') (hl' : PatsLive parse' ps') (hne' : ps' ≠ [])
    (hb' : BuildsTo s' parse' ps' (.ok (t', ws'))) :
    (∀ k w, Least (PatCode parse ps) k w ↔ Least (PatCode parse' ps') k w) ↔ ∃ f, t.dfa.Renumbered t'.dfa f := by
  have ha := accepts_least hparse hs hc hb
  have ha' := accepts_least hparse' hs' hc' hb'
  rw [← c100_same hparse hs hc hb hparse' hs' hc' hb']
  constructor
  · intro hsame w
    show t.dfa.obs w = t'.dfa.obs w
    have hacc : t.accepts w = t'.accepts w := by
      cases h : t'.accepts w with
      | some k => rw [ha, hsame, ← ha', h]
      | none =>
        cases h' : t.accepts w with
        | none => rfl
        | some k => rw [ha, hsame, ← ha', h] at h'; cases h'
    have hv : t.dfa.obs w = none ↔ t'.dfa.obs w = none := by
      rw [← stuck_iff, ← stuck_iff, stuck_iff_viable hparse hs hc hl hne hb w, stuck_iff_viable hparse' hs' hc' hl' hne' hb' w]
      simp only [viable_least, hsame]
    unfold Tokenizer.accepts at hacc
    cases h1 : t.dfa.obs w with
    | none => rw [hv.1 h1]
    | some x =>
      cases h2 : t'.dfa.obs w with
      | none => rw [hv.2 h2] at h1; cases h1
      | some y => rw [h1, h2] at hacc; simpa using hacc
  · intro h k w
    rw [← ha, ← ha']
    unfold Tokenizer.accepts
    rw [show t.dfa.obs w = t'.dfa.obs w from h w]

end

/-- C100: for all hash seeds, also with collisions, two ranges of a state that touch lead to different states. -/
theorem c100_ranges (hparse : ParserOk parse) (hs : s.Fair) (hb : BuildsTo s parse ps (.ok (t, ws))) :
    ∀ r ∈ t.dfa.rows, ∀ i x y, r[i]? = some x → r[i + 1]? = some y → x.1.2 = y.1.1 → x.2 ≠ y.2 := by
  obtain ⟨hirs, h1, h2, h3, h4⟩ := builds_spec hparse hs hb
  obtain ⟨tn, d, h5, h6, h7, h8, h9⟩ := h4.dfa
  intro r hr
  have key : ∀ (r : Row) k, Canon k r → ∀ i x y, r[i]? = some x → r[i + 1]? = some y → x.1.2 = y.1.1 → x.2 ≠ y.2 := by
    intro r
    induction r with
    | nil => intro k _ i x y h; cases h
    | cons z t ih =>
      obtain ⟨⟨s, e⟩, g⟩ := z
      intro k hk i x y hx hy he hxy
      cases i with
      | zero =>
        cases hx
        refine hk.2.2.2 y ?_ ⟨he.symm, hxy.symm⟩
        rw [List.head?_eq_getElem?]
        exact hy
      | succ i => exact ih _ hk.2.2.1 i x y hx hy he hxy
  exact key r 0 (minify_canon h6.wf h7 r hr)

/-- C100: in particular hash seeds can only change the numbers of the states. -/
theorem c100_seeds (hparse : ParserOk parse) (hs : s.Fair) (hc : Calm s parse ps) (hb : BuildsTo s parse ps (.ok (t, ws)))
    {s' : Seeds} {t' : Tokenizer α E} {ws' : List (Nat × Nat)} (hs' : s'.Fair) (hc' : Calm s' parse ps)
    (hb' : BuildsTo s' parse ps (.ok (t', ws'))) : ∃ f, t.dfa.Renumbered t'.dfa f := by
  refine (c100_same hparse hs hc hb hparse hs' hc' hb').1 ?_
  obtain ⟨hirs, h1, h2, h3, h4⟩ := builds_spec hparse hs.calm ((hc _).1 hb)
  obtain ⟨hirs', h1', h2', h3', h4'⟩ := builds_spec hparse hs'.calm ((hc' _).1 hb')
  rw [h1] at h1'
  cases h1'
  exact built_obs h4 h4' s.calm_noCollision s'.calm_noCollision

/-! ## Examples -/

/-- Everything is visited in the opposite order. -/
def seedsBack : Seeds := { seeds0 with ord := List.reverse, min := { seeds0.min with order := fun _ _ l => l.reverse } }

theorem seedsBack_fair : seedsBack.Fair :=
  ⟨fun l => List.reverse_perm l, ⟨fun _ _ _ => List.Perm.refl _, fun _ _ l => List.reverse_perm l, fun l h => seeds0_fair.min.pick l h⟩⟩

/-- `ab|ba`: the numbers of the states differ. -/
example : (tok0 seeds0 [.alt [.concat [ra, rb], .concat [rb, ra]]]).map (fun r => (r.1.dfa.rows, r.1.dfa.b)) =
      some ([[((97, 98), 1), ((98, 99), 2)], [((98, 99), 3)], [((97, 98), 3)], []], 0) ∧
    (tok0 seedsBack [.alt [.concat [ra, rb], .concat [rb, ra]]]).map (fun r => (r.1.dfa.rows, r.1.dfa.b)) =
      some ([[((97, 98), 3)], [((98, 99), 3)], [((97, 98), 1), ((98, 99), 0)], []], 2) := by
  constructor <;> decide +kernel

theorem tok0_spec {s : Seeds} {hs : List Hir} {β : Type} {g : Tokenizer Nat (Nat × List Nat) × List (Nat × Nat) → β} {x : β}
    (h : (tok0 s hs).map g = some x) : ∃ r, BuildsTo s parse0 (tagged hs) (.ok r) ∧ g r = x := by
  obtain ⟨r, h1, h2⟩ := Option.map_eq_some_iff.1 h
  refine ⟨r, ⟨50, ?_⟩, h2⟩
  unfold tok0 at h1
  split at h1
  · rename_i h3
    cases h1
    exact h3
  · cases h1

theorem calm_back (hs : List Hir) : Calm seedsBack parse0 (tagged hs) := calm_of_noCollision (fun _ _ _ _ _ => rfl) _ _

theorem calm_0 (hs : List Hir) : Calm seeds0 parse0 (tagged hs) := calm_of_noCollision seeds0_noCollision _ _

/-- So state 0 of the one table is state 2 of the other one. -/
example : ∃ r r' f, BuildsTo seeds0 parse0 (tagged [.alt [.concat [ra, rb], .concat [rb, ra]]]) (.ok r) ∧
    BuildsTo seedsBack parse0 (tagged [.alt [.concat [ra, rb], .concat [rb, ra]]]) (.ok r') ∧ r.1.dfa.Renumbered r'.1.dfa f ∧ f 0 = 2 := by
  obtain ⟨r, hb, e⟩ := tok0_spec (s := seeds0) (hs := [.alt [.concat [ra, rb], .concat [rb, ra]]]) (g := fun r => r.1.dfa.b) (x := 0) (by decide +kernel)
  obtain ⟨r', hb', e'⟩ := tok0_spec (s := seedsBack) (hs := [.alt [.concat [ra, rb], .concat [rb, ra]]]) (g := fun r => r.1.dfa.b) (x := 2) (by decide +kernel)
  obtain ⟨f, hf⟩ := c100_seeds parse0_ok seeds0_fair (calm_0 _) hb seedsBack_fair (calm_back _) hb'
  exact ⟨r, r', f, hb, hb', hf, by rw [← e, ← e']; exact hf.start⟩

/-- `aa|ba` and `[ab]a` get the same table, and so match the same texts. -/
example : ∀ k w, Least (PatCode parse0 (tagged [.alt [.concat [ra, ra], .concat [rb, ra]]])) k w ↔ Least (PatCode parse0 (tagged [.concat [rab, ra]])) k w := by
  let tab : List Row × Nat × List (Option Nat) := ([[((97, 99), 1)], [((97, 98), 2)], []], 0, [none, none, some 0])
  obtain ⟨r, hb, e⟩ := tok0_spec (s := seeds0) (hs := [.alt [.concat [ra, ra], .concat [rb, ra]]])
    (g := fun r => (r.1.dfa.rows, r.1.dfa.b, r.1.dfa.ends)) (x := tab) (by decide +kernel)
  obtain ⟨r', hb', e'⟩ := tok0_spec (s := seeds0) (hs := [.concat [rab, ra]])
    (g := fun r => (r.1.dfa.rows, r.1.dfa.b, r.1.dfa.ends)) (x := tab) (by decide +kernel)
  have hl : PatsLive parse0 (tagged [.alt [.concat [ra, ra], .concat [rb, ra]]]) := by
    intro p hp h h2
    simp only [tagged, List.zipIdx_cons, List.zipIdx_nil, List.map_cons, List.map_nil, List.mem_singleton] at hp
    subst hp
    cases h2
    simp [Hir.live, Hir.liveAll, IsChar]
  have hl' : PatsLive parse0 (tagged [.concat [rab, ra]]) := by
    intro p hp h h2
    simp only [tagged, List.zipIdx_cons, List.zipIdx_nil, List.map_cons, List.map_nil, List.mem_singleton] at hp
    subst hp
    cases h2
    simp [Hir.live, Hir.liveAll, IsChar]
  refine (c100_patterns parse0_ok seeds0_fair (calm_0 _) hl (by decide) hb parse0_ok seeds0_fair (calm_0 _) hl' (by decide) hb').2 ⟨id, ?_⟩
  have hd : r.1.dfa = r'.1.dfa := by
    rw [← e'] at e
    simp only [Prod.mk.injEq] at e
    rcases h1 : r.1.dfa with ⟨a, b, c⟩
    rcases h2 : r'.1.dfa with ⟨a', b', c'⟩
    rw [h1, h2] at e
    obtain ⟨rfl, rfl, rfl⟩ := e
    rfl
  rw [hd]
  exact ⟨rfl, fun i hi => hi, fun i j _ _ h => h, fun g hg => ⟨g, hg, rfl⟩, fun _ _ => rfl, fun i _ => by simp⟩

/-- With a collision of keys (C08) the tables may differ in more than numbers. -/
theorem c100_collision : ∃ r r', BuildsTo seeds0 parse0 (tagged [collisionPattern]) (.ok r) ∧ BuildsTo seeds1 parse0 (tagged [collisionPattern]) (.ok r') ∧
    ¬ ∃ f, r.1.dfa.Renumbered r'.1.dfa f := by
  obtain ⟨r, hb, e⟩ := tok0_spec (s := seeds0) (hs := [collisionPattern]) (g := fun r => r.1.accepts [121, 98]) (x := some 0) (by decide +kernel)
  obtain ⟨r', hb', e'⟩ := tok0_spec (s := seeds1) (hs := [collisionPattern]) (g := fun r => r.1.accepts [121, 98]) (x := none) (by decide +kernel)
  refine ⟨r, r', hb, hb', ?_⟩
  rintro ⟨f, hf⟩
  have := (hf.folds (built_tight parse0_ok seeds0_fair (calm_0 _) hb)).obs [121, 98]
  simp only [Tokenizer.accepts] at e e'
  rw [this, e'] at e
  cases e

end Verif.Tok
