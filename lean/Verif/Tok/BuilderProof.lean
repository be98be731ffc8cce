import Verif.Tok.Builder
import Verif.Tok.MinWeak

/-!
# Helper lemmas about `TokenizerBuilder::build`
-/

namespace Verif.Tok

/-- The word is accepted by the automaton built for this regex alone. -/
def Hir.Own (h : Hir) (w : List Nat) : Prop := ∃ x, build h = .ok x ∧ x.Accepts w

/-- Regex number `i` of the list has the word in its own automaton. -/
def OwnAt (hs : List Hir) (i : Nat) (w : List Nat) : Prop := ∃ h, hs[i]? = some h ∧ h.Own w

theorem parseAll_ok {π ρ : Type} {parse : π → Except ρ Hir} : ∀ {ps : List π} {hs : List Hir},
    parseAll parse ps = .ok hs ↔ hs.length = ps.length ∧ ∀ (i : Nat) (p : π), ps[i]? = some p → ∃ h, hs[i]? = some h ∧ parse p = .ok h
  | [], hs => by
    constructor
    · intro h; cases h; exact ⟨rfl, by simp⟩
    · intro h
      have : hs = [] := List.eq_nil_of_length_eq_zero h.1
      rw [this]; rfl
  | p :: ps, hs => by
    unfold parseAll
    cases hp : parse p with
    | error e =>
      constructor
      · intro h; cases h
      · intro h
        obtain ⟨_, _, h⟩ := h.2 0 p rfl
        rw [hp] at h; cases h
    | ok h0 =>
      simp only
      cases ht : parseAll parse ps with
      | error e =>
        constructor
        · intro h; cases h
        · intro h
          exfalso
          match hs, h with
          | [], h => simp at h
          | h1 :: hs, h =>
            have := (parseAll_ok (parse := parse) (ps := ps) (hs := hs)).2 ⟨by simpa using h.1, fun i p hi => by
              simpa using h.2 (i + 1) p (by simpa using hi)⟩
            rw [ht] at this; cases this
      | ok hs' =>
        have ih := (parseAll_ok (parse := parse) (ps := ps) (hs := hs')).1 ht
        constructor
        · intro h
          cases h
          refine ⟨by simp [ih.1], ?_⟩
          intro i q hi
          cases i with
          | zero => simp at hi; subst hi; exact ⟨h0, rfl, hp⟩
          | succ i => simpa using ih.2 i q (by simpa using hi)
        · intro h
          match hs, h with
          | [], h => simp at h
          | h1 :: hs, h =>
            obtain ⟨_, e1, e2⟩ := h.2 0 p rfl
            simp at e1; subst e1
            rw [hp] at e2; cases e2
            have := (parseAll_ok (parse := parse) (ps := ps) (hs := hs)).2 ⟨by simpa using h.1, fun i p hi => by
              simpa using h.2 (i + 1) p (by simpa using hi)⟩
            rw [ht] at this; cases this; rfl

theorem parseAll_wf {π ρ : Type} {parse : π → Except ρ Hir} (hp : ∀ p h, parse p = .ok h → h.ok = true) {ps : List π}
    {hs : List Hir} (h : parseAll parse ps = .ok hs) : ∀ h ∈ hs, h.ok = true := by
  obtain ⟨h1, h2⟩ := parseAll_ok.1 h
  intro x hx
  obtain ⟨i, hi⟩ := List.getElem?_of_mem hx
  have hil : i < ps.length := by rw [← h1]; exact (List.getElem?_eq_some_iff.1 hi).1
  obtain ⟨y, hy1, hy2⟩ := h2 i _ (List.getElem?_eq_getElem hil)
  rw [hi] at hy1; cases hy1
  exact hp _ _ hy2

theorem ownAt_iff {hs : List Hir} {t : TNFA} (ht : buildAll hs = .ok t) (ho : ∀ h ∈ hs, h.ok = true) (i : Nat) (w : List Nat) :
    t.Accepts i w ↔ OwnAt hs i w := by
  obtain ⟨h1, h2, h3⟩ := buildAll_good ht ho
  constructor
  · rintro ⟨e, he, hp⟩
    have hil : i < hs.length := by rw [← h2]; exact (List.getElem?_eq_some_iff.1 he).1
    obtain ⟨x, hx, hw⟩ := h3 i _ (List.getElem?_eq_getElem hil)
    exact ⟨_, List.getElem?_eq_getElem hil, x, hx, (hw w).1 ⟨e, he, hp⟩⟩
  · rintro ⟨h, hh, x, hx, hw⟩
    obtain ⟨x', hx', hw'⟩ := h3 i h hh
    rw [hx] at hx'; cases hx'
    exact (hw' w).2 hw

/-- What a successful build guarantees. -/
structure Built {α E : Type} (s : Seeds) (hs : List Hir) (makers : List (List Nat → List α → E)) (t : Tokenizer α E)
    (ws : List (Nat × Nat)) : Prop where
  maker : t.maker = makers
  wf : t.dfa.WF hs.length
  warn : ∀ a b, (a, b) ∈ ws ↔ ∃ w, OwnAt hs a w ∧ OwnAt hs b w ∧ b < a ∧ ∀ j, b < j → j < a → ¬ OwnAt hs j w
  dfa : ∃ tn d, buildAll hs = .ok tn ∧ DfaOf tn d ∧ minify s.min d = some t.dfa ∧
    (∀ w k, d.obs w = some (some k) ↔ OwnAt hs k w ∧ ∀ j < k, ¬ OwnAt hs j w) ∧
    (s.NoCollision → ∃ f, MinOf d t.dfa f)

theorem buildTables_spec {hs : List Hir} {tn : TNFA} {fuel s d ws} (ho : ∀ h ∈ hs, h.ok = true) (hs' : s.Fair)
    (ht : buildAll hs = .ok tn) (h : buildTables fuel s.ord s.min tn = some (d, ws)) {α E : Type}
    (makers : List (List Nat → List α → E)) : Built s hs makers { dfa := d, maker := makers } ws := by
  unfold buildTables at h
  cases hf : fromNfa fuel s.ord tn with
  | none => simp [hf] at h
  | some r =>
    obtain ⟨d0, ws0⟩ := r
    rw [hf] at h
    simp only [Option.map_eq_some_iff, Prod.mk.injEq] at h
    obtain ⟨d1, hd1, rfl, rfl⟩ := h
    obtain ⟨g1, g2⟩ := fromNfa_spec (buildAll_edgesOk ht ho) hs'.ord hf
    have hlen := (buildAll_good ht ho).2.1
    have gwf := g1.wf
    rw [hlen] at gwf
    obtain ⟨d2, h2, h3⟩ := minify_weak hs'.min gwf
    rw [hd1] at h2; cases h2
    refine ⟨rfl, h3, ?_, tn, d0, ht, g1, hd1, ?_, ?_⟩
    · intro a b
      rw [g2]
      simp only [ownAt_iff ht ho]
    · intro w k
      rw [g1.acc]
      simp only [ownAt_iff ht ho]
    · intro hc
      obtain ⟨d', f, e1, e2, e3⟩ := minify_spec hs'.min hc gwf
      rw [hd1] at e1; cases e1
      exact ⟨f, e3⟩

theorem builds_spec {π ρ α E : Type} {s : Seeds} {parse : π → Except ρ Hir} (hp : ∀ p h, parse p = .ok h → h.ok = true)
    (hs : s.Fair) {ps : List (π × (List Nat → List α → E))} {t ws} (h : BuildsTo s parse ps (.ok (t, ws))) :
    ∃ hirs, parseAll parse (ps.map Prod.fst) = .ok hirs ∧ (∀ h ∈ hirs, h.ok = true) ∧ hirs.length = ps.length ∧
      Built s hirs (ps.map Prod.snd) t ws := by
  obtain ⟨fuel, h⟩ := h
  unfold builderBuild at h
  cases hpa : parseAll parse (ps.map Prod.fst) with
  | error e => simp [hpa] at h
  | ok hirs =>
    rw [hpa] at h
    simp only at h
    cases hb : buildAll hirs with
    | error e => simp [hb] at h
    | ok tn =>
      rw [hb] at h
      simp only [Option.map_eq_some_iff, Except.ok.injEq, Prod.mk.injEq] at h
      obtain ⟨⟨d, ws'⟩, h1, rfl, rfl⟩ := h
      refine ⟨hirs, rfl, parseAll_wf hp hpa, by simpa using (parseAll_ok.1 hpa).1, ?_⟩
      exact buildTables_spec (parseAll_wf hp hpa) hs hb h1 _

/-- `build` always has exactly one outcome. -/
theorem builds_total {π ρ α E : Type} {s : Seeds} {parse : π → Except ρ Hir} (hp : ∀ p h, parse p = .ok h → h.ok = true)
    (hs : s.Fair) (ps : List (π × (List Nat → List α → E))) : ∃ r, BuildsTo s parse ps r := by
  unfold BuildsTo builderBuild
  cases hpa : parseAll parse (ps.map Prod.fst) with
  | error e => exact ⟨_, 0, rfl⟩
  | ok hirs =>
    simp only
    cases hb : buildAll hirs with
    | error e => exact ⟨_, 0, rfl⟩
    | ok tn =>
      have ho := parseAll_wf hp hpa
      obtain ⟨fuel, ⟨d, ws⟩, hf⟩ := fromNfa_some (ord := s.ord) (buildAll_good hb ho).1 (buildAll_edgesOk hb ho)
      obtain ⟨g1, _⟩ := fromNfa_spec (buildAll_edgesOk hb ho) hs.ord hf
      obtain ⟨d2, h2, _⟩ := minify_weak hs.min g1.wf
      refine ⟨.ok ({ dfa := d2, maker := ps.map Prod.snd }, ws), fuel, ?_⟩
      simp only [buildTables, hf, h2, Option.map_some]

theorem builds_unique {π ρ α E : Type} {s : Seeds} {parse : π → Except ρ Hir} {ps : List (π × (List Nat → List α → E))} {r r'}
    (h : BuildsTo s parse ps r) (h' : BuildsTo s parse ps r') : r = r' := by
  obtain ⟨f, h⟩ := h
  obtain ⟨f', h'⟩ := h'
  unfold builderBuild at h h'
  cases hpa : parseAll parse (ps.map Prod.fst) with
  | error e => rw [hpa] at h h'; simp at h h'; rw [← h, ← h']
  | ok hirs =>
    rw [hpa] at h h'
    simp only at h h'
    cases hb : buildAll hirs with
    | error e => rw [hb] at h h'; simp at h h'; rw [← h, ← h']
    | ok tn =>
      rw [hb] at h h'
      simp only [buildTables] at h h'
      cases h1 : fromNfa f s.ord tn with
      | none => rw [h1] at h; simp at h
      | some x =>
        cases h2 : fromNfa f' s.ord tn with
        | none => rw [h2] at h'; simp at h'
        | some y =>
          have := fromNfa_fuel h1 h2
          subst this
          rw [h1] at h; rw [h2] at h'
          rw [h] at h'
          exact Option.some.inj h'

theorem Seeds.Fair.calm {s : Seeds} (h : s.Fair) : s.calm.Fair := ⟨h.ord, ⟨h.min.visit, h.min.order, h.min.pick⟩⟩

theorem Seeds.calm_noCollision (s : Seeds) : s.calm.NoCollision := fun _ _ _ _ _ => rfl

theorem calm_of_noCollision {π ρ α E : Type} {s : Seeds} (h : s.NoCollision) (parse : π → Except ρ Hir)
    (ps : List (π × (List Nat → List α → E))) : Calm s parse ps := by
  have : s.calm = s := by
    unfold Seeds.calm
    have : (fun (_ _ _ : Nat) (_ _ : Row) => false) = s.min.collide := by funext r g t k k'; exact (h r g t k k').symm
    rw [this]
  intro r
  rw [this]

/-! ## A build is calm if no two keys that are compared collide -/

theorem splitInsert_calm {col : Nat → Row → Row → Bool} {K : Row → Prop}
    (hK : ∀ t k k', K k → K k' → k ≠ k' → rowEq k k' = true → col t k k' = false)
    {key : Row} {n : Nat} (hkey : K key) {L : List (Row × List Nat)} (hL : ∀ c ∈ L, K c.1) :
    splitInsert col key n L = splitInsert (fun _ _ _ => false) key n L ∧ ∀ c ∈ splitInsert col key n L, K c.1 := by
  constructor
  · rw [splitInsert_calmly fun c hc h1 h2 => hK _ _ _ (hL c hc) hkey h1 h2, splitInsert_calmly fun _ _ _ _ => rfl]
  · rintro ⟨k, s⟩ hc
    rcases splitInsert_keys hc with rfl | ⟨s', h⟩
    · exact hkey
    · exact hL (k, s') h

theorem splitSet_calm {col : Nat → Row → Row → Bool} {rows : List Row} {gm nodes : List Nat}
    (hK : ∀ r ∈ [] :: rows, ∀ r' ∈ [] :: rows, compress gm r ≠ compress gm r' → rowEq (compress gm r) (compress gm r') = true →
      ∀ t, col t (compress gm r) (compress gm r') = false) :
    splitSet col rows gm nodes = splitSet (fun _ _ _ => false) rows gm nodes := by
  unfold splitSet
  have hmem : ∀ n, rows.getD n [] ∈ [] :: rows := by
    intro n
    rw [List.getD_eq_getElem?_getD]
    cases h : rows[n]? with
    | none => simp
    | some r => exact List.mem_cons_of_mem _ (List.mem_of_getElem? h)
  suffices ∀ (nodes : List Nat) (L : List (Row × List Nat)), (∀ c ∈ L, ∃ r ∈ [] :: rows, c.1 = compress gm r) →
      nodes.foldl (fun sg n => splitInsert col (compress gm (rows.getD n [])) n sg) L =
      nodes.foldl (fun sg n => splitInsert (fun _ _ _ => false) (compress gm (rows.getD n [])) n sg) L from
    this nodes [] (by simp)
  intro nodes
  induction nodes with
  | nil => intro L _; rfl
  | cons n nodes ih =>
    intro L hL
    obtain ⟨h1, h2⟩ := splitInsert_calm (col := col) (K := fun k => ∃ r ∈ [] :: rows, k = compress gm r) (by
      rintro t k k' ⟨r, hr, rfl⟩ ⟨r', hr', rfl⟩ h1 h2
      exact hK r hr r' hr' h1 h2 t) (key := compress gm (rows.getD n [])) (n := n) ⟨_, hmem n, rfl⟩ hL
    simp only [List.foldl_cons]
    rw [← h1]
    exact ih _ h2

/-- The minimiser is undisturbed if no two different keys made from the rows of this automaton collide. -/
theorem minify_calm {o : MinOracle} {d : DFA}
    (hK : ∀ gm, ∀ r ∈ [] :: d.rows, ∀ r' ∈ [] :: d.rows, compress gm r ≠ compress gm r' →
      rowEq (compress gm r) (compress gm r') = true → ∀ i g t, o.collide i g t (compress gm r) (compress gm r') = false) :
    minify o d = minify { o with collide := fun _ _ _ _ _ => false } d := by
  have hset : ∀ i g gm nodes, splitSet (o.collide i g) d.rows gm nodes = splitSet (fun _ _ _ => false) d.rows gm nodes :=
    fun i g gm nodes => splitSet_calm fun r hr r' hr' h1 h2 => hK gm r hr r' hr' h1 h2 i g
  have hround : ∀ gm new round, minRound o d.rows gm new round = minRound { o with collide := fun _ _ _ _ _ => false } d.rows gm new round := by
    intro gm new round
    unfold minRound
    congr 1
    funext st sg
    unfold roundSet
    simp only [hset]
  have hloop : ∀ f round gm new, minLoop o d.rows f round gm new = minLoop { o with collide := fun _ _ _ _ _ => false } d.rows f round gm new := by
    intro f
    induction f with
    | zero => intros; rfl
    | succ f ih =>
      intro round gm new
      unfold minLoop
      simp only [hround, ih]
  unfold minify
  simp only [hloop]
  rfl

end Verif.Tok
