import Verif.Tok.HeapDfa
import Verif.Tok.SpecProof

/-!
# Property C56: node pointers

The automaton is built in a memory with an arbitrary allocator `al` (`al.Fair`: it gives out no address that is in use)
that already contains arbitrary other data (`h0.Ok`: only live nodes are locked).
-/

namespace Verif.Tok

variable {al : Alloc} {h0 : Heap} {hs : List Hir}

/-! ## Concrete values for examples -/

/-- Addresses counted upwards. -/
def alUp : Alloc := fun _ l => l.foldl max 0 + 1

theorem le_foldl_max (l : List Nat) (m : Nat) : m ≤ l.foldl max m ∧ ∀ a ∈ l, a ≤ l.foldl max m := by
  induction l generalizing m with
  | nil => simp
  | cons x l ih =>
    rw [List.foldl_cons]
    have := ih (max m x)
    refine ⟨by omega, ?_⟩
    intro a ha
    rcases List.mem_cons.1 ha with rfl | ha
    · omega
    · exact this.2 a ha

theorem alUp_fair : alUp.Fair := by
  intro k l h
  have := (le_foldl_max l 0).2 _ h
  unfold alUp at this
  omega

/-- The lowest address that is free, alternating with high ones: addresses that were freed are given out again, and
later nodes are not at higher addresses. -/
def alReuse : Alloc := fun k l =>
  let free := (List.range (l.length + 1)).filter fun a => !l.contains a
  if k % 3 = 0 then alUp k l else free.headD (alUp k l)

theorem alReuse_fair : alReuse.Fair := by
  intro k l
  unfold alReuse
  simp only
  split
  · exact alUp_fair k l
  · generalize hf : (List.range (l.length + 1)).filter (fun a => !l.contains a) = f
    cases f with
    | nil => exact alUp_fair k l
    | cons a f =>
      have : a ∈ (List.range (l.length + 1)).filter (fun a => !l.contains a) := by rw [hf]; simp
      have := (List.mem_filter.1 this).2
      simpa using this

/-- A memory with a locked node of somebody else at address 2. -/
def heap0 : Heap := { live := [2], cell := fun _ => { eps := [7], next := [] }, locked := [2], clock := 0 }

theorem heap0_ok : heap0.Ok := by intro a h; exact h

/-- The cells up to the highest address. -/
def view0 (h : Heap) (node : List Addr) : List Node := (List.range (node.foldl max 0 + 1)).map h.cell

theorem view0_ok : ViewOk view0 := by
  intro h node a ha
  have := (le_foldl_max node 0).2 a ha
  unfold view0
  rw [List.getElem?_map, List.getElem?_range (by omega)]
  rfl

/-- The nodes the automaton consists of, if it is built. -/
def nodes0 (al : Alloc) (hs : List Hir) : Option (List Addr × Addr × List Addr) :=
  match buildAllH al hs heap0 with
  | .ok T _ => some (T.node, T.b, T.ends)
  | _ => none

/-! ## C56 -/

theorem RepN.named {h : Heap} {nm : Nat → Addr} {l : List Addr} {ns mem : List Node} (H : RepN h nm noExt l ns)
    (hm : h.SeenAs l mem) : Named ns mem nm := by
  refine ⟨H.inj, ?_, ?_⟩
  · intro i n hn
    have hi : i < ns.length := by
      rcases Nat.lt_or_ge i ns.length with h | h
      · exact h
      · rw [List.getElem?_eq_none h] at hn; cases hn
    rw [hm _ (H.mem hi), H.cell i n hn]
  · intro n hn q hq
    exact (H.tgt n hn q hq).resolve_right id

theorem RepN.edge {h : Heap} {nm : Nat → Addr} {l : List Addr} {ns : List Node} (H : RepN h nm noExt l ns) {a b : Addr}
    (ha : a ∈ l) (he : h.Edge a b) : b ∈ l := by
  obtain ⟨i, hi, rfl⟩ := H.of_mem ha
  have hn : ns[i]? = some ns[i] := List.getElem?_eq_getElem hi
  have hc := H.cell i _ hn
  have hmem : ns[i] ∈ ns := List.getElem_mem hi
  unfold Heap.Edge at he
  rw [hc] at he
  rcases he with he | ⟨r, t, hr, ht⟩
  · obtain ⟨q, hq, rfl⟩ := List.mem_map.1 (OSet.mem_ofList.1 he)
    exact H.mem ((H.tgt _ hmem q (Or.inl hq)).resolve_right id)
  · obtain ⟨x, hx, e⟩ := List.mem_map.1 hr
    cases e
    obtain ⟨q, hq, rfl⟩ := List.mem_map.1 (OSet.mem_ofList.1 ht)
    exact H.mem ((H.tgt _ hmem q (Or.inr ⟨x, hx, hq⟩)).resolve_right id)

/-- C56: building the automaton uses no memory that is not live, waits for no lock it holds itself and looks up no missing
key, whatever the allocator does.  When it is done, the memory holds what it held before, unchanged, and the nodes of the
automaton, each at an address of its own, which was not in use before; nothing else is left over, no lock is left held; and
whatever can be reached from the begin and the ends by following pointers is one of these nodes. -/
theorem c56_memory (hal : al.Fair) (hok : h0.Ok) (hs : List Hir) :
    (∀ b, buildAllH al hs h0 ≠ .bad b) ∧
    ∀ T h, buildAllH al hs h0 = .ok T h →
      (∀ a, a ∈ h.live ↔ a ∈ h0.live ∨ a ∈ T.node) ∧ T.node.Nodup ∧ (∀ a ∈ T.node, a ∉ h0.live) ∧
      (∀ a ∈ h0.live, h.cell a = h0.cell a) ∧ h.locked = h0.locked ∧ (∀ a ∈ T.node, a ∉ h.locked) ∧
      ∀ p ∈ T.b :: T.ends, ∀ a, h.Reach p a → a ∈ T.node ∧ a ∈ h.live := by
  cases hb : buildAll hs with
  | error e =>
    rw [buildAllH_err hal hok hb]
    exact ⟨fun _ hc => (nomatch hc), fun _ _ hc => (nomatch hc)⟩
  | ok t =>
    obtain ⟨T', h', nm, e, G, R⟩ := buildAllH_ok hal hok hb
    rw [e]
    refine ⟨fun _ hc => (nomatch hc), ?_⟩
    intro T h hc
    cases hc
    refine ⟨G.live, ?_, G.fresh, G.cell, G.locked, ?_, ?_⟩
    · rw [R.nodes.node, List.Nodup, List.pairwise_map]
      refine List.Pairwise.imp_of_mem ?_ List.nodup_range
      intro i j hi hj hne hc
      exact hne (R.nodes.inj i j (List.mem_range.1 hi) (List.mem_range.1 hj) hc)
    · intro a ha hl
      rw [G.locked] at hl
      exact G.fresh a ha (hok a hl)
    · intro p hp a hr
      have key : a ∈ T'.node := by
        induction hr with
        | refl =>
          rcases List.mem_cons.1 hp with rfl | hp
          · rw [R.b]; exact R.nodes.mem R.blt
          · rw [R.ends] at hp
            obtain ⟨q, hq, rfl⟩ := List.mem_map.1 hp
            exact R.nodes.mem (R.esLt q hq)
        | step _ he ih => exact R.nodes.edge ih he
      exact ⟨key, (G.live a).2 (Or.inr key)⟩

/-- `a`, `b`, `a` with an allocator that gives out freed addresses again: the nodes are not in order of address, address 2
belongs to somebody else, and addresses 1 and 6 were used before by a part that is gone. -/
example : nodes0 alReuse [ra, rb, ra] = some ([4, 5, 1, 7, 6, 9, 3], 3, [5, 7, 9]) := by decide +kernel

theorem walk_path {h : Heap} {nm : Nat → Addr} {l : List Addr} {ns : List Node} (H : RepN h nm noExt l ns) {a : Addr}
    {w : List Nat} {b : Addr} : ∀ {p : Nat}, p < ns.length → nm p = a → (h.Walk a w b ↔ ∃ q, NPath ns p w q ∧ nm q = b) := by
  intro p hp ha
  have cellOf : ∀ {p}, p < ns.length → ∃ n, ns[p]? = some n ∧ n ∈ ns ∧ h.cell (nm p) = n.image nm := fun {p} hp =>
    ⟨ns[p], List.getElem?_eq_getElem hp, List.getElem_mem hp, H.cell p _ (List.getElem?_eq_getElem hp)⟩
  constructor
  · intro hw
    induction hw generalizing p with
    | nil => exact ⟨p, .nil p, ha⟩
    | eps h1 _ ih =>
      subst ha
      obtain ⟨n, hn, hm, hc⟩ := cellOf hp
      rw [hc] at h1
      obtain ⟨q, hq, rfl⟩ := List.mem_map.1 (OSet.mem_ofList.1 h1)
      obtain ⟨r, hr, e⟩ := ih ((H.tgt n hm q (Or.inl hq)).resolve_right id) rfl
      exact ⟨r, .eps ⟨n, hn, hq⟩ hr, e⟩
    | step h1 h2 h3 h4 _ ih =>
      subst ha
      obtain ⟨n, hn, hm, hc⟩ := cellOf hp
      rw [hc] at h1
      obtain ⟨x, hx, e⟩ := List.mem_map.1 h1
      cases e
      obtain ⟨q, hq, rfl⟩ := List.mem_map.1 (OSet.mem_ofList.1 h4)
      obtain ⟨r, hr, e⟩ := ih ((H.tgt n hm q (Or.inr ⟨x, hx, hq⟩)).resolve_right id) rfl
      exact ⟨r, .step ⟨n, hn, x.1, x.2, hx, h2, h3, hq⟩ hr, e⟩
  · rintro ⟨q, hq, rfl⟩
    subst ha
    induction hq with
    | nil => exact .nil _
    | eps h1 _ ih =>
      obtain ⟨n, hn, hq⟩ := h1
      obtain ⟨n', hn', hm, hc⟩ := cellOf hp
      rw [hn] at hn'; cases hn'
      refine .eps ?_ (ih ((H.tgt n hm _ (Or.inl hq)).resolve_right id))
      rw [hc]
      exact OSet.mem_ofList.2 (List.mem_map.2 ⟨_, hq, rfl⟩)
    | step h1 _ ih =>
      obtain ⟨n, hn, r, t, hr, h2, h3, hq⟩ := h1
      obtain ⟨n', hn', hm, hc⟩ := cellOf hp
      rw [hn] at hn'; cases hn'
      refine .step (r := r) (t := OSet.ofList (t.map nm)) ?_ h2 h3 (OSet.mem_ofList.2 (List.mem_map.2 ⟨_, hq, rfl⟩))
        (ih ((H.tgt n hm _ (Or.inr ⟨(r, t), hr, hq⟩)).resolve_right id))
      rw [hc]
      exact List.mem_map.2 ⟨(r, t), hr, rfl⟩

/-- C56: in the memory that results, every word of the language of pattern `i` can be read along the pointers from the
begin to end number `i`; for a pattern in the class of C02 no other word can. -/
theorem c56_language (hal : al.Fair) (hok : h0.Ok) (ho : ∀ h ∈ hs, h.ok = true) {T : HTNFA} {h : Heap}
    (hb : buildAllH al hs h0 = .ok T h) :
    T.ends.length = hs.length ∧
    ∀ (i : Nat) (hir : Hir), hs[i]? = some hir → ∃ e, T.ends[i]? = some e ∧
      (∀ w, Lang hir w → h.Walk T.b w e) ∧ (hir.faithful = true → ∀ w, h.Walk T.b w e → Lang hir w) := by
  cases hm : buildAll hs with
  | error e => rw [buildAllH_err hal hok hm] at hb; cases hb
  | ok t =>
    obtain ⟨T', h', nm, e, G, R⟩ := buildAllH_ok hal hok hm
    rw [e] at hb
    cases hb
    obtain ⟨hwf, hlen, hacc⟩ := buildAll_good hm ho
    have hl : T.ends.length = hs.length := by rw [R.ends, List.length_map, hlen]
    refine ⟨hl, ?_⟩
    intro i hir hi
    obtain ⟨x, hx, hiff⟩ := hacc i hir hi
    have hilt : i < t.ends.length := by
      rw [hlen]
      rcases Nat.lt_or_ge i hs.length with h | h
      · exact h
      · rw [List.getElem?_eq_none h] at hi; cases hi
    have he : t.ends[i]? = some t.ends[i] := List.getElem?_eq_getElem hilt
    have helt : t.ends[i] < t.node.length := R.esLt _ (List.getElem_mem hilt)
    have hwalk : ∀ w, h.Walk T.b w (nm t.ends[i]) ↔ x.Accepts w := by
      intro w
      rw [walk_path R.nodes R.blt R.b.symm, ← hiff]
      constructor
      · rintro ⟨q, hq, e⟩
        have N : Named t.node (view0 h T.node) nm := R.nodes.named (view0_ok h T.node)
        have := R.nodes.inj q _ (named_path_lt N R.blt hq) helt e
        subst this
        exact ⟨_, he, hq⟩
      · rintro ⟨q, hq, hp⟩
        rw [he] at hq; cases hq
        exact ⟨_, hp, rfl⟩
    refine ⟨nm t.ends[i], by rw [R.ends, List.getElem?_map, he]; rfl, ?_, ?_⟩
    · intro w hw
      obtain ⟨h', e1, x', e2, e3⟩ := lang_own hm ho hi hw
      rw [hi] at e1; cases e1
      rw [hx] at e2; cases e2
      exact (hwalk w).2 e3
    · intro hf w hw
      exact own_lang ho hi hf ⟨hir, hi, x, hx, (hwalk w).1 hw⟩

/-- The same outcome, up to the order of the warnings. -/
def SameBuild {ρ α E : Type} : Except (BuildError ρ) (Tokenizer α E × List (Nat × Nat)) →
    Except (BuildError ρ) (Tokenizer α E × List (Nat × Nat)) → Prop
  | .error e, .error e' => e = e'
  | .ok (t, ws), .ok (t', ws') => t = t' ∧ ws.Perm ws'
  | _, _ => False

section
variable {π ρ α E : Type} {parse : π → Except ρ Hir} {ps : List (π × (List Nat → List α → E))}
  {view : Heap → List Addr → List Node}

theorem named_buildTables {mem : List Node} {nm : Nat → Addr} {t : TNFA} (H : Named t.node mem nm) (hb : t.b < t.node.length)
    (he : ∀ e ∈ t.ends, e < t.node.length) (fuel : Nat) {s s' : Seeds} (h : s.Fair) (h' : s'.Fair) (hm : s.min = s'.min) :
    (buildTables fuel s.ord s.min ⟨mem, nm t.b, t.ends.map nm⟩ = none ∧ buildTables fuel s'.ord s'.min t = none) ∨
      ∃ d ws ws', buildTables fuel s.ord s.min ⟨mem, nm t.b, t.ends.map nm⟩ = some (d, ws) ∧
        buildTables fuel s'.ord s'.min t = some (d, ws') ∧ ws.Perm ws' := by
  unfold buildTables
  rw [hm]
  rcases named_fromNfa H hb he fuel h.ord h'.ord with ⟨h1, h2⟩ | ⟨d, ws, ws', h1, h2, h3⟩
  · rw [h1, h2]; exact Or.inl ⟨rfl, rfl⟩
  · rw [h1, h2]
    cases hmi : minify s'.min d with
    | none => exact Or.inl ⟨by simp [hmi], by simp [hmi]⟩
    | some d' => exact Or.inr ⟨d', ws, ws', by simp [hmi], by simp [hmi], h3⟩

theorem builderBuildH_same (hal : al.Fair) (hok : h0.Ok) (hv : ViewOk view) (fuel : Nat) {s s' : Seeds} (h : s.Fair)
    (h' : s'.Fair) (hm : s.min = s'.min) :
    (builderBuildH al h0 view fuel s parse ps = none ∧ builderBuild fuel s' parse ps = none) ∨
      ∃ r r', builderBuildH al h0 view fuel s parse ps = some (.ok r) ∧ builderBuild fuel s' parse ps = some r' ∧
        SameBuild r r' := by
  unfold builderBuildH builderBuild
  cases parseAll parse (ps.map Prod.fst) with
  | error e => exact Or.inr ⟨_, _, rfl, rfl, rfl⟩
  | ok hs =>
    simp only
    cases hb : buildAll hs with
    | error e =>
      rw [buildAllH_err hal hok hb]
      exact Or.inr ⟨_, _, rfl, rfl, rfl⟩
    | ok t =>
      obtain ⟨T, h1, nm, e, G, R⟩ := buildAllH_ok hal hok hb
      rw [e]
      simp only
      rw [R.b, R.ends]
      rcases named_buildTables (R.nodes.named (hv h1 T.node)) R.blt R.esLt fuel h h' hm with ⟨h1, h2⟩ | ⟨d, ws, ws', h1, h2, h3⟩
      · rw [h1, h2]; exact Or.inl ⟨rfl, rfl⟩
      · rw [h1, h2]; exact Or.inr ⟨_, _, rfl, rfl, rfl, h3⟩

/-- The outcome of `build` in memory. -/
def BuildsToH (al : Alloc) (h0 : Heap) (view : Heap → List Addr → List Node) (s : Seeds) (parse : π → Except ρ Hir)
    (ps : List (π × (List Nat → List α → E))) (r : Except Bad (Except (BuildError ρ) (Tokenizer α E × List (Nat × Nat)))) : Prop :=
  ∃ fuel, builderBuildH al h0 view fuel s parse ps = some r

/-- C56: with nodes at any addresses, and whatever raw pointers show outside of the nodes, `build` has an outcome, and
every outcome is, up to the order of the warnings, an outcome of the model without addresses on which the other theorems
are based; and conversely.  In particular none is a misuse of memory. -/
theorem c56_same_outcomes (hparse : ParserOk parse) (hal : al.Fair) (hok : h0.Ok) (hv : ViewOk view) {s : Seeds} (hs : s.Fair) :
    (∃ r, BuildsToH al h0 view s parse ps (.ok r)) ∧
    (∀ b, ¬ BuildsToH al h0 view s parse ps (.error b)) ∧
    (∀ r, BuildsToH al h0 view s parse ps (.ok r) → ∃ r', BuildsTo s parse ps r' ∧ SameBuild r r') ∧
    (∀ r', BuildsTo s parse ps r' → ∃ r, BuildsToH al h0 view s parse ps (.ok r) ∧ SameBuild r r') := by
  have key := fun fuel => builderBuildH_same (parse := parse) (ps := ps) hal hok hv fuel hs hs rfl
  have back : ∀ r', BuildsTo s parse ps r' → ∃ r, BuildsToH al h0 view s parse ps (.ok r) ∧ SameBuild r r' := by
    rintro r' ⟨fuel, hr⟩
    rcases key fuel with ⟨h1, h2⟩ | ⟨r1, r2, h1, h2, h3⟩
    · rw [h2] at hr; cases hr
    · rw [h2] at hr; cases hr
      exact ⟨r1, ⟨fuel, h1⟩, h3⟩
  refine ⟨?_, ?_, ?_, back⟩
  · obtain ⟨r', hr⟩ := builds_total hparse hs ps
    obtain ⟨r, h1, _⟩ := back r' hr
    exact ⟨r, h1⟩
  · rintro b ⟨fuel, hr⟩
    rcases key fuel with ⟨h1, h2⟩ | ⟨r1, r2, h1, h2, h3⟩
    · rw [h1] at hr; cases hr
    · rw [h1] at hr; cases hr
  · rintro r ⟨fuel, hr⟩
    rcases key fuel with ⟨h1, h2⟩ | ⟨r1, r2, h1, h2, h3⟩
    · rw [h1] at hr; cases hr
    · rw [h1] at hr; cases hr
      exact ⟨r2, ⟨fuel, h2⟩, h3⟩

theorem SameBuild.symm {r r' : Except (BuildError ρ) (Tokenizer α E × List (Nat × Nat))} (h : SameBuild r r') : SameBuild r' r := by
  cases r <;> cases r'
  · exact Eq.symm h
  · exact h.elim
  · exact h.elim
  · exact ⟨h.1.symm, h.2.symm⟩

theorem SameBuild.trans {a b c : Except (BuildError ρ) (Tokenizer α E × List (Nat × Nat))} (h : SameBuild a b)
    (h' : SameBuild b c) : SameBuild a c := by
  cases a <;> cases b <;> cases c
  · exact Eq.trans h h'
  · exact h'.elim
  · exact h.elim
  · exact h.elim
  · exact h.elim
  · exact h.elim
  · exact h'.elim
  · exact ⟨h.1.trans h'.1, h.2.trans h'.2⟩

/-- C56: two runs with different allocators, in different memories, with different orders of the hash map of sets of nodes:
the tokenizers are the same, table by table, and so are the warnings up to their order. -/
theorem c56_allocator {al' : Alloc} {h0' : Heap} {view' : Heap → List Addr → List Node} (hal : al.Fair) (hal' : al'.Fair)
    (hok : h0.Ok) (hok' : h0'.Ok) (hv : ViewOk view) (hv' : ViewOk view') {s s' : Seeds} (hs : s.Fair) (hs' : s'.Fair)
    (hm : s.min = s'.min) {r r' : Except (BuildError ρ) (Tokenizer α E × List (Nat × Nat))}
    (hr : BuildsToH al h0 view s parse ps (.ok r)) (hr' : BuildsToH al' h0' view' s' parse ps (.ok r')) :
    SameBuild r r' := by
  obtain ⟨f, hf⟩ := hr
  obtain ⟨f', hf'⟩ := hr'
  rcases builderBuildH_same (parse := parse) (ps := ps) hal hok hv f hs hs rfl with ⟨h1, _⟩ | ⟨a, b, h1, h2, h3⟩
  · rw [h1] at hf; cases hf
  · rcases builderBuildH_same (parse := parse) (ps := ps) hal' hok' hv' f' hs' hs hm.symm with ⟨g1, _⟩ | ⟨a', b', g1, g2, g3⟩
    · rw [g1] at hf'; cases hf'
    · rw [h1] at hf; cases hf
      rw [g1] at hf'; cases hf'
      obtain rfl := builds_unique ⟨f, h2⟩ ⟨f', g2⟩
      exact h3.trans g3.symm

end

/-- `a`, `b` with two allocators: different addresses. -/
example : nodes0 alUp [ra, rb] = some ([6, 7, 10, 11, 3], 3, [7, 11]) := by decide +kernel
example : nodes0 alReuse [ra, rb] = some ([4, 5, 1, 7, 3], 3, [5, 7]) := by decide +kernel

theorem acc0_heap {s : Seeds} (hs : s.Fair) {al : Alloc} (hal : al.Fair) {hirs : List Hir} {w k} (h : acc0 s hirs w = some k) :
    ∃ t ws, BuildsToH al heap0 view0 s parse0 (tagged hirs) (.ok (.ok (t, ws))) ∧ t.accepts w = k := by
  obtain ⟨t, ws, h1, h2⟩ := acc0_spec h
  obtain ⟨r, h3, h4⟩ := (c56_same_outcomes parse0_ok hal heap0_ok view0_ok hs).2.2.2 _ h1
  cases r with
  | error e => exact h4.elim
  | ok p =>
    obtain ⟨t', ws'⟩ := p
    refine ⟨t', ws', h3, ?_⟩
    rw [h4.1]
    exact h2

/-- `a*|b`, `ab` with the allocator that reuses addresses: `ab` is accepted by pattern 1. -/
example : ∃ t ws, BuildsToH alReuse heap0 view0 seeds0 parse0 (tagged [.alt [.rep .zeroOrMore ra, rb], .concat [ra, rb]])
    (.ok (.ok (t, ws))) ∧ t.accepts [97, 98] = some 1 := acc0_heap seeds0_fair alReuse_fair (by decide)

end Verif.Tok
