import Verif.Tok.HeapBuild

/-! # The combined automaton in memory -/

namespace Verif.Tok

/-- The loop over the patterns: `b` is the box of the begin node. -/
structure AllH (h0 h : Heap) (b : Addr) (node ends : List Addr) (ns : List Node) (bs es : List Nat) (nm : Nat → Addr) : Prop where
  g : Grows h0 h (b :: node) []
  R : RepN h nm noExt node ns
  fresh : b ∉ node
  cell : h.cell b = { eps := OSet.ofList (bs.map nm), next := [] }
  bsLt : ∀ p ∈ bs, p < ns.length
  ends : ends = es.map nm
  esLt : ∀ p ∈ es, p < ns.length

/-- Outcome of the loop. -/
def GoodLoop (h0 : Heap) (b : Addr) (r : HRes (List Addr × List Addr)) (y : Except NfaError (List Node × List Nat × List Nat)) :
    Prop :=
  match y with
  | .ok (ns, bs, es) => ∃ node ends h nm, r = .ok (node, ends) h ∧ AllH h0 h b node ends ns bs es nm
  | .error e => r = .err e

theorem allH_step {al : Alloc} (hal : al.Fair) {h0 h h1 : Heap} (hok : h0.Ok) {b : Addr} {node ends : List Addr}
    {ns : List Node} {bs es : List Nat} {nm nmX : Nat → Addr} (A : AllH h0 h b node ends ns bs es nm)
    {x : HNFA} {y : NFA} (g1 : Grows h h1 x.node []) (X : Rep h1 nmX noExt x y) {α : Type} (k : List Addr → Addr → Mem α) :
    ∃ boxes e h' nm', (do
        let boxes ← allocMany al x.node.length
        let e ← orBad (mapped x.node boxes x.e)
        let xb ← orBad (mapped x.node boxes x.b)
        change b (Node.addE xb)
        fillBoxes x.node boxes (x.node.zip boxes)
        free x.node
        k boxes e) h1 = k boxes e h' ∧
      AllH h0 h' b (node ++ boxes) (ends ++ [e]) (appendNodes ns y.node) (OSet.insert (ns.length + y.b) bs)
        (es ++ [ns.length + y.e]) nm' := by
  obtain ⟨l, h2, e2, hl, hnd, g2, c2⟩ := allocMany_spec hal x.node.length h1
  have hlen : l.length = y.node.length := by rw [hl, X.nodes.length]
  obtain ⟨nm', hl', hinj'⟩ : ∃ nm' : Nat → Addr, l = (List.range y.node.length).map nm' ∧
      ∀ i j, i < y.node.length → j < y.node.length → nm' i = nm' j → i = j := by
    refine ⟨nameOf l, by rw [← hlen, map_nameOf], ?_⟩
    intro i j hi hj; exact nameOf_inj hnd i j (by omega) (by omega)
  have hmem : ∀ i, i < y.node.length → nm' i ∈ l := by
    intro i hi
    rw [hl']
    exact List.mem_map.2 ⟨i, List.mem_range.2 hi, rfl⟩
  have htgt : ∀ n ∈ y.node, ∀ q, n.Tgt q → q < y.node.length := by
    intro n hn q hq
    rcases X.nodes.tgt n hn q hq with h2 | h2
    · exact h2
    · exact h2.elim
  have lx1 : ∀ a ∈ x.node, a ∈ h1.live := fun a ha => (g1.live a).2 (Or.inr ha)
  have ln : ∀ a ∈ b :: node, a ∈ h.live := fun a ha => (A.g.live a).2 (Or.inr ha)
  have lb : b ∈ h.live := ln b (by simp)
  have gall : Grows h0 h2 ((b :: node) ++ x.node ++ l) [] := (A.g.trans g1).trans g2
  have hb2 : b ∈ h2.live := (gall.live b).2 (Or.inr (by simp))
  have mb : mapped x.node l x.b = some (nm' y.b) := by
    rw [X.nodes.node, X.b, hl']
    exact mapped_eq X.nodes.inj X.blt
  have me : mapped x.node l x.e = some (nm' y.e) := by
    rw [X.nodes.node, X.e, hl']
    exact mapped_eq X.nodes.inj X.elt
  have hbx : b ∉ x.node := fun hc => g1.fresh b hc lb
  have hbl : b ∉ l := fun hc => g2.fresh b hc ((g1.live b).2 (Or.inl lb))
  have hxl : ∀ a ∈ x.node, a ∉ l := fun a ha hc => g2.fresh a hc (lx1 a ha)
  have hnl : ∀ a ∈ node, a ∉ l := fun a ha hc => g2.fresh a hc ((g1.live a).2 (Or.inl (ln a (by simp [ha]))))
  have hnx : ∀ a ∈ node, a ∉ x.node := fun a ha hc => g1.fresh a hc (ln a (by simp [ha]))
  obtain ⟨h4, e4, a1, a2, a3, _, a5⟩ := fill_spec (nm := nmX) (nm' := nm') (ns := y.node) hinj'
    (by
      intro i j hi hj hc
      exact hxl _ (X.nodes.mem hi) (hc ▸ hmem j hj))
    (fillBoxes x.node l) (fun _ => rfl)
    (by
      intro h i n t hin b1 b2 b3 b4 b5
      rw [fillBoxes, Mem.bind_ok (readNode_ok b1 b3)]
      have hr : ((h.cell (nmX i)).rename? (mapped x.node l)) = some (n.image nm') := by
        rw [b5, X.nodes.node, hl']
        exact rename_image X.nodes.inj (htgt n (List.mem_of_getElem? hin))
      simp only [hr]
      rw [Mem.bind_ok (orBad_some _ _), Mem.bind_ok (change_ok b2)])
    (List.range y.node.length) (fun i hi => List.mem_range.1 hi) List.nodup_range (h2.set b ((h2.cell b).addE (nm' y.b)))
    (by
      intro i hi
      have m1 : nmX i ∈ (b :: node) ++ x.node ++ l := by simp [X.nodes.mem hi]
      have m2 : nm' i ∈ (b :: node) ++ x.node ++ l := by simp [hmem i hi]
      exact ⟨(gall.live _).2 (Or.inr m1), (gall.live _).2 (Or.inr m2), gall.not_locked hok m1 (by simp),
        gall.not_locked hok m2 (by simp)⟩)
    (by
      intro i n hin
      have hi := (List.getElem?_eq_some_iff.1 hin).1
      have m := X.nodes.mem hi
      have hne : nmX i ≠ b := fun hc => hbx (hc ▸ m)
      rw [Heap.set_other _ _ hne, g2.cell _ (lx1 _ m)]
      exact X.nodes.cell i n hin)
  have ez : x.node.zip l = (List.range y.node.length).map fun i => (nmX i, nm' i) := by
    rw [← zip_names, ← X.nodes.node, ← hl']
  have g4 : Grows h0 h4 (x.node ++ (b :: (node ++ l))) [] := by
    refine ⟨?_, ?_, ?_, ?_⟩
    · intro a
      rw [a1]
      show a ∈ h2.live ↔ _
      rw [gall.live]
      simp only [List.mem_append, List.mem_cons]
      constructor
      · rintro (h | ((h | h) | h) | h)
        · exact Or.inl h
        · exact Or.inr (Or.inr (Or.inl h))
        · exact Or.inr (Or.inr (Or.inr (Or.inl h)))
        · exact Or.inr (Or.inl h)
        · exact Or.inr (Or.inr (Or.inr (Or.inr h)))
      · rintro (h | h | h | h | h)
        · exact Or.inl h
        · exact Or.inr (Or.inl (Or.inr h))
        · exact Or.inr (Or.inl (Or.inl (Or.inl h)))
        · exact Or.inr (Or.inl (Or.inl (Or.inr h)))
        · exact Or.inr (Or.inr h)
    · intro a ha
      have hne : a ≠ b := fun hc => A.g.fresh b (by simp) (hc ▸ ha)
      rw [a3 a (fun i hi hc => gall.fresh _ (by simp [hmem i hi]) (hc ▸ ha)),
        Heap.set_other _ _ hne, gall.cell a ha]
    · rw [a2]; exact gall.locked
    · intro a ha
      apply gall.fresh a
      simp only [List.mem_append, List.mem_cons] at ha ⊢
      rcases ha with h | h | h | h
      · exact Or.inl (Or.inr h)
      · exact Or.inl (Or.inl (Or.inl h))
      · exact Or.inl (Or.inl (Or.inr h))
      · exact Or.inr h
  obtain ⟨h5, e5, g5, c5⟩ := free_spec g4 (by
    intro a ha hc
    simp only [List.mem_cons, List.mem_append] at ha
    rcases ha with rfl | h | h
    · exact hbx hc
    · exact hnx a h hc
    · exact hxl a hc h)
  have cb : h5.cell b = (h2.cell b).addE (nm' y.b) := by
    rw [c5, a3 b (fun i hi hc => hbl (hc ▸ hmem i hi)), Heap.set_self]
  have cb2 : h2.cell b = { eps := OSet.ofList (bs.map nm), next := [] } := by
    rw [g2.cell b ((g1.live b).2 (Or.inl lb)), g1.cell b lb, A.cell]
  have RX : RepN h5 nm' noExt l y.node := by
    refine ⟨hl', hinj', ?_, X.nodes.tgt⟩
    intro i n hin
    rw [c5]
    exact a5 i n (List.mem_range.2 (List.getElem?_eq_some_iff.1 hin).1) hin
  have RA : RepN h5 nm noExt node ns := A.R.frame (by
    intro a ha
    have hne : a ≠ b := fun hc => A.fresh (hc ▸ ha)
    rw [c5, a3 a (fun i hi hc => hnl a ha (hc ▸ hmem i hi)), Heap.set_other _ _ hne,
      g2.cell a ((g1.live a).2 (Or.inl (ln a (by simp [ha])))), g1.cell a (ln a (by simp [ha]))])
  have b2 := X.blt
  have b3 := X.elt
  refine ⟨l, nm' y.e, h5, glue nm nm' ns.length y.node.length, ?_, g5, RA.append RX hnl (fun q hq => hq.elim), ?_, ?_, ?_, ?_, ?_⟩
  · rw [Mem.bind_ok e2, me, Mem.bind_ok (orBad_some _ _), mb, Mem.bind_ok (orBad_some _ _), Mem.bind_ok (change_ok hb2), ez,
      Mem.bind_ok e4, Mem.bind_ok e5]
  · simp [A.fresh, hbl]
  · rw [cb, cb2]
    simp only [Node.addE, Node.mk.injEq, and_true]
    rw [OSet.ofList_map_insert, glue_mid b2]
    congr 2
    exact List.map_congr_left fun p hp => (glue_lt (A.bsLt p hp)).symm
  · intro p hp
    rw [length_appendNodes']
    rcases OSet.mem_insert.1 hp with rfl | hp
    · omega
    · have := A.bsLt p hp; omega
  · rw [List.map_append, A.ends]
    congr 1
    · exact List.map_congr_left fun p hp => (glue_lt (A.esLt p hp)).symm
    · simp [glue_mid b3]
  · intro p hp
    rw [length_appendNodes']
    rcases List.mem_append.1 hp with hp | hp
    · have := A.esLt p hp; omega
    · simp at hp; omega

theorem buildAllLoopH_good {al : Alloc} (hal : al.Fair) {h0 : Heap} (hok : h0.Ok) {b : Addr} (hs : List Hir) {h : Heap}
    {node ends : List Addr} {ns : List Node} {bs es : List Nat} {nm : Nat → Addr}
    (A : AllH h0 h b node ends ns bs es nm) :
    GoodLoop h0 b (buildAllLoopH al b hs (node, ends) h) (buildAllLoop hs (ns, bs, es)) := by
  induction hs generalizing h node ends ns bs es nm with
  | nil => exact ⟨node, ends, h, nm, rfl, A⟩
  | cons hir t ih =>
    have h1 := buildH_good hal hir h (A.g.ok hok (by simp))
    rw [buildAllLoop, buildAllLoopH]
    revert h1
    cases hb : build hir with
    | error e =>
      intro h1
      rw [Mem.bind_err h1]
      rfl
    | ok y =>
      rintro ⟨x, h1, nmX, e1, g1, X⟩
      obtain ⟨boxes, e, h', nm', eq, A'⟩ := allH_step hal hok A g1 X
        (fun boxes e => buildAllLoopH al b t (node ++ boxes, ends ++ [e]))
      rw [Mem.bind_ok e1, eq]
      exact ih A'

/-- The combined automaton `T` in memory is `t`. -/
structure RepT (h : Heap) (nm : Nat → Addr) (T : HTNFA) (t : TNFA) : Prop where
  nodes : RepN h nm noExt T.node t.node
  b : T.b = nm t.b
  blt : t.b < t.node.length
  ends : T.ends = t.ends.map nm
  esLt : ∀ p ∈ t.ends, p < t.node.length

theorem buildAllH_err {al : Alloc} (hal : al.Fair) {h0 : Heap} (hok : h0.Ok) {hs : List Hir} {e : NfaError}
    (hb : buildAll hs = .error e) : buildAllH al hs h0 = .err e := by
  obtain ⟨b, h1, e1, g1, c1⟩ := alloc_spec hal {} h0
  have A : AllH h0 h1 b [] [] [] [] [] (fun _ => 0) :=
    ⟨g1, ⟨rfl, by simp, by simp, by simp⟩, by simp, c1, by simp, rfl, by simp⟩
  have := buildAllLoopH_good hal hok hs A
  rw [buildAllH, Mem.bind_ok e1]
  unfold buildAll at hb
  revert this hb
  cases buildAllLoop hs ([], [], []) with
  | error e' =>
    intro hb this
    rw [Mem.bind_err this]
    cases hb
    rfl
  | ok st => intro hb; obtain ⟨ns, bs, es⟩ := st; cases hb

theorem buildAllH_ok {al : Alloc} (hal : al.Fair) {h0 : Heap} (hok : h0.Ok) {hs : List Hir} {t : TNFA}
    (hb : buildAll hs = .ok t) : ∃ T h nm, buildAllH al hs h0 = .ok T h ∧ Grows h0 h T.node [] ∧ RepT h nm T t := by
  obtain ⟨b, h1, e1, g1, c1⟩ := alloc_spec hal {} h0
  have A : AllH h0 h1 b [] [] [] [] [] (fun _ => 0) :=
    ⟨g1, ⟨rfl, by simp, by simp, by simp⟩, by simp, c1, by simp, rfl, by simp⟩
  have := buildAllLoopH_good hal hok hs A
  rw [buildAllH, Mem.bind_ok e1]
  unfold buildAll at hb
  revert this hb
  cases buildAllLoop hs ([], [], []) with
  | error e' => intro hb; cases hb
  | ok st =>
    obtain ⟨ns, bs, es⟩ := st
    intro hb
    rintro ⟨node, ends, h, nm, e2, A⟩
    rw [Mem.bind_ok e2]
    obtain rfl : (⟨ns ++ [{ eps := bs }], ns.length, es⟩ : TNFA) = t := by
      cases hb; rfl
    have hlast : ∀ i, i < ns.length → (if i = ns.length then b else nm i) = nm i := by
      intro i hi; rw [if_neg (by omega)]
    have R := A.R.rename (nm' := fun i => if i = ns.length then b else nm i) hlast
    refine ⟨⟨node ++ [b], b, ends⟩, h, fun i => if i = ns.length then b else nm i, rfl, ?_, ⟨⟨?_, ?_, ?_, ?_⟩, ?_, ?_, ?_, ?_⟩⟩
    · exact A.g.congr (fun a => by simp [or_comm])
    · simp only [List.length_append, List.length_cons, List.length_nil, List.range_succ, List.map_append, List.map_cons,
        List.map_nil, if_true]
      rw [← R.node]
    · intro i j hi hj hij
      simp only [List.length_append, List.length_cons, List.length_nil] at hi hj
      by_cases h1 : i = ns.length <;> by_cases h2 : j = ns.length
      · omega
      · subst h1
        simp only [if_true, if_neg h2] at hij
        exact (A.fresh (hij ▸ A.R.mem (by omega))).elim
      · subst h2
        simp only [if_true, if_neg h1] at hij
        exact (A.fresh (hij ▸ A.R.mem (by omega))).elim
      · exact R.inj i j (by omega) (by omega) hij
    · intro i n hin
      rw [List.getElem?_append] at hin
      split at hin
      · exact R.cell i n hin
      · rename_i h1
        have h2 : i - ns.length = 0 := by
          have := (List.getElem?_eq_some_iff.1 hin).1
          simp at this; omega
        obtain rfl : i = ns.length := by omega
        simp only [Nat.sub_self, List.getElem?_cons_zero, Option.some.injEq] at hin
        subst hin
        simp only [if_true]
        rw [A.cell]
        simp only [Node.image, List.map_nil, Node.mk.injEq, and_true]
        congr 1
        exact List.map_congr_left fun p hp => (hlast p (A.bsLt p hp)).symm
    · intro n hn q hq
      left
      rw [List.length_append]
      rcases List.mem_append.1 hn with hn | hn
      · rcases R.tgt n hn q hq with h | h
        · omega
        · exact h.elim
      · simp only [List.mem_cons, List.not_mem_nil, or_false] at hn
        subst hn
        rcases hq with hq | ⟨z, hz, _⟩
        · have := A.bsLt q hq; omega
        · simp at hz
    · simp
    · simp
    · rw [A.ends]
      exact List.map_congr_left fun p hp => (hlast p (A.esLt p hp)).symm
    · intro p hp
      have := A.esLt p hp
      simp; omega

end Verif.Tok
