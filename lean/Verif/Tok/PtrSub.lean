import Verif.Tok.PtrProof

/-! # The subset construction with addresses runs in step with the one with positions -/

namespace Verif.Tok

theorem DMem.bind_inv {α β : Type} {m : DMem α} {f : α → DMem β} {h h' : DHeap} {b : β} (e : (m >>= f) h = .ok b h') :
    ∃ a h1, m h = .ok a h1 ∧ f a h1 = .ok b h' := by
  change (match m h with | .ok a h => f a h | .bad b => .bad b | .fuel => .fuel) = _ at e
  cases hm : m h with
  | ok a h1 => rw [hm] at e; exact ⟨a, h1, rfl, e⟩
  | bad b => rw [hm] at e; cases e
  | fuel => rw [hm] at e; cases e

theorem lookup_zipIdx (s : List Nat) : ∀ (l : List (List Nat)) (k : Nat),
    (l.zipIdx k).lookup s = if s ∈ l then some (k + l.idxOf s) else none := by
  intro l
  induction l with
  | nil => intro k; simp
  | cons x l ih =>
    intro k
    rw [List.zipIdx_cons, List.lookup_cons, List.idxOf_cons]
    by_cases e : s = x
    · subst e; simp
    · have e' : (x == s) = false := beq_false_of_ne (fun h => e h.symm)
      rw [beq_false_of_ne e, e', ih]
      simp only [List.mem_cons, e, false_or, cond_false]
      split
      · congr 1; omega
      · rfl

theorem idxOf_append_mem {s : List Nat} {l l' : List (List Nat)} (h : s ∈ l) : (l ++ l').idxOf s = l.idxOf s := by
  rw [List.idxOf_append, if_pos h]

/-- The two states of the loop. -/
structure PSim (h0 h : DHeap) (b0 : Addr) (p : PSub) (st : Sub) : Prop where
  first : p.node[0]? = some b0
  held : Held h0 h p.node st.rows
  refs : p.refs = st.sets.zipIdx
  setsLen : st.sets.length = st.rows.length
  queue : p.queue = st.queue
  processed : p.processed = st.processed
  inSets : ∀ s ∈ st.queue, s ∈ st.sets

/-- Also, `cur` is set number `i`. -/
structure ESim (h0 : DHeap) (b0 : Addr) (cur : List Nat) (i : Nat) (p : PSub) (st : Sub) (h : DHeap) : Prop extends PSim h0 h b0 p st where
  hcur : cur ∈ st.sets
  idx : st.sets.idxOf cur = i

variable {al : Alloc} {h0 : DHeap} {b0 : Addr}

theorem modify_ren (f : Nat → Nat) (range : Nat × Nat) (j : Nat) (r : Row) :
    insertRange range (f j) (ren f r) = ren f (insertRange range j r) := (map_insertRange f range j r).symm

theorem tgt_insert {range : Nat × Nat} {j n : Nat} {r : Row} (hj : j < n) (h : ∀ x ∈ r, x.2 < n) :
    ∀ x ∈ insertRange range j r, x.2 < n := by
  induction r with
  | nil => intro x hx; simp [insertRange] at hx; subst hx; exact hj
  | cons y r ih =>
    obtain ⟨k, v⟩ := y
    intro x hx
    simp only [insertRange] at hx
    split at hx
    · rcases List.mem_cons.1 hx with rfl | hx
      · exact hj
      · exact h x hx
    · split at hx
      · rcases List.mem_cons.1 hx with rfl | hx
        · exact h _ (by simp)
        · exact ih (fun x hx => h x (by simp [hx])) x hx
      · rcases List.mem_cons.1 hx with rfl | hx
        · exact hj
        · exact h x (by simp [hx])

theorem subEdgeP_sim (hal : al.Fair) {cur : List Nat} {i : Nat} (rn : (Nat × Nat) × List Nat) (p : PSub) (st : Sub)
    (h : DHeap) (H : ESim h0 b0 cur i p st h) :
    ∃ p' h', subEdgeP al cur p rn h = .ok p' h' ∧ ESim h0 b0 cur i p' (subEdge i st rn) h' := by
  obtain ⟨range, next⟩ := rn
  -- the target
  have step1 : ∃ p1 h1 a, (match p.refs.lookup next with
      | some i => do
        let a ← nth p.node i
        pure (p, a)
      | none => do
        let a ← newNode al
        pure ({ p with refs := p.refs ++ [(next, p.node.length)], node := p.node ++ [a] }, a) : DMem (PSub × Addr)) h
        = .ok (p1, a) h1 ∧
      (let st1 := if next ∈ st.sets then st else { st with sets := st.sets ++ [next], rows := st.rows ++ [[]] }
      ESim h0 b0 cur i p1 st1 h1 ∧ next ∈ st1.sets ∧ a = nmOf p1.node (st1.sets.idxOf next)) := by
    rw [H.refs, lookup_zipIdx]
    by_cases hn : next ∈ st.sets
    · rw [if_pos hn, if_pos hn]
      have hlt : st.sets.idxOf next < p.node.length := by
        rw [H.held.len, ← H.setsLen]; exact List.idxOf_lt_length_iff.2 hn
      refine ⟨p, h, nmOf p.node (st.sets.idxOf next), ?_, H, hn, rfl⟩
      show ((nth p.node (0 + st.sets.idxOf next) >>= fun a => pure (p, a)) : DMem (PSub × Addr)) h = _
      rw [Nat.zero_add, DMem.bind_ok (nth_some h (nmOf_get hlt))]
      rfl
    · rw [if_neg hn, if_neg hn]
      obtain ⟨a, h1, e1, H1⟩ := newNode_held hal H.held
      refine ⟨{ p with refs := p.refs ++ [(next, p.node.length)], node := p.node ++ [a] }, h1, a, ?_, ?_, by simp, ?_⟩
      · show ((newNode al >>= fun a => pure _) : DMem (PSub × Addr)) h = _
        rw [DMem.bind_ok e1, H.refs]
        rfl
      · refine ⟨⟨?_, H1, ?_, by simp [H.setsLen], H.queue, H.processed, ?_⟩, by simp [H.hcur], ?_⟩
        · have := (List.getElem?_eq_some_iff.1 H.first).1
          exact (List.getElem?_append_left this).trans H.first
        · show p.refs ++ _ = (st.sets ++ [next]).zipIdx
          rw [H.refs, List.zipIdx_append, H.held.len, ← H.setsLen]
          simp
        · intro s hs; simp [H.inSets s hs]
        · show (st.sets ++ [next]).idxOf cur = i
          rw [idxOf_append_mem H.hcur, H.idx]
      · show a = nmOf (p.node ++ [a]) ((st.sets ++ [next]).idxOf next)
        rw [List.idxOf_append, if_neg hn]
        simp only [List.idxOf_cons_self, Nat.zero_add]
        rw [H.setsLen, ← H.held.len, nmOf_append_self]
  obtain ⟨p1, h1, a, e1, H1, hn, ha⟩ := step1
  have hi : i < p1.node.length := by
    rw [H1.held.len, ← H1.setsLen, ← H1.idx]
    exact List.idxOf_lt_length_iff.2 H1.hcur
  have hj := List.idxOf_lt_length_iff.2 hn
  generalize hst1 : (if next ∈ st.sets then st else { st with sets := st.sets ++ [next], rows := st.rows ++ [[]] }) = st1
    at H1 hn ha hj
  rw [H1.setsLen] at hj
  obtain ⟨h2, e2, H2⟩ := assign_held H1.held (i := i) (by rw [← H1.held.len]; exact hi)
    (f := insertRange range a) (g := insertRange range (st1.sets.idxOf next))
    (fun r => by rw [ha]; exact modify_ren _ _ _ _)
    (fun r hr => tgt_insert hj (H1.held.tgt r (List.mem_of_getElem? hr)))
  refine ⟨{ p1 with queue := p1.queue ++ [next] }, h2, ?_, ?_⟩
  · unfold subEdgeP
    refine (DMem.bind_ok e1).trans ?_
    show ((key (p1.refs.lookup cur) >>= fun i => _) : DMem PSub) h1 = _
    rw [DMem.bind_ok (key_some h1 (a := i) (by rw [H1.refs, lookup_zipIdx, if_pos H1.hcur, H1.idx, Nat.zero_add])),
      DMem.bind_ok (nth_some h1 (nmOf_get hi)), DMem.bind_ok e2]
    rfl
  · unfold subEdge
    simp only
    rw [hst1]
    refine ⟨⟨H1.first, H2, H1.refs, ?_, ?_, H1.processed, ?_⟩, H1.hcur, H1.idx⟩
    · show st1.sets.length = (st1.rows.modify i _).length
      rw [List.length_modify]; exact H1.setsLen
    · show p1.queue ++ [next] = st1.queue ++ [next]
      rw [H1.queue]
    · intro s hs
      rcases List.mem_append.1 hs with hs | hs
      · exact H1.inSets s hs
      · simp at hs; subst hs; exact hn

theorem subLoopP_sim (hal : al.Fair) (ns : List Node) : ∀ (f : Nat) (p : PSub) (st : Sub) (h : DHeap), PSim h0 h b0 p st →
    match subLoop ns f st with
    | none => subLoopP al ns f p h = .fuel
    | some st' => ∃ p' h', subLoopP al ns f p h = .ok p' h' ∧ PSim h0 h' b0 p' st' := by
  intro f
  induction f with
  | zero =>
    intro p st h H
    simp only [subLoop, subLoopP, H.queue]
    cases hq : st.queue.isEmpty
    · simp only [Bool.false_eq_true, if_false]; rfl
    · simp only [if_true]; exact ⟨p, h, rfl, H⟩
  | succ f ih =>
    intro p st h H
    simp only [subLoop, subLoopP]
    rw [H.queue]
    cases hq : st.queue with
    | nil => exact ⟨p, h, rfl, H⟩
    | cons cur q =>
      simp only
      have hc : cur ∈ st.sets := H.inSets cur (by rw [hq]; simp)
      have hkey : key (p.refs.lookup cur) h = .ok (st.find cur) h :=
        key_some h (by rw [H.refs, lookup_zipIdx, if_pos hc, Nat.zero_add]; rfl)
      have H1 : ∀ pr, PSim h0 h b0 { p with queue := q, processed := pr } { st with queue := q, processed := pr } := fun pr =>
        ⟨H.first, H.held, H.refs, H.setsLen, rfl, rfl, fun s hs => H.inSets s (by rw [hq]; simp [hs])⟩
      rw [DMem.bind_ok hkey]
      by_cases hp : st.find cur ∈ st.processed
      · have hp' : st.find cur ∈ p.processed := by rw [H.processed]; exact hp
        rw [if_pos hp', if_pos hp]
        have H2 := H1 st.processed
        rw [← H.processed] at H2
        have e : ({ st with queue := q, processed := p.processed } : Sub) = { st with queue := q } := by rw [H.processed]
        rw [e] at H2
        exact ih _ _ _ H2
      · have hp' : st.find cur ∉ p.processed := by rw [H.processed]; exact hp
        rw [if_neg hp', if_neg hp]
        have H2 := H1 (st.find cur :: st.processed)
        obtain ⟨p3, h3, e3, H3⟩ := loopM_sim (φ := id) (R := fun b c h => ESim h0 b0 cur (st.find cur) b c h) (l := outRanges ns cur)
          (f := subEdgeP al cur) (g := subEdge (st.find cur)) (fun rn _ p st h H => subEdgeP_sim hal rn p st h H)
          (⟨H2, hc, rfl⟩ : ESim h0 b0 cur (st.find cur) { p with queue := q, processed := st.find cur :: st.processed }
            { st with queue := q, processed := st.find cur :: st.processed } h)
        rw [List.map_id] at e3
        have e4 : loopM (subEdgeP al cur) { p with queue := q, processed := st.find cur :: p.processed } (outRanges ns cur) h
            = .ok p3 h3 := by rw [H.processed]; exact e3
        have := ih p3 _ h3 H3.toPSim
        generalize hs : subLoop ns f ((outRanges ns cur).foldl (subEdge (st.find cur))
          { st with queue := q, processed := st.find cur :: st.processed }) = r at this
        cases r with
        | none => simp only at this ⊢; rw [DMem.bind_ok e4]; exact this
        | some st' => simp only at this ⊢; rw [DMem.bind_ok e4]; exact this

/-! ## The map `end` -/

/-- One step of `markEnds`. -/
def markStep (set : List Nat) (acc : Option Nat × List (Nat × Nat)) (pi : Nat × Nat) : Option Nat × List (Nat × Nat) :=
  if pi.1 ∈ set then
    (some pi.2, match acc.1 with
      | some old => acc.2 ++ [(old, pi.2)]
      | none => acc.2)
  else acc

theorem markEnds_eq (ends set : List Nat) : markEnds ends set = ends.zipIdx.reverse.foldl (markStep set) (none, []) := rfl

theorem markStep_app (set : List Nat) (ws : List (Nat × Nat)) : ∀ (l : List (Nat × Nat)) (o : Option Nat) (w : List (Nat × Nat)),
    l.foldl (markStep set) (o, ws ++ w) = ((l.foldl (markStep set) (o, w)).1, ws ++ (l.foldl (markStep set) (o, w)).2) := by
  intro l
  induction l with
  | nil => intro o w; rfl
  | cons x l ih =>
    intro o w
    rw [List.foldl_cons, List.foldl_cons]
    by_cases hx : x.1 ∈ set
    · have e1 : markStep set (o, ws ++ w) x = (some x.2, ws ++ (markStep set (o, w) x).2) := by
        simp only [markStep, if_pos hx]
        cases o <;> simp
      have e2 : markStep set (o, w) x = (some x.2, (markStep set (o, w) x).2) := by simp only [markStep, if_pos hx]
      rw [e1, ih, ← e2]
    · have e1 : ∀ w, markStep set (o, w) x = (o, w) := fun w => by simp only [markStep, if_neg hx]
      rw [e1, e1, ih]

/-- The inner loop: only the entry of the node changes. -/
theorem markEndsP_ok {ends : List Nat} {node : List Addr} {s : List Nat} {i : Nat} (hi : i < node.length)
    {E : List (Addr × Nat)} {ws : List (Nat × Nat)} (hn : (keys E).Nodup) (hsub : ∀ a ∈ keys E, a ∈ node)
    (hfree : E.lookup (nmOf node i) = none) (h : DHeap) :
    ∃ E', markEndsP ends node (E, ws) (s, i) h = .ok (E', ws ++ (markEnds ends s).2) h ∧ (keys E').Nodup ∧
      (∀ a ∈ keys E', a ∈ node) ∧ E'.lookup (nmOf node i) = (markEnds ends s).1 ∧
      ∀ a, a ≠ nmOf node i → E'.lookup a = E.lookup a := by
  unfold markEndsP
  obtain ⟨r, h', e, H⟩ := loopM_sim (φ := id) (l := ends.zipIdx.reverse) (g := markStep s) (b := (E, ws)) (c := ((none : Option Nat), ws)) (h := h)
    (f := fun (acc : List (Addr × Nat) × List (Nat × Nat)) (pi : Nat × Nat) =>
      if pi.1 ∈ (s, i).1 then (do
        let a ← nth node (s, i).2
        pure (hinsert a pi.2 acc.1, match acc.1.lookup a with
          | some old => acc.2 ++ [(old, pi.2)]
          | none => acc.2) : DMem _)
      else pure acc)
    (R := fun b c k => k = h ∧ b.2 = c.2 ∧ (keys b.1).Nodup ∧ (∀ a ∈ keys b.1, a ∈ node) ∧ b.1.lookup (nmOf node i) = c.1 ∧
      ∀ a, a ≠ nmOf node i → b.1.lookup a = E.lookup a) (by
      rintro ⟨q, v⟩ _ ⟨b1, b2⟩ ⟨c1, c2⟩ k ⟨rfl, r1, r2, r3, r4, r5⟩
      simp only at r1 r2 r3 r4 r5
      subst r1
      simp only [id]
      by_cases hq : q ∈ s
      · refine ⟨(hinsert (nmOf node i) v b1, match b1.lookup (nmOf node i) with
          | some old => b2 ++ [(old, v)]
          | none => b2), k, ?_, rfl, ?_, nodup_keys_hinsert r2, ?_, ?_, ?_⟩
        · simp only [if_pos hq]
          rw [DMem.bind_ok (nth_some k (nmOf_get hi))]
          rfl
        · simp only [markStep, if_pos hq, r4]
        · intro a ha
          rcases mem_keys_hinsert.1 ha with rfl | ha
          · exact nmOf_mem hi
          · exact r3 a ha
        · simp only [markStep, if_pos hq]
          rw [lookup_hinsert, if_pos rfl]
        · intro a ha
          simp only
          rw [lookup_hinsert, if_neg ha]
          exact r5 a ha
      · refine ⟨(b1, b2), k, ?_, rfl, ?_, r2, r3, ?_, r5⟩
        · simp only [if_neg hq]; rfl
        · simp only [markStep, if_neg hq]
        · simp only [markStep, if_neg hq]; exact r4)
    ⟨rfl, rfl, hn, hsub, hfree, fun _ _ => rfl⟩
  obtain ⟨rfl, r1, r2, r3, r4, r5⟩ := H
  have happ := markStep_app s ws ends.zipIdx.reverse none []
  rw [List.append_nil] at happ
  rw [List.map_id] at e
  refine ⟨r.1, ?_, r2, r3, ?_, r5⟩
  · refine Eq.trans e ?_
    congr 1
    obtain ⟨r1', r2'⟩ := r
    simp only at r1
    rw [r1, happ, markEnds_eq]
  · rw [r4, happ, markEnds_eq]

/-- All sets, in any order. -/
theorem ends_ok {ends : List Nat} {node : List Addr} {sets : List (List Nat)} (hl : sets.length = node.length) (hnd : node.Nodup)
    (h : DHeap) : ∀ (l : List (List Nat × Nat)) (E : List (Addr × Nat)) (ws : List (Nat × Nat)),
    (∀ x ∈ l, x ∈ sets.zipIdx) → (l.map Prod.snd).Nodup → (keys E).Nodup → (∀ a ∈ keys E, a ∈ node) →
    (∀ x ∈ l, E.lookup (nmOf node x.2) = none) →
    ∃ E', loopM (markEndsP ends node) (E, ws) l h = .ok (E', ws ++ l.flatMap fun x => (markEnds ends x.1).2) h ∧
      (keys E').Nodup ∧ (∀ a ∈ keys E', a ∈ node) ∧
      (∀ x ∈ l, E'.lookup (nmOf node x.2) = (markEnds ends x.1).1) ∧
      ∀ i, i < node.length → i ∉ l.map Prod.snd → E'.lookup (nmOf node i) = E.lookup (nmOf node i) := by
  intro l
  induction l with
  | nil => intro E ws _ _ hE hk _; exact ⟨E, by simp [loopM]; rfl, hE, hk, by simp, by simp⟩
  | cons x l ih =>
    intro E ws hx hn hE hk hfree
    obtain ⟨s, i⟩ := x
    have hi : i < node.length := by
      have := List.mk_mem_zipIdx_iff_getElem?.1 (hx _ (List.mem_cons_self ..))
      rw [← hl]; exact (List.getElem?_eq_some_iff.1 this).1
    have hil : ∀ y ∈ l, y.2 < node.length := by
      rintro ⟨s', j⟩ hy
      have := List.mk_mem_zipIdx_iff_getElem?.1 (hx (s', j) (by simp [hy]))
      rw [← hl]; exact (List.getElem?_eq_some_iff.1 this).1
    rw [List.map_cons, List.nodup_cons] at hn
    have hne : ∀ y ∈ l, nmOf node y.2 ≠ nmOf node i := by
      intro y hy e
      exact hn.1 (List.mem_map.2 ⟨y, hy, nmOf_inj hnd (hil y hy) hi e⟩)
    obtain ⟨E1, e1, a1, a2, a3, a4⟩ := markEndsP_ok (ends := ends) (s := s) (ws := ws) hi hE hk (hfree _ (List.mem_cons_self ..)) h
    obtain ⟨E2, e2, b1, b2, b3, b4⟩ := ih E1 (ws ++ (markEnds ends s).2) (fun y hy => hx y (by simp [hy])) hn.2 a1 a2 (by
      intro y hy
      rw [a4 _ (hne y hy)]
      exact hfree y (by simp [hy]))
    refine ⟨E2, ?_, b1, b2, ?_, ?_⟩
    · rw [loopM, DMem.bind_ok e1, e2]
      simp
    · intro y hy
      rcases List.mem_cons.1 hy with rfl | hy
      · rw [b4 i hi hn.1]; exact a3
      · exact b3 y hy
    · intro j hj hnot
      rw [List.map_cons, List.mem_cons, not_or] at hnot
      rw [b4 j hj hnot.2]
      exact a4 _ (fun e => hnot.1 (nmOf_inj hnd hj hi e))

/-- A `TokenizerDFA` in memory and the one with positions. -/
structure DSim (h0 h : DHeap) (p : PDFA) (d : DFA) : Prop where
  held : Held h0 h p.node d.rows
  b : p.b = nmOf p.node d.b
  blt : d.b < d.rows.length
  endsLen : d.ends.length = d.rows.length
  keysNodup : (keys p.ends).Nodup
  keysIn : ∀ a ∈ keys p.ends, a ∈ p.node
  ends : ∀ i, i < d.rows.length → p.ends.lookup (nmOf p.node i) = d.ends.getD i none

/-- The order in which the sets are visited. -/
def ordOf (ord : List (List Nat × Nat) → List (List Nat × Nat)) (l : List (List Nat)) : List (List Nat) := (ord l.zipIdx).map Prod.fst

theorem ordOf_perm {ord : List (List Nat × Nat) → List (List Nat × Nat)} (h : ∀ l, (ord l).Perm l) (l : List (List Nat)) :
    (ordOf ord l).Perm l := by
  have := (h l.zipIdx).map Prod.fst
  rw [List.zipIdx_map_fst] at this
  exact this

theorem held_nil (h0 : DHeap) : Held h0 h0 [] [] :=
  { len := rfl
    nodup := List.nodup_nil
    cell := fun i r hr => by simp at hr
    tgt := fun r hr => (nomatch hr)
    nodes := by simp
    other := rfl
    frame := fun _ _ => rfl
    fresh := fun a ha => (nomatch ha) }

theorem fromNfaP_sim (hal : al.Fair) {s : PSeeds} (hs : ∀ l, (s.ord l).Perm l) (fuel : Nat) (t : TNFA) (h0 : DHeap) :
    match fromNfa fuel (ordOf s.ord) t with
    | none => fromNfaP al fuel s t h0 = .fuel
    | some (d, ws) => ∃ p h, fromNfaP al fuel s t h0 = .ok (p, ws) h ∧ DSim h0 h p d := by
  obtain ⟨b, h1, e1, H1⟩ := newNode_held hal (held_nil h0)
  have S : PSim h0 h1 b { node := [b], refs := [(closure t.node t.b, 0)], queue := [closure t.node t.b], processed := [] }
      { rows := [[]], sets := [closure t.node t.b], queue := [closure t.node t.b], processed := [] } :=
    ⟨rfl, H1, by simp, rfl, rfl, rfl, by simp⟩
  have L := subLoopP_sim hal t.node fuel _ _ _ S
  unfold fromNfa fromNfaP
  simp only
  rw [DMem.bind_ok e1]
  cases hl : subLoop t.node fuel { rows := [[]], sets := [closure t.node t.b], queue := [closure t.node t.b], processed := [] } with
  | none =>
    rw [hl] at L
    exact DMem.bind_fuel L
  | some st =>
    rw [hl] at L
    obtain ⟨p, h2, e2, H2⟩ := L
    have h0lt : 0 < st.rows.length := by rw [← H2.held.len]; exact (List.getElem?_eq_some_iff.1 H2.first).1
    have hlen : st.sets.length = p.node.length := by rw [H2.held.len, H2.setsLen]
    have hperm : (s.ord p.refs).Perm st.sets.zipIdx := by rw [H2.refs]; exact hs _
    have hnd2 : ((s.ord p.refs).map Prod.snd).Nodup := by
      have := hperm.map Prod.snd
      rw [List.zipIdx_map_snd] at this
      exact this.symm.nodup (List.nodup_range' ..)
    obtain ⟨E, e3, a1, a2, a3, a4⟩ := ends_ok (ends := t.ends) hlen H2.held.nodup h2 (s.ord p.refs) [] []
      (fun x hx => hperm.mem_iff.1 hx) hnd2 (by simp [keys]) (by simp [keys]) (by simp)
    simp only
    refine ⟨{ node := p.node, b := b, ends := E }, h2, ?_, ?_⟩
    · rw [DMem.bind_ok e2, DMem.bind_ok e3]
      show DRes.ok _ _ = _
      congr 2
      simp only [List.nil_append, ordOf]
      rw [H2.refs, List.flatMap_map]
    · refine ⟨H2.held, ?_, h0lt, by simp [H2.setsLen], a1, a2, ?_⟩
      · show b = nmOf p.node 0
        simp [nmOf, H2.first]
      · intro i hi
        have hi' : i < st.sets.length := by rw [H2.setsLen]; exact hi
        have hm : (st.sets[i], i) ∈ s.ord p.refs := hperm.mem_iff.2 (List.mk_mem_zipIdx_iff_getElem?.2 (List.getElem?_eq_getElem hi'))
        show E.lookup (nmOf p.node i) = (st.sets.map _).getD i none
        rw [a3 _ hm, List.getD_eq_getElem?_getD, List.getElem?_map, List.getElem?_eq_getElem hi']
        rfl

end Verif.Tok
