import Verif.Tok.HeapProof2

/-! # The whole construction in memory -/

namespace Verif.Tok

theorem Mem.bind_congr {α β : Type} {m m' : Mem α} {f : α → Mem β} {h h' : Heap} (hm : m h = m' h') :
    (m >>= f) h = (m' >>= f) h' := by
  show (match m h with | .ok a h => f a h | .err e => .err e | .bad b => .bad b) =
    (match m' h' with | .ok a h => f a h | .err e => .err e | .bad b => .bad b)
  rw [hm]

theorem mem_insertRange_val {β : Type} {r : Nat × Nat} {v : β} {m : List ((Nat × Nat) × β)} {x : (Nat × Nat) × β}
    (hx : x ∈ insertRange r v m) : x.2 = v ∨ x ∈ m := by
  induction m with
  | nil => simp only [insertRange, List.mem_cons, List.not_mem_nil, or_false] at hx; subst hx; exact Or.inl rfl
  | cons y m ih =>
    obtain ⟨k, z⟩ := y
    simp only [insertRange] at hx
    split at hx
    · rcases List.mem_cons.1 hx with rfl | hx
      · exact Or.inl rfl
      · exact Or.inr hx
    · split at hx
      · rcases List.mem_cons.1 hx with rfl | hx
        · exact Or.inr (by simp)
        · rcases ih hx with h | h
          · exact Or.inl h
          · exact Or.inr (by simp [h])
      · rcases List.mem_cons.1 hx with rfl | hx
        · exact Or.inl rfl
        · exact Or.inr (by simp [hx])

theorem Node.tgt_addN {n : Node} {r : Nat × Nat} {q p : Nat} (h : (n.addN r q).Tgt p) : p = q ∨ n.Tgt p := by
  rcases h with h | ⟨x, hx, hp⟩
  · exact Or.inr (Or.inl h)
  · rcases mem_insertRange_val hx with h | h
    · rw [h] at hp; simp at hp; exact Or.inl hp
    · exact Or.inr (Or.inr ⟨x, h, hp⟩)

/-- Names of two nodes. -/
def nm2 (b e : Addr) : Nat → Addr := fun i => if i = 0 then b else e

theorem rep_two {h : Heap} {b e : Addr} (hbe : b ≠ e) {n : Node} (hb : h.cell b = n.image (nm2 b e)) (he : h.cell e = {})
    (ht : ∀ q, n.Tgt q → q < 2) : Rep h (nm2 b e) noExt ⟨[b, e], b, e⟩ ⟨[n, {}], 0, 1⟩ := by
  refine ⟨⟨rfl, ?_, ?_, ?_⟩, rfl, by simp, rfl, by simp⟩
  · intro i j hi hj hij
    simp only [List.length_cons, List.length_nil] at hi hj
    match i, j, hi, hj with
    | 0, 0, _, _ => rfl
    | 1, 1, _, _ => rfl
    | 0, 1, _, _ => exact (hbe hij).elim
    | 1, 0, _, _ => exact (hbe hij.symm).elim
  · intro i m hm
    have hi := (List.getElem?_eq_some_iff.1 hm).1
    simp only [List.length_cons, List.length_nil] at hi
    match i, hi with
    | 0, _ =>
      simp only [List.getElem?_cons_zero, Option.some.injEq] at hm
      subst hm
      exact hb
    | 1, _ =>
      simp only [List.getElem?_cons_succ, List.getElem?_cons_zero, Option.some.injEq] at hm
      subst hm
      exact he
  · intro m hm q hq
    left
    simp only [List.mem_cons, List.not_mem_nil, or_false] at hm
    rcases hm with rfl | rfl
    · exact ht q hq
    · rcases hq with hq | ⟨z, hz, _⟩
      · simp at hq
      · simp at hz

theorem addRangesH_spec {h : Heap} {b e : Addr} (hb : b ∈ h.live) (rs : List (Nat × Nat)) (n : Node)
    (hn : h.cell b = n.image (nm2 b e)) (ht : ∀ q, n.Tgt q → q < 2) :
    ∃ n' : Node, addRangesH b e rs h = .ok () (h.set b (n'.image (nm2 b e))) ∧ (∀ q, n'.Tgt q → q < 2) ∧
      n' = { n with next := rs.foldl (fun m r => insertRange (r.1, r.2 + 1) [1] m) n.next } := by
  induction rs generalizing h n with
  | nil =>
    refine ⟨n, ?_, ht, rfl⟩
    show HRes.ok () h = _
    congr 1
    obtain ⟨hl, hc, hk, hcl⟩ := h
    simp only [Heap.set, Heap.mk.injEq, and_self, and_true, true_and]
    funext a
    split
    · rename_i h1; subst h1; exact hn
    · rfl
  | cons r rs ih =>
    obtain ⟨n', e1, t1, q1⟩ := ih (h := h.set b ((n.addN (r.1, r.2 + 1) 1).image (nm2 b e))) hb (n.addN (r.1, r.2 + 1) 1)
      (Heap.set_self _ _ _) (by
        intro q hq
        rcases Node.tgt_addN hq with rfl | hq
        · omega
        · exact ht q hq)
    refine ⟨n', ?_, t1, q1⟩
    rw [addRangesH, Mem.bind_ok (change_ok hb), hn]
    rw [Node.image_addN] at e1
    have e2 : nm2 b e 1 = e := rfl
    rw [e2] at e1
    rw [e1]
    congr 1
    simp only [Heap.set, Heap.mk.injEq, and_self, and_true, true_and]
    funext a
    split <;> rfl

theorem two_alloc {al : Alloc} (hal : al.Fair) (h : Heap) {α : Type} (k : Addr → Addr → Mem α) :
    ∃ b e h', (do let b ← alloc al {}; let e ← alloc al {}; k b e) h = k b e h' ∧ b ≠ e ∧ Grows h h' [b, e] [] ∧
      h'.cell b = {} ∧ h'.cell e = {} := by
  obtain ⟨b, h1, e1, g1, c1⟩ := alloc_spec hal {} h
  obtain ⟨e, h2, e2, g2, c2⟩ := alloc_spec hal {} h1
  have hb : b ∈ h1.live := (g1.live b).2 (Or.inr (by simp))
  refine ⟨b, e, h2, ?_, ?_, g1.trans g2, ?_, c2⟩
  · rw [Mem.bind_ok e1, Mem.bind_ok e2]
  · exact fun hc => g2.fresh e (by simp) (hc ▸ hb)
  · rw [g2.cell b hb, c1]

theorem Grows.lock {h0 h l} (g : Grows h0 h l []) (b : Addr) : Grows h0 { h with locked := b :: h.locked } l [b] :=
  ⟨g.live, g.cell, by rw [g.locked]; rfl, g.fresh⟩

theorem Grows.unlock {h0 h l} {b : Addr} (g : Grows h0 h l [b]) : Grows h0 { h with locked := h.locked.erase b } l [] :=
  ⟨g.live, g.cell, by rw [g.locked]; simp, g.fresh⟩

theorem except_bind_ok {α β : Type} {m : Except NfaError α} {f : α → Except NfaError β} {a : α} (h : m = .ok a) :
    (m >>= f) = f a := by rw [h]; rfl

theorem except_bind_err {α β : Type} {m : Except NfaError α} {f : α → Except NfaError β} {e : NfaError} (h : m = .error e) :
    (m >>= f) = .error e := by rw [h]; rfl

/-- One turn of the alternation loop. -/
theorem Rep.altStep {h : Heap} {nm nmX : Nat → Addr} {node : List Addr} {b e : Addr} {ns : List Node} {x : HNFA} {y : NFA}
    (R : Rep h nm noExt ⟨node, b, e⟩ ⟨ns, 0, 1⟩) (X : Rep h nmX noExt x y) (hd : ∀ a ∈ node, a ∉ x.node) :
    ∃ nm', Rep ((h.set b ((h.cell b).addE x.b)).set x.e (((h.set b ((h.cell b).addE x.b)).cell x.e).addE e)) nm' noExt
      ⟨node ++ x.node, b, e⟩ ⟨nfaAltStep y ns, 0, 1⟩ := by
  have b0 := R.blt
  have b1 := R.elt
  have b2 := X.blt
  have b3 := X.elt
  simp only at b0 b1
  have N := R.nodes.append X.nodes hd (fun q hq => hq.elim)
  simp only at N
  have N2 := N.addEps (p := 0) (q := ns.length + y.b) (by rw [length_appendNodes']; omega)
    (Or.inl (by rw [length_appendNodes']; omega))
  have N3 := N2.addEps (p := ns.length + y.e) (q := 1) (by rw [length_addEps', length_appendNodes']; omega)
    (Or.inl (by rw [length_addEps', length_appendNodes']; omega))
  have e0 : b = nm 0 := R.b
  have e1 : e = nm 1 := R.e
  rw [glue_lt b0, glue_mid b2, glue_mid b3, glue_lt b1, ← e0, ← e1, ← X.b, ← X.e] at N3
  refine ⟨_, N3, ?_, ?_, ?_, ?_⟩
  · show b = glue _ _ _ _ 0
    rw [glue_lt b0, e0]
  · show 0 < (Verif.Tok.addEps _ _ _).length
    rw [length_addEps', length_addEps', length_appendNodes']; omega
  · show e = glue _ _ _ _ 1
    rw [glue_lt b1, e1]
  · show 1 < (Verif.Tok.addEps _ _ _).length
    rw [length_addEps', length_addEps', length_appendNodes']; omega

theorem buildH_good {al : Alloc} (hal : al.Fair) : ∀ (hir : Hir) (h0 : Heap), h0.Ok → GoodH h0 (buildH al hir h0) (build hir) := by
  apply Hir.ind
  case empty =>
    intro h0 hok
    obtain ⟨a, h1, e1, g1, c1⟩ := alloc_spec hal {} h0
    rw [build, buildH, Mem.bind_ok e1, guarded _ _ _ ((g1.live a).2 (Or.inr (by simp))) (g1.not_locked hok (by simp) (by simp))]
    refine ⟨⟨[a], a, a⟩, _, fun _ => a, rfl, (g1.set (by simp) _).set (by simp) _, ⟨rfl, ?_, ?_, ?_⟩, rfl, by simp [nfaEmpty], rfl,
      by simp [nfaEmpty]⟩
    · intro i j hi hj _
      simp only [nfaEmpty, List.length_cons, List.length_nil] at hi hj
      omega
    · intro i n hn
      have hi := (List.getElem?_eq_some_iff.1 hn).1
      simp only [nfaEmpty, List.length_cons, List.length_nil] at hi
      obtain rfl : i = 0 := by omega
      simp only [nfaEmpty, List.getElem?_cons_zero, Option.some.injEq] at hn
      subst hn
      rw [Heap.set_self, Heap.set_self, c1]
      rfl
    · intro n hn q hq
      simp only [nfaEmpty, List.mem_cons, List.not_mem_nil, or_false] at hn
      subst hn
      left
      rcases hq with hq | ⟨z, hz, hq⟩
      · simp at hq; simp [nfaEmpty, hq]
      · simp at hz; subst hz; simp at hq; simp [nfaEmpty, hq]
  case literalU =>
    intro c h0 hok
    rw [build, buildH]
    obtain ⟨b, e, h1, eq, hne, g, c1, c2⟩ := two_alloc hal h0
      (fun b e => (do modify b (Node.addN (c, c + 1) e); pure ⟨[b, e], b, e⟩ : Mem HNFA))
    rw [eq, Mem.bind_ok (modify_ok ((g.live b).2 (Or.inr (by simp))) (g.not_locked hok (by simp) (by simp)))]
    refine ⟨⟨[b, e], b, e⟩, _, nm2 b e, rfl, g.set (by simp) _, rep_two hne ?_ ?_ ?_⟩
    · rw [Heap.set_self, c1]; rfl
    · rw [Heap.set_other _ _ (fun hc => hne hc.symm), c2]
    · intro q hq
      rcases hq with hq | ⟨z, hz, hq⟩
      · simp at hq
      · simp at hz; subst hz; simp at hq; omega
  case literalB => intro c h0 _; rw [build, buildH]; rfl
  case classU =>
    intro rs h0 hok
    rw [build, buildH]
    obtain ⟨b, e, h1, eq, hne, g, c1, c2⟩ := two_alloc hal h0
      (fun b e => (do lock b; addRangesH b e rs; unlock b; pure ⟨[b, e], b, e⟩ : Mem HNFA))
    have hb := (g.live b).2 (Or.inr (by simp))
    obtain ⟨n', e1, t1, q1⟩ := addRangesH_spec (h := { h1 with locked := b :: h1.locked }) (e := e) hb rs {} c1 (by
      intro q hq
      rcases hq with hq | ⟨z, hz, hq⟩
      · simp at hq
      · simp at hz)
    rw [eq, Mem.bind_ok (lock_ok hb (g.not_locked hok (by simp) (by simp))), Mem.bind_ok e1, Mem.bind_ok (unlock_eq _ _)]
    refine ⟨⟨[b, e], b, e⟩, _, nm2 b e, rfl, ((g.lock b).set (by simp) _).unlock, ?_⟩
    have : nfaClass rs = ⟨[n', {}], 0, 1⟩ := by rw [q1]; rfl
    rw [this]
    refine rep_two hne ?_ ?_ t1
    · exact Heap.set_self _ _ _
    · exact (Heap.set_other _ _ (fun hc => hne hc.symm)).trans c2
  case classB => intro h0 _; rw [build, buildH]; rfl
  case anchor => intro h0 _; rw [build, buildH]; rfl
  case wordBoundary => intro h0 _; rw [build, buildH]; rfl
  case rep =>
    intro k hir ih h0 hok
    have := ih h0 hok
    rw [build, buildH]
    revert this
    cases hb : build hir with
    | error e =>
      intro this
      rw [Mem.bind_err this]
      rfl
    | ok y =>
      rintro ⟨x, h, nm, e, g, R⟩
      rw [Mem.bind_ok e]
      exact repH_good hal hok g R k
  case group =>
    intro hir ih h0 hok
    rw [build, buildH]
    exact ih h0 hok
  case concat =>
    intro hs ih h0 hok
    rw [build, buildH]
    induction hs generalizing h0 with
    | nil => rw [buildConcat, buildConcatH]; rfl
    | cons hir t iht =>
      cases t with
      | nil => rw [buildConcat, buildConcatH]; exact ih hir (by simp) h0 hok
      | cons hir' t =>
        have h1 := iht (fun h hh => ih h (List.mem_cons_of_mem _ hh)) h0 hok
        rw [buildConcat, buildConcatH]
        · revert h1
          cases hb : buildConcat (hir' :: t) with
          | error e =>
            intro h1
            rw [Mem.bind_err h1]
            rfl
          | ok A =>
            rintro ⟨acc, h1, nmA, e1, g1, RA⟩
            rw [Mem.bind_ok e1]
            have h2 := ih hir (by simp) h1 (g1.ok hok (by simp))
            show GoodH h0 _ (build hir >>= fun y => .ok (nfaCat y A))
            revert h2
            cases hb2 : build hir with
            | error e =>
              intro h2
              rw [Mem.bind_err h2]
              rfl
            | ok y =>
              rintro ⟨x, h2, nmX, e2, g2, RX⟩
              have la : ∀ a ∈ acc.node, a ∈ h1.live := fun a ha => (g1.live a).2 (Or.inr ha)
              have RA' := RA.frame (h' := h2) (fun a ha => g2.cell a (la a ha))
              have g := g1.trans g2
              have hm : x.e ∈ acc.node ++ x.node := by simp [RX.e_mem]
              rw [Mem.bind_ok e2, Mem.bind_ok (modify_ok ((g.live _).2 (Or.inr hm)) (g.not_locked hok hm (by simp)))]
              have N := RA'.nodes.append RX.nodes (fun a ha hc => g2.fresh a hc (la a ha)) (fun q hq => hq.elim)
              have b0 := RA.blt
              have b1 := RA.elt
              have b2 := RX.blt
              have b3 := RX.elt
              have N2 := N.addEps (p := A.node.length + y.e) (q := A.b) (by rw [length_appendNodes']; omega)
                (Or.inl (by rw [length_appendNodes']; omega))
              rw [glue_mid b3, glue_lt b0, ← RA.b, ← RX.e] at N2
              refine ⟨_, _, _, rfl, g.set hm _, N2, ?_, ?_, ?_, ?_⟩
              · show x.b = glue _ _ _ _ (A.node.length + y.b)
                rw [glue_mid b2, RX.b]
              · show A.node.length + y.b < (addEps _ _ _).length
                rw [length_addEps', length_appendNodes']; omega
              · show acc.e = glue _ _ _ _ A.e
                rw [glue_lt b1, RA.e]
              · show A.e < (addEps _ _ _).length
                rw [length_addEps', length_appendNodes']; omega
        · simp
        · simp
  case alt =>
    intro hs ih h0 hok
    rw [build, buildH]
    obtain ⟨b, e, h1, eq, hne, g, c1, c2⟩ := two_alloc hal h0
      (fun b e => (do lock b; let node ← buildAltH al b e [b, e] hs; unlock b; pure ⟨node, b, e⟩ : Mem HNFA))
    rw [eq, Mem.bind_ok (lock_ok ((g.live b).2 (Or.inr (by simp))) (g.not_locked hok (by simp) (by simp)))]
    have R : Rep { h1 with locked := b :: h1.locked } (nm2 b e) noExt ⟨[b, e], b, e⟩ ⟨[{}, {}], 0, 1⟩ :=
      rep_two hne c1 c2 (by
        intro q hq
        rcases hq with hq | ⟨z, hz, hq⟩
        · simp at hq
        · simp at hz)
    have gl := g.lock b
    revert R gl
    generalize ({ h1 with locked := b :: h1.locked } : Heap) = h
    generalize ([{}, {}] : List Node) = ns
    have hbn : b ∈ [b, e] := by simp
    revert hbn
    generalize [b, e] = node
    generalize nm2 b e = nm
    clear eq g c1 c2
    induction hs generalizing h ns node nm with
    | nil =>
      intro hbn R gl
      rw [buildAltH, buildAlt]
      exact ⟨_, _, nm, rfl, gl.unlock, R.frame (fun _ _ => rfl)⟩
    | cons hir t iht =>
      intro hbn R gl
      have h2 := ih hir (by simp) h (gl.ok hok (by simpa using hbn))
      rw [buildAlt]
      revert h2
      cases hb : build hir with
      | error e =>
        intro h2
        rw [buildAltH, Mem.bind_err (Mem.bind_err h2)]
        rfl
      | ok y =>
        rintro ⟨x, h2, nmX, e2, g2, RX⟩
        have la : ∀ a ∈ node, a ∈ h.live := fun a ha => (gl.live a).2 (Or.inr ha)
        have R' := R.frame (h' := h2) (fun a ha => g2.cell a (la a ha))
        have gg := gl.trans g2
        have hbm : b ∈ node ++ x.node := by simp [hbn]
        have hxm : x.e ∈ node ++ x.node := by simp [RX.e_mem]
        have hxb : x.e ≠ b := fun hc => g2.fresh _ RX.e_mem (hc ▸ la b hbn)
        have gg2 := gg.set hbm ((h2.cell b).addE x.b)
        obtain ⟨nm', R3⟩ := R'.altStep RX (fun a ha hc => g2.fresh a hc (la a ha))
        have key := iht (fun h hh => ih h (List.mem_cons_of_mem _ hh)) _ (nfaAltStep y ns) (node ++ x.node) nm' hbm R3
          (gg2.set hxm _)
        have step : buildAltH al b e node (hir :: t) h = buildAltH al b e (node ++ x.node) t
            ((h2.set b ((h2.cell b).addE x.b)).set x.e (((h2.set b ((h2.cell b).addE x.b)).cell x.e).addE e)) := by
          rw [buildAltH, Mem.bind_ok e2, Mem.bind_ok (change_ok ((gg.live _).2 (Or.inr hbm))),
            Mem.bind_ok (modify_ok ((gg2.live _).2 (Or.inr hxm)) (gg2.not_locked hok hxm (by simpa using hxb)))]
        have e3 : ∀ k : List Addr → Mem HNFA, ((buildAltH al b e node (hir :: t)) >>= k) h =
            ((buildAltH al b e (node ++ x.node) t) >>= k)
            ((h2.set b ((h2.cell b).addE x.b)).set x.e (((h2.set b ((h2.cell b).addE x.b)).cell x.e).addE e)) := by
          intro k
          exact Mem.bind_congr step
        rw [e3]
        exact key

end Verif.Tok
