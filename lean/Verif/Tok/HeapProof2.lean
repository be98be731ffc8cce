import Verif.Tok.HeapProof

/-! # Repetitions, concatenations and alternations in memory -/

namespace Verif.Tok

theorem Heap.set_self (h : Heap) (a : Addr) (n : Node) : (h.set a n).cell a = n := by simp [Heap.set]
theorem Heap.set_other (h : Heap) {a b : Addr} (n : Node) (hb : b ≠ a) : (h.set a n).cell b = h.cell b := by
  simp [Heap.set, hb]

theorem guarded {α : Type} {h : Heap} {a : Addr} (f g : Node → Node) (k : Mem α) (h1 : a ∈ h.live) (h2 : a ∉ h.locked) :
    (do lock a; change a f; change a g; unlock a; k) h =
      k ((h.set a (f (h.cell a))).set a (g ((h.set a (f (h.cell a))).cell a))) := by
  rw [Mem.bind_ok (lock_ok h1 h2)]
  rw [Mem.bind_ok (change_ok (h := { h with locked := a :: h.locked }) h1)]
  rw [Mem.bind_ok (change_ok (h := ({ h with locked := a :: h.locked } : Heap).set a (f (h.cell a))) h1)]
  rw [Mem.bind_ok (unlock_eq _ _)]
  congr 1
  simp [Heap.set]

theorem RepN.disjoint_frame {h nm ext l ns} (H : RepN h nm ext l ns) {a : Addr} (ha : a ∉ l) (n : Node) :
    RepN (h.set a n) nm ext l ns :=
  H.frame fun _ hb => Heap.set_other h n (fun hc => ha (hc ▸ hb))

theorem Rep.frame {h h' nm ext x y} (H : Rep h nm ext x y) (hc : ∀ a ∈ x.node, h'.cell a = h.cell a) :
    Rep h' nm ext x y := ⟨H.nodes.frame hc, H.b, H.blt, H.e, H.elt⟩

theorem Rep.disjoint_frame {h nm ext x y} (H : Rep h nm ext x y) {a : Addr} (ha : a ∉ x.node) (n : Node) :
    Rep (h.set a n) nm ext x y := ⟨H.nodes.disjoint_frame ha n, H.b, H.blt, H.e, H.elt⟩

theorem Rep.b_mem {h nm ext x y} (H : Rep h nm ext x y) : x.b ∈ x.node := H.b ▸ H.nodes.mem H.blt
theorem Rep.e_mem {h nm ext x y} (H : Rep h nm ext x y) : x.e ∈ x.node := H.e ▸ H.nodes.mem H.elt

theorem Rep.rename {h nm nm' x y} (H : Rep h nm noExt x y) (hn : ∀ i, i < y.node.length → nm' i = nm i) :
    Rep h nm' noExt x y :=
  ⟨H.nodes.rename hn, by rw [hn _ H.blt, H.b], H.blt, by rw [hn _ H.elt, H.e], H.elt⟩

theorem Rep.mono {h nm x y} {ext ext' : Nat → Prop} (H : Rep h nm ext x y)
    (he : ∀ q, ext q → q < y.node.length ∨ ext' q) : Rep h nm ext' x y :=
  ⟨H.nodes.mono he, H.b, H.blt, H.e, H.elt⟩

theorem Rep.setE {h nm ext x y} (H : Rep h nm ext x y) {p : Nat} (hp : p < y.node.length) :
    Rep h nm ext { x with e := nm p } { y with e := p } := ⟨H.nodes, H.b, H.blt, rfl, hp⟩

theorem Rep.addEps {h nm ext x y} (H : Rep h nm ext x y) {p q : Nat} (hp : p < y.node.length)
    (hq : q < y.node.length ∨ ext q) :
    Rep (h.set (nm p) ((h.cell (nm p)).addE (nm q))) nm ext x { y with node := addEps y.node p q } := by
  have hlen : (Verif.Tok.addEps y.node p q).length = y.node.length := by simp [Verif.Tok.addEps]
  exact ⟨H.nodes.addEps hp hq, H.b, by rw [hlen]; exact H.blt, H.e, by rw [hlen]; exact H.elt⟩

theorem length_appendNodes' (A X : List Node) : (appendNodes A X).length = A.length + X.length := by simp [appendNodes]
theorem length_addEps' (A : List Node) (p q : Nat) : (addEps A p q).length = A.length := by simp [addEps]

theorem Rep.link {h nmA nmC ext acc c A C} (HA : Rep h nmA ext acc A) (HC : Rep h nmC noExt c C)
    (hd : ∀ a ∈ acc.node, a ∉ c.node)
    (hext : ∀ q, ext q → A.node.length ≤ q → q < A.node.length + C.node.length → nmA q = nmC (q - A.node.length)) :
    Rep (h.set acc.e ((h.cell acc.e).addE c.b)) (glue nmA nmC A.node.length C.node.length) ext
      ⟨acc.node ++ c.node, acc.b, c.e⟩ (linkCopy C A) := by
  have hn := HA.nodes.append HC.nodes hd hext
  have hlen := length_appendNodes' A.node C.node
  have e1 := HA.elt
  have e2 := HA.blt
  have e3 := HC.elt
  have e4 := HC.blt
  have hs := hn.addEps (p := A.e) (q := A.node.length + C.b) (by omega) (Or.inl (by omega))
  rw [glue_lt e1, glue_mid e4, ← HA.e, ← HC.b] at hs
  refine ⟨hs, ?_, ?_, ?_, ?_⟩
  · show acc.b = glue _ _ _ _ A.b
    rw [glue_lt e2, HA.b]
  · show A.b < (Verif.Tok.addEps _ _ _).length
    rw [length_addEps', hlen]; omega
  · show c.e = glue _ _ _ _ (A.node.length + C.e)
    rw [glue_mid e3, HC.e]
  · show A.node.length + C.e < (Verif.Tok.addEps _ _ _).length
    rw [length_addEps', hlen]; omega

theorem length_linkCopy' (C A : NFA) : (linkCopy C A).node.length = A.node.length + C.node.length := by
  simp [linkCopy, length_addEps', length_appendNodes']
theorem length_linkCopyExit' (C A : NFA) (f : Nat) : (linkCopyExit C f A).node.length = A.node.length + C.node.length := by
  simp [linkCopyExit, length_addEps', length_appendNodes']

theorem Rep.linkExit {h nmA nmC ext acc c A C} (HA : Rep h nmA ext acc A) (HC : Rep h nmC noExt c C)
    (hd : ∀ a ∈ acc.node, a ∉ c.node)
    (hext : ∀ q, ext q → A.node.length ≤ q → q < A.node.length + C.node.length → nmA q = nmC (q - A.node.length))
    {fin : Nat} (hfin : ext fin) {f : Addr} (hf : glue nmA nmC A.node.length C.node.length fin = f) :
    Rep ((h.set acc.e ((h.cell acc.e).addE c.b)).set acc.e (((h.set acc.e ((h.cell acc.e).addE c.b)).cell acc.e).addE f))
      (glue nmA nmC A.node.length C.node.length) ext
      ⟨acc.node ++ c.node, acc.b, c.e⟩ (linkCopyExit C fin A) := by
  have H := HA.link HC hd hext
  have e1 := HA.elt
  have hl := length_linkCopy' C A
  have := H.addEps (p := A.e) (q := fin) (by omega) (Or.inr hfin)
  rw [glue_lt e1, hf, ← HA.e] at this
  exact this

/-! ## Loops over copies -/

/-- The body `x` and the part `acc` that is already put together are in memory and nothing else is new. -/
structure Two (h0 h : Heap) (x acc : HNFA) (X A : NFA) (nmX nmA : Nat → Addr) (ext : Nat → Prop) : Prop where
  g : Grows h0 h (x.node ++ acc.node) []
  X : Rep h nmX noExt x X
  A : Rep h nmA ext acc A
  dis : ∀ a ∈ acc.node, a ∉ x.node

theorem Two.clone {al : Alloc} (hal : al.Fair) {h0 h x acc X A nmX nmA ext} (hok : h0.Ok)
    (T : Two h0 h x acc X A nmX nmA ext) :
    ∃ c h' nmC, cloneH al x h = .ok c h' ∧ Grows h0 h' (x.node ++ (acc.node ++ c.node)) [] ∧
      Rep h' nmX noExt x X ∧ Rep h' nmA ext acc A ∧ Rep h' nmC noExt c X ∧
      (∀ a ∈ acc.node, a ∉ c.node) ∧ (∀ a ∈ c.node, a ∉ x.node) := by
  have lx : ∀ a ∈ x.node, a ∈ h.live := fun a ha => (T.g.live a).2 (Or.inr (by simp [ha]))
  have la : ∀ a ∈ acc.node, a ∈ h.live := fun a ha => (T.g.live a).2 (Or.inr (by simp [ha]))
  obtain ⟨c, h', nmC, e, g, R⟩ := cloneH_spec hal (T.g.ok hok (by simp)) T.X lx
    (fun a ha => T.g.not_locked hok (by simp [ha]) (by simp))
  refine ⟨c, h', nmC, e, ?_, T.X.frame (fun a ha => g.cell a (lx a ha)), T.A.frame (fun a ha => g.cell a (la a ha)), R, ?_, ?_⟩
  · have := T.g.trans g
    rwa [List.append_assoc] at this
  · exact fun a ha hc => g.fresh a hc (la a ha)
  · exact fun a ha hc => g.fresh a ha (lx a hc)

theorem linkCopiesH_spec {al : Alloc} (hal : al.Fair) {h0 h x acc X A nmX nmA} (hok : h0.Ok)
    (T : Two h0 h x acc X A nmX nmA noExt) (k : Nat) :
    ∃ acc' h' nmA', linkCopiesH al x k acc h = .ok acc' h' ∧ Two h0 h' x acc' X (iter (linkCopy X) k A) nmX nmA' noExt := by
  induction k generalizing h acc A nmA with
  | zero => exact ⟨acc, h, nmA, rfl, T⟩
  | succ k ih =>
    obtain ⟨c, h1, nmC, e, g, RX, RA, RC, d1, d2⟩ := T.clone hal hok
    have hm : acc.e ∈ x.node ++ (acc.node ++ c.node) := by simp [RA.e_mem]
    have hne : acc.e ∉ x.node := T.dis _ RA.e_mem
    obtain ⟨acc', h', nmA', e', T'⟩ := ih (h := h1.set acc.e ((h1.cell acc.e).addE c.b)) (acc := ⟨acc.node ++ c.node, acc.b, c.e⟩)
      (A := linkCopy X A) (nmA := glue nmA nmC A.node.length X.node.length)
      ⟨g.set hm _, RX.disjoint_frame hne _, RA.link RC d1 (fun q hq => hq.elim), by
        intro a ha
        rcases List.mem_append.1 ha with h2 | h2
        · exact T.dis a h2
        · exact d2 a h2⟩
    refine ⟨acc', h', nmA', ?_, T'⟩
    rw [linkCopiesH, Mem.bind_ok e, Mem.bind_ok (modify_ok ((g.live _).2 (Or.inr hm)) (g.not_locked hok hm (by simp)))]
    exact e'

theorem linkExitsH_spec {al : Alloc} (hal : al.Fair) {h0 h x acc X A nmX nmA} (hok : h0.Ok) {fin : Nat}
    (T : Two h0 h x acc X A nmX nmA (· = fin)) (hf : nmA fin = x.e) (k : Nat)
    (hk : A.node.length + k * X.node.length ≤ fin) :
    ∃ acc' h' nmA', linkExitsH al x k acc h = .ok acc' h' ∧
      Two h0 h' x acc' X (iter (linkCopyExit X fin) k A) nmX nmA' (· = fin) ∧ nmA' fin = x.e := by
  induction k generalizing h acc A nmA with
  | zero => exact ⟨acc, h, nmA, rfl, T, hf⟩
  | succ k ih =>
    obtain ⟨c, h1, nmC, e, g, RX, RA, RC, d1, d2⟩ := T.clone hal hok
    have hm : acc.e ∈ x.node ++ (acc.node ++ c.node) := by simp [RA.e_mem]
    have hne : acc.e ∉ x.node := T.dis _ RA.e_mem
    rw [Nat.succ_mul] at hk
    have hgf : glue nmA nmC A.node.length X.node.length fin = x.e := by
      rw [glue_ge (by omega), hf]
    obtain ⟨acc', h', nmA', e', T'⟩ := ih (h := (h1.set acc.e ((h1.cell acc.e).addE c.b)).set acc.e
        (((h1.set acc.e ((h1.cell acc.e).addE c.b)).cell acc.e).addE x.e))
      (acc := ⟨acc.node ++ c.node, acc.b, c.e⟩)
      (A := linkCopyExit X fin A) (nmA := glue nmA nmC A.node.length X.node.length)
      ⟨(g.set hm _).set hm _, (RX.disjoint_frame hne _).disjoint_frame hne _,
        RA.linkExit RC d1 (fun q hq h1 h2 => by subst hq; omega) rfl hgf, by
        intro a ha
        rcases List.mem_append.1 ha with h2 | h2
        · exact T.dis a h2
        · exact d2 a h2⟩ hgf (by rw [length_linkCopyExit']; omega)
    refine ⟨acc', h', nmA', ?_, T'⟩
    rw [linkExitsH, Mem.bind_ok e, guarded _ _ _ ((g.live _).2 (Or.inr hm)) (g.not_locked hok hm (by simp))]
    exact e'

/-- What all parts of the construction guarantee. -/
def GoodH (h0 : Heap) (r : HRes HNFA) (y : Except NfaError NFA) : Prop :=
  match y with
  | .ok y => ∃ x h nm, r = .ok x h ∧ Grows h0 h x.node [] ∧ Rep h nm noExt x y
  | .error e => r = .err e

theorem iter_succ_last {α : Type} (f : α → α) (n : Nat) (a : α) : iter f (n + 1) a = f (iter f n a) := by
  induction n generalizing a with
  | zero => rfl
  | succ n ih => rw [iter, ih]; rfl

theorem Grows.swap {h0 h l l' L} (g : Grows h0 h (l ++ l') L) : Grows h0 h (l' ++ l) L :=
  g.congr fun a => by simp [or_comm]

theorem length_iter_linkCopy (X A : NFA) (k : Nat) :
    (iter (linkCopy X) k A).node.length = A.node.length + k * X.node.length := by
  induction k generalizing A with
  | zero => simp [iter]
  | succ k ih => rw [iter, ih, length_linkCopy', Nat.succ_mul]; omega

theorem length_iter_linkCopyExit (X A : NFA) (f k : Nat) :
    (iter (linkCopyExit X f) k A).node.length = A.node.length + k * X.node.length := by
  induction k generalizing A with
  | zero => simp [iter]
  | succ k ih => rw [iter, ih, length_linkCopyExit', Nat.succ_mul]; omega

section
variable {al : Alloc} {h0 h : Heap} {x : HNFA} {y : NFA} {nm : Nat → Addr}

theorem start_two (hal : al.Fair) (hok : h0.Ok) (g : Grows h0 h x.node []) (R : Rep h nm noExt x y) :
    ∃ c h' nmC, cloneH al x h = .ok c h' ∧ Two h0 h' x c y y nm nmC noExt := by
  have lx : ∀ a ∈ x.node, a ∈ h.live := fun a ha => (g.live a).2 (Or.inr ha)
  obtain ⟨c, h', nmC, e, g', R'⟩ := cloneH_spec hal (g.ok hok (by simp)) R lx
    (fun a ha => g.not_locked hok ha (by simp))
  exact ⟨c, h', nmC, e, ⟨g.trans g', R.frame (fun a ha => g'.cell a (lx a ha)), R',
    fun a ha hc => g'.fresh a ha (lx a hc)⟩⟩

theorem optH_good (hok : h0.Ok) (g : Grows h0 h x.node []) (R : Rep h nm noExt x y) :
    GoodH h0 (optH x h) (.ok (nfaOpt y)) := by
  refine ⟨x, h.set x.b ((h.cell x.b).addE x.e), nm, ?_, g.set R.b_mem _, ?_⟩
  · rw [optH, Mem.bind_ok (modify_ok ((g.live _).2 (Or.inr R.b_mem)) (g.not_locked hok R.b_mem (by simp)))]; rfl
  · have := R.addEps (p := y.b) (q := y.e) R.blt (Or.inl R.elt)
    rw [← R.b, ← R.e] at this
    exact this

theorem plusH_good (hok : h0.Ok) (g : Grows h0 h x.node []) (R : Rep h nm noExt x y) :
    GoodH h0 (plusH x h) (.ok (nfaPlus y)) := by
  refine ⟨x, h.set x.e ((h.cell x.e).addE x.b), nm, ?_, g.set R.e_mem _, ?_⟩
  · rw [plusH, Mem.bind_ok (modify_ok ((g.live _).2 (Or.inr R.e_mem)) (g.not_locked hok R.e_mem (by simp)))]; rfl
  · have := R.addEps (p := y.e) (q := y.b) R.elt (Or.inl R.blt)
    rw [← R.b, ← R.e] at this
    exact this

theorem starH_good (hok : h0.Ok) (g : Grows h0 h x.node []) (R : Rep h nm noExt x y) :
    GoodH h0 (starH x h) (.ok (nfaStar y)) := by
  refine ⟨{ x with e := x.b }, h.set x.e ((h.cell x.e).addE x.b), nm, ?_, g.set R.e_mem _, ?_⟩
  · rw [starH, Mem.bind_ok (modify_ok ((g.live _).2 (Or.inr R.e_mem)) (g.not_locked hok R.e_mem (by simp)))]; rfl
  · have := (R.addEps (p := y.e) (q := y.b) R.elt (Or.inl R.blt)).setE (p := y.b) (by
      rw [length_addEps']; exact R.blt)
    rw [← R.b, ← R.e] at this
    exact this

theorem bareH_good (hal : al.Fair) (g : Grows h0 h x.node []) : GoodH h0 (bareH al x h) (.ok nfaBare) := by
  obtain ⟨a, h1, e1, g1, c1⟩ := alloc_spec hal {} h
  have hd : ∀ b ∈ [a], b ∉ x.node := by
    intro b hb hc
    exact g1.fresh b hb ((g.live b).2 (Or.inr hc))
  obtain ⟨h2, e2, g2, c2⟩ := free_spec (g.trans g1) hd
  refine ⟨⟨[a], a, a⟩, h2, fun _ => a, ?_, g2, ⟨⟨rfl, ?_, ?_, ?_⟩, rfl, by simp [nfaBare], rfl, by simp [nfaBare]⟩⟩
  · rw [bareH, Mem.bind_ok e1, Mem.bind_ok e2]; rfl
  · intro i j hi hj _
    simp only [nfaBare, List.length_cons, List.length_nil] at hi hj
    omega
  · intro i n hn
    have hi := (List.getElem?_eq_some_iff.1 hn).1
    simp only [nfaBare, List.length_cons, List.length_nil] at hi
    obtain rfl : i = 0 := by omega
    simp only [nfaBare, List.getElem?_cons_zero, Option.some.injEq] at hn
    subst hn
    rw [c2, c1]
    rfl
  · intro n hn q hq
    simp only [nfaBare, List.mem_cons, List.not_mem_nil, or_false] at hn
    subst hn
    rcases hq with hq | ⟨z, hz, _⟩
    · simp at hq
    · simp at hz

theorem chainH_good (hal : al.Fair) (hok : h0.Ok) (g : Grows h0 h x.node []) (R : Rep h nm noExt x y) {n : Nat} (hn : 2 ≤ n) :
    GoodH h0 (chainH al x n h) (.ok (nfaChain y n)) := by
  obtain ⟨c, h1, nmC, e1, T1⟩ := start_two hal hok g R
  obtain ⟨acc, h2, nmA, e2, T2⟩ := linkCopiesH_spec hal hok T1 (n - 2)
  have hm : acc.e ∈ x.node ++ acc.node := by simp [T2.A.e_mem]
  refine ⟨⟨acc.node ++ x.node, acc.b, x.e⟩, h2.set acc.e ((h2.cell acc.e).addE x.b),
    glue nmA nm (iter (linkCopy y) (n - 2) y).node.length y.node.length, ?_, (T2.g.swap).set (by simp [T2.A.e_mem]) _, ?_⟩
  · rw [chainH, Mem.bind_ok e1, Mem.bind_ok e2,
      Mem.bind_ok (modify_ok ((T2.g.live _).2 (Or.inr hm)) (T2.g.not_locked hok hm (by simp)))]
    rfl
  · have := T2.A.link T2.X T2.dis (fun q hq => hq.elim)
    rw [← iter_succ_last (linkCopy y)] at this
    have e : n - 2 + 1 = n - 1 := by omega
    rw [e] at this
    exact this

theorem atLeastH_good (hal : al.Fair) (hok : h0.Ok) (g : Grows h0 h x.node []) (R : Rep h nm noExt x y) {n : Nat} :
    GoodH h0 (atLeastH al x n h) (.ok (nfaAtLeast y n)) := by
  obtain ⟨c, h1, nmC, e1, T1⟩ := start_two hal hok g R
  obtain ⟨acc, h2, nmA, e2, T2⟩ := linkCopiesH_spec hal hok T1 (n - 1)
  have hm : acc.e ∈ x.node ++ acc.node := by simp [T2.A.e_mem]
  have hx : x.e ∈ x.node ++ acc.node := by simp [T2.X.e_mem]
  have g3 := T2.g.set hm ((h2.cell acc.e).addE x.b)
  have L := T2.A.link T2.X T2.dis (fun q hq => hq.elim)
  have hl := length_linkCopy' y (iter (linkCopy y) (n - 1) y)
  have b1 := T2.X.blt
  have b2 := T2.X.elt
  refine ⟨⟨acc.node ++ x.node, acc.b, x.b⟩, (h2.set acc.e ((h2.cell acc.e).addE x.b)).set x.e
      (((h2.set acc.e ((h2.cell acc.e).addE x.b)).cell x.e).addE x.b),
    glue nmA nm (iter (linkCopy y) (n - 1) y).node.length y.node.length, ?_, ((T2.g.swap).set (by simp [T2.A.e_mem]) _).set (by simp [T2.X.e_mem]) _, ?_⟩
  · rw [atLeastH, Mem.bind_ok e1, Mem.bind_ok e2,
      Mem.bind_ok (modify_ok ((T2.g.live _).2 (Or.inr hm)) (T2.g.not_locked hok hm (by simp))),
      Mem.bind_ok (modify_ok ((g3.live _).2 (Or.inr hx)) (g3.not_locked hok hx (by simp)))]
    rfl
  · have L2 := (L.addEps (p := (iter (linkCopy y) (n - 1) y).node.length + y.e)
      (q := (iter (linkCopy y) (n - 1) y).node.length + y.b) (by omega) (Or.inl (by omega))).setE
      (p := (iter (linkCopy y) (n - 1) y).node.length + y.b) (by rw [length_addEps']; omega)
    rw [glue_mid b1, glue_mid b2, ← T2.X.b, ← T2.X.e] at L2
    exact L2

theorem lastExitH_spec (hok : h0.Ok) {acc : HNFA} {A : NFA} {nmA : Nat → Addr} {fin : Nat}
    (T : Two h0 h x acc y A nm nmA (· = fin)) (hf : nmA fin = x.e) (hfin : fin = A.node.length + y.e) :
    ∃ r h' nm', lastExitH x acc h = .ok r h' ∧ Grows h0 h' r.node [] ∧ Rep h' nm' noExt r (linkCopyExit y fin A) := by
  have hm : acc.e ∈ x.node ++ acc.node := by simp [T.A.e_mem]
  have b2 := T.X.elt
  refine ⟨⟨acc.node ++ x.node, acc.b, x.e⟩, (h.set acc.e ((h.cell acc.e).addE x.b)).set acc.e
      (((h.set acc.e ((h.cell acc.e).addE x.b)).cell acc.e).addE x.e), glue nmA nm A.node.length y.node.length, ?_,
    ((T.g.swap).set (by simp [T.A.e_mem]) _).set (by simp [T.A.e_mem]) _, ?_⟩
  · rw [lastExitH, guarded _ _ _ ((T.g.live _).2 (Or.inr hm)) (T.g.not_locked hok hm (by simp))]
    rfl
  · have := T.A.linkExit T.X T.dis (fun q hq _ _ => by
      subst hq
      rw [hf, hfin, T.X.e]; congr 1; omega) rfl (f := x.e) (by
      rw [hfin, glue_mid b2, T.X.e])
    exact this.mono fun q hq => by
      subst hq
      rw [length_linkCopyExit']
      left; omega

theorem Two.exit {acc : HNFA} {A : NFA} {nmA : Nat → Addr} (T : Two h0 h x acc y A nm nmA noExt) {fin : Nat}
    (hfin : A.node.length ≤ fin) :
    ∃ nmA', Two h0 h x acc y A nm nmA' (· = fin) ∧ nmA' fin = x.e := by
  refine ⟨fun i => if i = fin then x.e else nmA i, ⟨T.g, T.X, ?_, T.dis⟩, by simp⟩
  exact (T.A.rename (nm' := fun i => if i = fin then x.e else nmA i) (by
    intro i hi
    have : i ≠ fin := by omega
    simp [this])).mono (fun q hq => hq.elim)

theorem boundedH_good (hal : al.Fair) (hok : h0.Ok) (g : Grows h0 h x.node []) (R : Rep h nm noExt x y) {n m : Nat}
    (hn : 1 ≤ n) (hm : n < m) : GoodH h0 (boundedH al x n m h) (.ok (nfaBounded y n m)) := by
  obtain ⟨c, h1, nmC, e1, T1⟩ := start_two hal hok g R
  obtain ⟨acc, h2, nmA, e2, T2⟩ := linkCopiesH_spec hal hok T1 (n - 1)
  have hlen := length_iter_linkCopy y y (n - 1)
  have hnl : y.node.length + (n - 1) * y.node.length = n * y.node.length := by
    obtain ⟨k, rfl⟩ : ∃ k, n = k + 1 := ⟨n - 1, by omega⟩
    rw [Nat.succ_mul, Nat.add_comm]; rfl
  have hle : n * y.node.length ≤ (m - 1) * y.node.length := Nat.mul_le_mul_right _ (by omega)
  have hml : n * y.node.length + (m - n - 1) * y.node.length = (m - 1) * y.node.length := by
    rw [← Nat.add_mul]; congr 1; omega
  obtain ⟨nmA', T3, hf⟩ := T2.exit (fin := (m - 1) * y.node.length + y.e) (by omega)
  obtain ⟨acc', h3, nmA'', e3, T4, hf'⟩ := linkExitsH_spec hal hok T3 hf (m - n - 1) (by omega)
  have hlen2 := length_iter_linkCopyExit y (iter (linkCopy y) (n - 1) y) ((m - 1) * y.node.length + y.e) (m - n - 1)
  obtain ⟨r, h4, nm', e4, g4, R4⟩ := lastExitH_spec hok T4 hf' (by omega)
  refine ⟨r, h4, nm', ?_, g4, ?_⟩
  · rw [boundedH, Mem.bind_ok e1, Mem.bind_ok e2, Mem.bind_ok e3, e4]
  · rw [← iter_succ_last (linkCopyExit y _)] at R4
    have e : m - n - 1 + 1 = m - n := by omega
    rw [e] at R4
    exact R4

theorem upToH_good (hal : al.Fair) (hok : h0.Ok) (g : Grows h0 h x.node []) (R : Rep h nm noExt x y) {m : Nat}
    (hm : 2 ≤ m) : GoodH h0 (upToH al x m h) (.ok (nfaUpTo y m)) := by
  obtain ⟨c, h1, nmC, e1, T1⟩ := start_two hal hok g R
  have hml : y.node.length + (m - 2) * y.node.length = (m - 1) * y.node.length := by
    obtain ⟨k, rfl⟩ : ∃ k, m = k + 2 := ⟨m - 2, by omega⟩
    show y.node.length + k * y.node.length = (k + 1) * y.node.length
    rw [Nat.succ_mul, Nat.add_comm]
  obtain ⟨nmA', T3, hf⟩ := T1.exit (fin := (m - 1) * y.node.length + y.e) (by omega)
  obtain ⟨acc', h3, nmA'', e3, T4, hf'⟩ := linkExitsH_spec hal hok T3 hf (m - 2) (by omega)
  have hlen2 := length_iter_linkCopyExit y y ((m - 1) * y.node.length + y.e) (m - 2)
  obtain ⟨r, h4, nm', e4, g4, R4⟩ := lastExitH_spec hok T4 hf' (by omega)
  rw [← iter_succ_last (linkCopyExit y _)] at R4
  have e : m - 2 + 1 = m - 1 := by omega
  rw [e] at R4
  refine ⟨r, h4.set r.b ((h4.cell r.b).addE r.e), nm', ?_, g4.set R4.b_mem _, ?_⟩
  · rw [upToH, Mem.bind_ok e1, Mem.bind_ok e3, Mem.bind_ok e4,
      Mem.bind_ok (modify_ok ((g4.live _).2 (Or.inr R4.b_mem)) (g4.not_locked hok R4.b_mem (by simp)))]
    rfl
  · have := R4.addEps R4.blt (Or.inl R4.elt)
    rw [← R4.b, ← R4.e] at this
    exact this

theorem repH_good (hal : al.Fair) (hok : h0.Ok) (g : Grows h0 h x.node []) (R : Rep h nm noExt x y) (k : RepKind) :
    GoodH h0 (repH al x k h) (nfaRep y k) := by
  have hid : GoodH h0 ((pure x : Mem HNFA) h) (.ok y) := ⟨x, h, nm, rfl, g, R⟩
  match k with
  | .zeroOrOne => exact optH_good hok g R
  | .zeroOrMore => exact starH_good hok g R
  | .oneOrMore => exact plusH_good hok g R
  | .exactly 0 => exact bareH_good hal g
  | .exactly 1 => exact hid
  | .exactly (n + 2) => exact chainH_good hal hok g R (by omega)
  | .atLeast 0 => exact starH_good hok g R
  | .atLeast (n + 1) => exact atLeastH_good hal hok g R
  | .bounded 0 0 => exact bareH_good hal g
  | .bounded 0 1 => exact optH_good hok g R
  | .bounded 0 (m + 2) => exact upToH_good hal hok g R (by omega)
  | .bounded 1 0 => rfl
  | .bounded 1 1 => exact hid
  | .bounded 1 (m + 2) => exact boundedH_good hal hok g R (by omega) (by omega)
  | .bounded (n + 2) m =>
    simp only [repH, nfaRep]
    by_cases e1 : n + 2 = m
    · subst e1
      simp only [if_true]
      exact chainH_good hal hok g R (by omega)
    · simp only [e1, if_false]
      by_cases e2 : n + 2 < m
      · simp only [e2, if_true]
        exact boundedH_good hal hok g R (by omega) e2
      · simp only [e2, if_false]
        rfl

end

end Verif.Tok
