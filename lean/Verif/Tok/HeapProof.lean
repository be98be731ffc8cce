import Verif.Tok.Heap

/-! # The construction in memory follows the construction by positions -/

namespace Verif.Tok

theorem Mem.bind_ok {α β : Type} {m : Mem α} {f : α → Mem β} {h h' : Heap} {a : α} (hm : m h = .ok a h') :
    (m >>= f) h = f a h' := by
  show (match m h with | .ok a h => f a h | .err e => .err e | .bad b => .bad b) = _
  rw [hm]

theorem Mem.bind_err {α β : Type} {m : Mem α} {f : α → Mem β} {h : Heap} {e : NfaError} (hm : m h = .err e) :
    (m >>= f) h = .err e := by
  show (match m h with | .ok a h => f a h | .err e => .err e | .bad b => .bad b) = _
  rw [hm]

/-! ## Renaming a node -/

/-- The node with its edges renamed. -/
def Node.image (nm : Nat → Addr) (n : Node) : Node :=
  { eps := OSet.ofList (n.eps.map nm), next := n.next.map fun x => (x.1, OSet.ofList (x.2.map nm)) }

/-- `q` is the target of an edge. -/
def Node.Tgt (n : Node) (q : Nat) : Prop := q ∈ n.eps ∨ ∃ x ∈ n.next, q ∈ x.2

theorem Node.image_congr {n : Node} {f g : Nat → Addr} (hfg : ∀ q, n.Tgt q → f q = g q) : n.image f = n.image g := by
  simp only [Node.image, Node.mk.injEq]
  constructor
  · rw [List.map_congr_left (fun q hq => hfg q (Or.inl hq))]
  · apply List.map_congr_left
    intro x hx
    rw [List.map_congr_left (fun q hq => hfg q (Or.inr ⟨x, hx, hq⟩))]

theorem OSet.ofList_map_ofList (l : List Nat) (f : Nat → Nat) :
    OSet.ofList ((OSet.ofList l).map f) = OSet.ofList (l.map f) := by
  apply OSet.ext OSet.sorted_ofList OSet.sorted_ofList
  intro a
  simp [OSet.mem_ofList, List.mem_map]

theorem Node.image_image (n : Node) (f g : Nat → Addr) : (n.image f).image g = n.image (fun i => g (f i)) := by
  simp only [Node.image, List.map_map, Node.mk.injEq, OSet.ofList_map_ofList]
  exact ⟨rfl, List.map_congr_left fun x _ => by simp [OSet.ofList_map_ofList]; rfl⟩

theorem Node.image_shift (n : Node) (k : Nat) (nm : Nat → Addr) : (n.shift k).image nm = n.image (fun i => nm (i + k)) := by
  simp only [Node.image, Node.shift, List.map_map, Node.mk.injEq]
  exact ⟨rfl, List.map_congr_left fun x _ => by simp [List.map_map]; rfl⟩

theorem OSet.ofList_map_insert (q : Nat) (l : List Nat) (nm : Nat → Nat) :
    OSet.ofList ((OSet.insert q l).map nm) = OSet.insert (nm q) (OSet.ofList (l.map nm)) := by
  apply OSet.ext OSet.sorted_ofList (OSet.sorted_insert OSet.sorted_ofList)
  intro a
  simp [OSet.mem_ofList, OSet.mem_insert, List.mem_map, eq_comm]

theorem Node.image_addE (n : Node) (q : Nat) (nm : Nat → Addr) : (n.addE q).image nm = (n.image nm).addE (nm q) := by
  simp [Node.image, Node.addE, OSet.ofList_map_insert]

theorem map_insertRange {β γ : Type} (f : β → γ) (r : Nat × Nat) (v : β) (m : List ((Nat × Nat) × β)) :
    (insertRange r v m).map (fun x => (x.1, f x.2)) = insertRange r (f v) (m.map fun x => (x.1, f x.2)) := by
  induction m with
  | nil => rfl
  | cons x m ih =>
    obtain ⟨k, y⟩ := x
    simp only [insertRange, List.map_cons]
    split
    · rfl
    · split
      · rw [List.map_cons, ih]
      · rfl

theorem Node.image_addN (n : Node) (r : Nat × Nat) (q : Nat) (nm : Nat → Addr) :
    (n.addN r q).image nm = (n.image nm).addN r (nm q) := by
  simp only [Node.image, Node.addN, Node.mk.injEq, true_and]
  exact map_insertRange (fun t => OSet.ofList (t.map nm)) r [q] n.next

theorem collect_some {α β : Type} {f : α → Option β} {g : α → β} {l : List α} (hl : ∀ a ∈ l, f a = some (g a)) :
    collect f l = some (l.map g) := by
  induction l with
  | nil => rfl
  | cons a l ih =>
    simp only [collect, hl a (by simp), ih (fun b hb => hl b (by simp [hb])), List.map_cons]

theorem Node.rename?_eq {n : Node} {f : Addr → Option Addr} {g : Addr → Addr} (hf : ∀ q, n.Tgt q → f q = some (g q)) :
    n.rename? f = some (n.image g) := by
  have h1 : collect f n.eps = some (n.eps.map g) := collect_some fun a ha => hf a (Or.inl ha)
  have h2 : collect (fun x : (Nat × Nat) × List Nat => (collect f x.2).map fun t => (x.1, OSet.ofList t)) n.next
      = some (n.next.map fun x => (x.1, OSet.ofList (x.2.map g))) := by
    apply collect_some
    intro x hx
    rw [collect_some (g := g) fun a ha => hf a (Or.inr ⟨x, hx, ha⟩)]
    rfl
  simp only [Node.rename?, h1, h2, Node.image]

theorem Node.tgt_image {n : Node} {nm : Nat → Addr} {a : Addr} : (n.image nm).Tgt a ↔ ∃ q, n.Tgt q ∧ nm q = a := by
  simp only [Node.Tgt, Node.image, OSet.mem_ofList, List.mem_map]
  constructor
  · rintro (⟨q, hq, rfl⟩ | ⟨_, ⟨x, hx, rfl⟩, hq⟩)
    · exact ⟨q, Or.inl hq, rfl⟩
    · simp only [OSet.mem_ofList, List.mem_map] at hq
      obtain ⟨q, hq, rfl⟩ := hq
      exact ⟨q, Or.inr ⟨x, hx, hq⟩, rfl⟩
  · rintro ⟨q, hq | ⟨x, hx, hq⟩, rfl⟩
    · exact Or.inl ⟨q, hq, rfl⟩
    · exact Or.inr ⟨_, ⟨x, hx, rfl⟩, by simp only [OSet.mem_ofList, List.mem_map]; exact ⟨q, hq, rfl⟩⟩

theorem Node.tgt_shift {n : Node} {k q : Nat} : (n.shift k).Tgt q ↔ ∃ p, n.Tgt p ∧ p + k = q := by
  simp only [Node.Tgt, Node.shift, List.mem_map]
  constructor
  · rintro (⟨q, hq, rfl⟩ | ⟨_, ⟨x, hx, rfl⟩, hq⟩)
    · exact ⟨q, Or.inl hq, rfl⟩
    · simp only [List.mem_map] at hq
      obtain ⟨q, hq, rfl⟩ := hq
      exact ⟨q, Or.inr ⟨x, hx, hq⟩, rfl⟩
  · rintro ⟨q, hq | ⟨x, hx, hq⟩, rfl⟩
    · exact Or.inl ⟨q, hq, rfl⟩
    · exact Or.inr ⟨_, ⟨x, hx, rfl⟩, by simp only [List.mem_map]; exact ⟨q, hq, rfl⟩⟩

theorem Node.tgt_addE {n : Node} {q p : Nat} : (n.addE q).Tgt p ↔ p = q ∨ n.Tgt p := by
  simp only [Node.Tgt, Node.addE, OSet.mem_insert, or_assoc]

/-! ## Nodes in memory -/

/-- The addresses `l` hold the nodes `ns`: position `i` is at address `nm i`.  Targets are positions of `ns` or satisfy
`ext`. -/
structure RepN (h : Heap) (nm : Nat → Addr) (ext : Nat → Prop) (l : List Addr) (ns : List Node) : Prop where
  node : l = (List.range ns.length).map nm
  inj : ∀ i j, i < ns.length → j < ns.length → nm i = nm j → i = j
  cell : ∀ i n, ns[i]? = some n → h.cell (nm i) = n.image nm
  tgt : ∀ n ∈ ns, ∀ q, n.Tgt q → q < ns.length ∨ ext q

def noExt : Nat → Prop := fun _ => False

/-- The automaton `x` in memory is `y`. -/
structure Rep (h : Heap) (nm : Nat → Addr) (ext : Nat → Prop) (x : HNFA) (y : NFA) : Prop where
  nodes : RepN h nm ext x.node y.node
  b : x.b = nm y.b
  blt : y.b < y.node.length
  e : x.e = nm y.e
  elt : y.e < y.node.length

theorem RepN.mem {h nm ext l ns} (H : RepN h nm ext l ns) {i : Nat} (hi : i < ns.length) : nm i ∈ l := by
  rw [H.node]; exact List.mem_map.2 ⟨i, List.mem_range.2 hi, rfl⟩

theorem RepN.of_mem {h nm ext l ns} (H : RepN h nm ext l ns) {a : Addr} (ha : a ∈ l) : ∃ i, i < ns.length ∧ nm i = a := by
  rw [H.node] at ha
  obtain ⟨i, hi, rfl⟩ := List.mem_map.1 ha
  exact ⟨i, List.mem_range.1 hi, rfl⟩

theorem RepN.length {h nm ext l ns} (H : RepN h nm ext l ns) : l.length = ns.length := by
  rw [H.node]; simp

theorem RepN.frame {h h' nm ext l ns} (H : RepN h nm ext l ns) (hc : ∀ a ∈ l, h'.cell a = h.cell a) :
    RepN h' nm ext l ns := by
  refine ⟨H.node, H.inj, ?_, H.tgt⟩
  intro i n hn
  rw [hc _ (H.mem (List.getElem?_eq_some_iff.1 hn).1)]
  exact H.cell i n hn

theorem RepN.mono {h nm l ns} {ext ext' : Nat → Prop} (H : RepN h nm ext l ns)
    (he : ∀ q, ext q → q < ns.length ∨ ext' q) : RepN h nm ext' l ns := by
  refine ⟨H.node, H.inj, H.cell, ?_⟩
  intro n hn q hq
  rcases H.tgt n hn q hq with h1 | h1
  · exact Or.inl h1
  · exact he q h1

theorem RepN.rename {h nm nm' l ns} (H : RepN h nm noExt l ns) (hn : ∀ i, i < ns.length → nm' i = nm i) :
    RepN h nm' noExt l ns := by
  refine ⟨?_, ?_, ?_, H.tgt⟩
  · rw [H.node]
    exact List.map_congr_left fun i hi => (hn i (List.mem_range.1 hi)).symm
  · intro i j hi hj hij
    rw [hn i hi, hn j hj] at hij
    exact H.inj i j hi hj hij
  · intro i n hin
    have hi := (List.getElem?_eq_some_iff.1 hin).1
    rw [hn i hi, H.cell i n hin]
    apply Node.image_congr
    intro q hq
    rcases H.tgt n (List.mem_of_getElem? hin) q hq with h1 | h1
    · exact (hn q h1).symm
    · exact h1.elim

/-- Names of two automata that are put behind each other. -/
def glue (nmA nmX : Nat → Addr) (a x : Nat) : Nat → Addr :=
  fun i => if i < a then nmA i else if i < a + x then nmX (i - a) else nmA i

theorem glue_lt {nmA nmX a x i} (hi : i < a) : glue nmA nmX a x i = nmA i := by simp [glue, hi]
theorem glue_mid {nmA nmX a x i} (hi : i < x) : glue nmA nmX a x (a + i) = nmX i := by
  have h1 : ¬ a + i < a := by omega
  have h2 : a + i - a = i := by omega
  simp only [glue, if_neg h1, h2]
  rw [if_pos (by omega)]
theorem glue_ge {nmA nmX a x i} (hi : a + x ≤ i) : glue nmA nmX a x i = nmA i := by
  have h1 : ¬ i < a + x := by omega
  simp [glue, h1]

theorem RepN.append {h nmA nmX ext lA lX A X} (HA : RepN h nmA ext lA A) (HX : RepN h nmX noExt lX X)
    (hd : ∀ a ∈ lA, a ∉ lX)
    (hext : ∀ q, ext q → A.length ≤ q → q < A.length + X.length → nmA q = nmX (q - A.length)) :
    RepN h (glue nmA nmX A.length X.length) ext (lA ++ lX) (appendNodes A X) := by
  have hlen : (appendNodes A X).length = A.length + X.length := by simp [appendNodes]
  have hA : ∀ q, q < A.length ∨ ext q → glue nmA nmX A.length X.length q = nmA q := by
    intro q hq
    by_cases h1 : q < A.length
    · exact glue_lt h1
    · rcases hq with hq | hq
      · exact (h1 hq).elim
      · by_cases h2 : q < A.length + X.length
        · have := hext q hq (by omega) h2
          have e : q = A.length + (q - A.length) := by omega
          rw [this]
          conv => lhs; rw [e]
          exact glue_mid (by omega)
        · exact glue_ge (by omega)
  refine ⟨?_, ?_, ?_, ?_⟩
  · rw [hlen, List.range_add, List.map_append, HA.node, HX.node]
    congr 1
    · exact List.map_congr_left fun i hi => (glue_lt (List.mem_range.1 hi)).symm
    · rw [List.map_map]
      exact List.map_congr_left fun i hi => (glue_mid (List.mem_range.1 hi)).symm
  · intro i j hi hj hij
    rw [hlen] at hi hj
    by_cases h1 : i < A.length <;> by_cases h2 : j < A.length
    · rw [glue_lt h1, glue_lt h2] at hij
      exact HA.inj i j h1 h2 hij
    · obtain ⟨k, rfl⟩ : ∃ k, j = A.length + k := ⟨j - A.length, by omega⟩
      rw [glue_lt h1, glue_mid (by omega)] at hij
      exact (hd _ (HA.mem h1) (hij ▸ HX.mem (by omega))).elim
    · obtain ⟨k, rfl⟩ : ∃ k, i = A.length + k := ⟨i - A.length, by omega⟩
      rw [glue_lt h2, glue_mid (by omega)] at hij
      exact (hd _ (HA.mem h2) (hij ▸ HX.mem (by omega))).elim
    · obtain ⟨k, rfl⟩ : ∃ k, i = A.length + k := ⟨i - A.length, by omega⟩
      obtain ⟨k', rfl⟩ : ∃ k, j = A.length + k := ⟨j - A.length, by omega⟩
      rw [glue_mid (by omega), glue_mid (by omega)] at hij
      have := HX.inj k k' (by omega) (by omega) hij
      omega
  · intro i n hin
    rw [appendNodes, List.getElem?_append] at hin
    split at hin
    · rename_i h1
      rw [glue_lt h1, HA.cell i n hin]
      apply Node.image_congr
      intro q hq
      exact (hA q (HA.tgt n (List.mem_of_getElem? hin) q hq)).symm
    · rename_i h1
      rw [List.getElem?_map] at hin
      obtain ⟨m, hm, rfl⟩ := Option.map_eq_some_iff.1 hin
      have hi := (List.getElem?_eq_some_iff.1 hm).1
      obtain ⟨k, rfl⟩ : ∃ k, i = A.length + k := ⟨i - A.length, by omega⟩
      have e : A.length + k - A.length = k := by omega
      rw [e] at hm hi
      rw [glue_mid hi, HX.cell k m hm, Node.image_shift]
      apply Node.image_congr
      intro q hq
      rcases HX.tgt m (List.mem_of_getElem? hm) q hq with h2 | h2
      · rw [Nat.add_comm, glue_mid h2]
      · exact h2.elim
  · intro n hn q hq
    rw [hlen]
    rw [appendNodes, List.mem_append] at hn
    rcases hn with hn | hn
    · rcases HA.tgt n hn q hq with h1 | h1
      · exact Or.inl (by omega)
      · exact Or.inr h1
    · obtain ⟨m, hm, rfl⟩ := List.mem_map.1 hn
      obtain ⟨p, hp, rfl⟩ := Node.tgt_shift.1 hq
      rcases HX.tgt m hm p hp with h1 | h1
      · exact Or.inl (by omega)
      · exact h1.elim

theorem RepN.addEps {h nm ext l ns} (H : RepN h nm ext l ns) {p q : Nat} (hp : p < ns.length)
    (hq : q < ns.length ∨ ext q) :
    RepN (h.set (nm p) ((h.cell (nm p)).addE (nm q))) nm ext l (addEps ns p q) := by
  have hlen : (Verif.Tok.addEps ns p q).length = ns.length := by simp [Verif.Tok.addEps]
  refine ⟨by rw [hlen]; exact H.node, by rw [hlen]; exact H.inj, ?_, ?_⟩
  · intro i n hin
    rw [Verif.Tok.addEps, List.getElem?_modify] at hin
    obtain ⟨m, hm, hn⟩ := Option.map_eq_some_iff.1 hin
    have hi := (List.getElem?_eq_some_iff.1 hm).1
    by_cases h1 : i = p
    · subst h1
      simp only [if_true] at hn
      subst hn
      simp only [Heap.set, if_true]
      rw [H.cell i m hm]
      exact (Node.image_addE m q nm).symm
    · have h2 : nm i ≠ nm p := fun hc => h1 (H.inj i p hi hp hc)
      have h3 : ¬ p = i := fun hc => h1 hc.symm
      simp only [h3, if_false] at hn
      subst hn
      simp only [Heap.set, h2, if_false]
      exact H.cell i m hm
  · intro n hn r hr
    rw [hlen]
    obtain ⟨i, hi⟩ := List.getElem?_of_mem hn
    rw [Verif.Tok.addEps, List.getElem?_modify] at hi
    obtain ⟨m, hm, hn⟩ := Option.map_eq_some_iff.1 hi
    by_cases h1 : p = i
    · simp only [h1, if_true] at hn
      have : n = m.addE q := hn.symm
      rw [this, Node.tgt_addE] at hr
      rcases hr with rfl | hr
      · exact hq
      · exact H.tgt m (List.mem_of_getElem? hm) r hr
    · simp only [h1, if_false] at hn
      subst hn
      exact H.tgt m (List.mem_of_getElem? hm) r hr

/-! ## What a computation may do to the memory -/

/-- From `h` to `h'` exactly the nodes `l` were added, all at new addresses; what was there is as it was; of the locks,
`L` were taken. -/
structure Grows (h h' : Heap) (l : List Addr) (L : List Addr) : Prop where
  live : ∀ a, a ∈ h'.live ↔ a ∈ h.live ∨ a ∈ l
  cell : ∀ a ∈ h.live, h'.cell a = h.cell a
  locked : h'.locked = L ++ h.locked
  fresh : ∀ a ∈ l, a ∉ h.live

/-- Only live nodes are locked. -/
def Heap.Ok (h : Heap) : Prop := ∀ a ∈ h.locked, a ∈ h.live

theorem Grows.refl (h : Heap) : Grows h h [] [] := ⟨by simp, fun _ _ => rfl, rfl, by simp⟩

theorem Grows.trans {h0 h1 h2 l1 l2 L} (H1 : Grows h0 h1 l1 L) (H2 : Grows h1 h2 l2 []) :
    Grows h0 h2 (l1 ++ l2) L := by
  refine ⟨?_, ?_, ?_, ?_⟩
  · intro a; rw [H2.live, H1.live, List.mem_append, or_assoc]
  · intro a ha; rw [H2.cell a ((H1.live a).2 (Or.inl ha)), H1.cell a ha]
  · rw [H2.locked, H1.locked]; rfl
  · intro a ha
    rcases List.mem_append.1 ha with h | h
    · exact H1.fresh a h
    · exact fun hc => H2.fresh a h ((H1.live a).2 (Or.inl hc))

theorem Grows.set {h0 h l L} (H : Grows h0 h l L) {a : Addr} (ha : a ∈ l) (n : Node) : Grows h0 (h.set a n) l L := by
  refine ⟨H.live, ?_, H.locked, H.fresh⟩
  intro b hb
  have h1 : b ≠ a := fun hc => H.fresh a ha (hc ▸ hb)
  simp only [Heap.set, h1, if_false]
  exact H.cell b hb

theorem Grows.congr {h0 h l l' L} (H : Grows h0 h l L) (hl : ∀ a, a ∈ l' ↔ a ∈ l) : Grows h0 h l' L := by
  refine ⟨?_, H.cell, H.locked, ?_⟩
  · intro a; rw [H.live, hl]
  · intro a ha; exact H.fresh a ((hl a).1 ha)

theorem Grows.ok {h0 h l L} (H : Grows h0 h l L) (hok : h0.Ok) (hL : ∀ a ∈ L, a ∈ l) : h.Ok := by
  intro a ha
  rw [H.locked, List.mem_append] at ha
  rw [H.live]
  rcases ha with ha | ha
  · exact Or.inr (hL a ha)
  · exact Or.inl (hok a ha)

theorem Grows.not_locked {h0 h l L} (H : Grows h0 h l L) (hok : h0.Ok) {a : Addr} (ha : a ∈ l) (hL : a ∉ L) :
    a ∉ h.locked := by
  rw [H.locked, List.mem_append]
  rintro (h1 | h1)
  · exact hL h1
  · exact H.fresh a ha (hok a h1)

theorem modify_ok {h : Heap} {a : Addr} {f : Node → Node} (h1 : a ∈ h.live) (h2 : a ∉ h.locked) :
    modify a f h = .ok () (h.set a (f (h.cell a))) := by
  simp [modify, h1, h2]

theorem change_ok {h : Heap} {a : Addr} {f : Node → Node} (h1 : a ∈ h.live) :
    change a f h = .ok () (h.set a (f (h.cell a))) := by
  simp [change, h1]

theorem lock_ok {h : Heap} {a : Addr} (h1 : a ∈ h.live) (h2 : a ∉ h.locked) :
    lock a h = .ok () { h with locked := a :: h.locked } := by
  simp [lock, h1, h2]

theorem readNode_ok {h : Heap} {a : Addr} (h1 : a ∈ h.live) (h2 : a ∉ h.locked) :
    readNode a h = .ok (h.cell a) h := by
  simp [readNode, h1, h2]

theorem orBad_some {α : Type} (a : α) (h : Heap) : orBad (some a) h = .ok a h := rfl

theorem unlock_eq (a : Addr) (h : Heap) : unlock a h = .ok () { h with locked := h.locked.erase a } := rfl

theorem alloc_spec {al : Alloc} (hal : al.Fair) (n : Node) (h : Heap) :
    ∃ a h', alloc al n h = .ok a h' ∧ Grows h h' [a] [] ∧ h'.cell a = n := by
  refine ⟨_, _, rfl, ⟨?_, ?_, rfl, ?_⟩, ?_⟩
  · intro b; simp [or_comm]
  · intro b hb
    have : b ≠ al h.clock h.live := fun hc => hal h.clock h.live (hc ▸ hb)
    simp [Heap.set, this]
  · intro b hb; simp at hb; subst hb; exact hal h.clock h.live
  · simp [Heap.set]

theorem allocMany_spec {al : Alloc} (hal : al.Fair) (n : Nat) (h : Heap) :
    ∃ l h', allocMany al n h = .ok l h' ∧ l.length = n ∧ l.Nodup ∧ Grows h h' l [] ∧ ∀ a ∈ l, h'.cell a = {} := by
  induction n generalizing h with
  | zero => exact ⟨[], h, rfl, rfl, List.nodup_nil, Grows.refl h, by simp⟩
  | succ n ih =>
    obtain ⟨a, h1, e1, g1, c1⟩ := alloc_spec hal {} h
    obtain ⟨l, h2, e2, hl, hn, g2, c2⟩ := ih h1
    refine ⟨a :: l, h2, ?_, by simp [hl], ?_, g1.trans g2, ?_⟩
    · rw [allocMany, Mem.bind_ok e1, Mem.bind_ok e2]; rfl
    · exact List.nodup_cons.2 ⟨fun hc => g2.fresh a hc ((g1.live a).2 (Or.inr (by simp))), hn⟩
    · intro b hb
      rcases List.mem_cons.1 hb with rfl | hb
      · rw [g2.cell b ((g1.live b).2 (Or.inr (by simp))), c1]
      · exact c2 b hb

theorem free_spec {h0 h : Heap} {l l' : List Addr} {L : List Addr} (H : Grows h0 h (l ++ l') L)
    (hd : ∀ a ∈ l', a ∉ l) : ∃ h', free l h = .ok () h' ∧ Grows h0 h' l' L ∧ h'.cell = h.cell := by
  refine ⟨_, rfl, ⟨?_, H.cell, H.locked, fun a ha => H.fresh a (by simp [ha])⟩, rfl⟩
  intro a
  simp only [List.mem_filter, H.live, List.mem_append, Bool.not_eq_true', List.contains_eq_mem, decide_eq_false_iff_not]
  constructor
  · rintro ⟨h1 | h1 | h1, h2⟩
    · exact Or.inl h1
    · exact (h2 h1).elim
    · exact Or.inr h1
  · rintro (h1 | h1)
    · exact ⟨Or.inl h1, fun hc => H.fresh a (by simp [hc]) h1⟩
    · exact ⟨Or.inr (Or.inr h1), hd a h1⟩

/-! ## Copies -/

theorem idxOf_map_range {nm : Nat → Addr} {n : Nat} (hinj : ∀ i j, i < n → j < n → nm i = nm j → i = j) {i : Nat}
    (hi : i < n) : ((List.range n).map nm).idxOf (nm i) = i := by
  have hlt : ((List.range n).map nm).idxOf (nm i) < ((List.range n).map nm).length :=
    List.idxOf_lt_length_iff.2 (List.mem_map.2 ⟨i, List.mem_range.2 hi, rfl⟩)
  have h1 := List.getElem_idxOf hlt
  simp only [List.getElem_map, List.getElem_range] at h1
  simp only [List.length_map, List.length_range] at hlt
  exact hinj _ _ hlt hi h1

theorem mapped_eq {nm nm' : Nat → Addr} {n : Nat} (hinj : ∀ i j, i < n → j < n → nm i = nm j → i = j) {i : Nat}
    (hi : i < n) : mapped ((List.range n).map nm) ((List.range n).map nm') (nm i) = some (nm' i) := by
  rw [mapped, if_pos (List.mem_map.2 ⟨i, List.mem_range.2 hi, rfl⟩), idxOf_map_range hinj hi]
  simp [hi]

/-- Names of a list of distinct addresses. -/
def nameOf (l : List Addr) : Nat → Addr := fun i => l[i]?.getD 0

theorem map_nameOf (l : List Addr) : (List.range l.length).map (nameOf l) = l := by
  apply List.ext_getElem (by simp)
  intro i h1 h2
  simp [nameOf, h2]

theorem nameOf_inj {l : List Addr} (hl : l.Nodup) (i j : Nat) (hi : i < l.length) (hj : j < l.length)
    (h : nameOf l i = nameOf l j) : i = j := by
  simp only [nameOf, List.getElem?_eq_getElem hi, List.getElem?_eq_getElem hj, Option.getD_some] at h
  exact (List.getElem_inj hl).1 h

/-- Filling in the copies, for both loops: each step writes one copy. -/
theorem fill_spec {nm nm' : Nat → Addr} {ns : List Node}
    (hinj' : ∀ i j, i < ns.length → j < ns.length → nm' i = nm' j → i = j)
    (hne : ∀ i j, i < ns.length → j < ns.length → nm i ≠ nm' j)
    (run : List (Addr × Addr) → Mem Unit) (hnil : ∀ h, run [] h = .ok () h)
    (hcons : ∀ (h : Heap) (i : Nat) (n : Node) (t : List (Addr × Addr)), ns[i]? = some n →
      nm i ∈ h.live → nm' i ∈ h.live → nm i ∉ h.locked → nm' i ∉ h.locked → h.cell (nm i) = n.image nm →
      run ((nm i, nm' i) :: t) h = run t (h.set (nm' i) (n.image nm')))
    (idx : List Nat) (hidx : ∀ i ∈ idx, i < ns.length) (hnd : idx.Nodup) (h : Heap)
    (hlive : ∀ i, i < ns.length → nm i ∈ h.live ∧ nm' i ∈ h.live ∧ nm i ∉ h.locked ∧ nm' i ∉ h.locked)
    (hcell : ∀ i n, ns[i]? = some n → h.cell (nm i) = n.image nm) :
    ∃ h', run (idx.map fun i => (nm i, nm' i)) h = .ok () h' ∧ h'.live = h.live ∧ h'.locked = h.locked ∧
      (∀ a, (∀ i, i < ns.length → a ≠ nm' i) → h'.cell a = h.cell a) ∧
      (∀ i, i < ns.length → i ∉ idx → h'.cell (nm' i) = h.cell (nm' i)) ∧
      (∀ i n, i ∈ idx → ns[i]? = some n → h'.cell (nm' i) = n.image nm') := by
  induction idx generalizing h with
  | nil => exact ⟨h, hnil h, rfl, rfl, fun _ _ => rfl, fun _ _ _ => rfl, by simp⟩
  | cons i idx ih =>
    have hi := hidx i (by simp)
    obtain ⟨n, hn⟩ : ∃ n, ns[i]? = some n := ⟨ns[i], List.getElem?_eq_getElem hi⟩
    obtain ⟨l1, l2, l3, l4⟩ := hlive i hi
    have hnd' := List.nodup_cons.1 hnd
    obtain ⟨h', e, a1, a2, a3, a4, a5⟩ := ih (fun j hj => hidx j (by simp [hj])) hnd'.2 (h.set (nm' i) (n.image nm'))
      (fun j hj => hlive j hj) (fun j m hm => by
        have := hne j i (List.getElem?_eq_some_iff.1 hm).1 hi
        simp only [Heap.set, this, if_false]
        exact hcell j m hm)
    refine ⟨h', ?_, a1, a2, ?_, ?_, ?_⟩
    · rw [List.map_cons, hcons h i n _ hn l1 l2 l3 l4 (hcell i n hn)]; exact e
    · intro a ha
      rw [a3 a ha]
      simp [Heap.set, ha i hi]
    · intro j hj hji
      have hji' : j ≠ i := fun hc => hji (by simp [hc])
      rw [a4 j hj (fun hc => hji (by simp [hc]))]
      have : nm' j ≠ nm' i := fun hc => hji' (hinj' j i hj hi hc)
      simp [Heap.set, this]
    · intro j m hj hm
      by_cases h1 : j ∈ idx
      · exact a5 j m h1 hm
      · have h2 : j = i := by
          rcases List.mem_cons.1 hj with h2 | h2
          · exact h2
          · exact (h1 h2).elim
        subst h2
        rw [hn] at hm
        obtain rfl := Option.some.inj hm
        rw [a4 j hi h1]
        simp [Heap.set]

theorem zip_names (nm nm' : Nat → Addr) (n : Nat) :
    ((List.range n).map nm).zip ((List.range n).map nm') = (List.range n).map fun i => (nm i, nm' i) := by
  rw [List.zip_map']

theorem rename_image {nm nm' : Nat → Addr} {ns : List Node} {n : Node}
    (hinj : ∀ i j, i < ns.length → j < ns.length → nm i = nm j → i = j)
    (htgt : ∀ q, n.Tgt q → q < ns.length) :
    (n.image nm).rename? (mapped ((List.range ns.length).map nm) ((List.range ns.length).map nm')) = some (n.image nm') := by
  have h1 := Node.rename?_eq (n := n.image nm) (f := mapped ((List.range ns.length).map nm) ((List.range ns.length).map nm'))
    (g := fun a => (mapped ((List.range ns.length).map nm) ((List.range ns.length).map nm') a).getD 0) (by
      intro a ha
      obtain ⟨q, hq, rfl⟩ := Node.tgt_image.1 ha
      rw [mapped_eq hinj (htgt q hq)]
      rfl)
  rw [h1, Node.image_image]
  congr 1
  apply Node.image_congr
  intro q hq
  rw [mapped_eq hinj (htgt q hq)]
  rfl

theorem cloneH_spec {al : Alloc} (hal : al.Fair) {h : Heap} (hok : h.Ok) {nm : Nat → Addr} {x : HNFA} {y : NFA}
    (H : Rep h nm noExt x y) (hlive : ∀ a ∈ x.node, a ∈ h.live) (hlock : ∀ a ∈ x.node, a ∉ h.locked) :
    ∃ c h' nm', cloneH al x h = .ok c h' ∧ Grows h h' c.node [] ∧ Rep h' nm' noExt c y := by
  obtain ⟨l, h1, e1, hl, hnd, g1, _⟩ := allocMany_spec hal x.node.length h
  have hlen : l.length = y.node.length := by rw [hl, H.nodes.length]
  obtain ⟨nm', hl', hinj'⟩ : ∃ nm' : Nat → Addr, l = (List.range y.node.length).map nm' ∧
      ∀ i j, i < y.node.length → j < y.node.length → nm' i = nm' j → i = j := by
    refine ⟨nameOf l, by rw [← hlen, map_nameOf], ?_⟩
    intro i j hi hj; exact nameOf_inj hnd i j (by omega) (by omega)
  have hmem : ∀ i, i < y.node.length → nm' i ∈ l := by
    intro i hi
    rw [hl']
    exact List.mem_map.2 ⟨i, List.mem_range.2 hi, rfl⟩
  have hlk : h1.locked = h.locked := g1.locked
  have htgt : ∀ n ∈ y.node, ∀ q, n.Tgt q → q < y.node.length := by
    intro n hn q hq
    rcases H.nodes.tgt n hn q hq with h2 | h2
    · exact h2
    · exact h2.elim
  obtain ⟨h2, e2, a1, a2, a3, _, a5⟩ := fill_spec (nm := nm) (nm' := nm') (ns := y.node) hinj'
    (by
      intro i j hi hj hc
      exact g1.fresh _ (hmem j hj) (hc ▸ hlive _ (H.nodes.mem hi)))
    (copyEdges x.node l) (fun _ => rfl)
    (by
      intro h i n t hin b1 b2 b3 b4 b5
      have hne : nm i ≠ nm' i := by
        intro hc
        have hi := (List.getElem?_eq_some_iff.1 hin).1
        exact g1.fresh _ (hmem i hi) (hc ▸ hlive _ (H.nodes.mem hi))
      rw [copyEdges, Mem.bind_ok (lock_ok b2 b4)]
      rw [Mem.bind_ok (readNode_ok (h := { h with locked := nm' i :: h.locked }) b1 (by simp [hne, b3]))]
      have hr : ((h.cell (nm i)).rename? (mapped x.node l)) = some (n.image nm') := by
        rw [b5, H.nodes.node]
        rw [hl']
        exact rename_image H.nodes.inj (htgt n (List.mem_of_getElem? hin))
      simp only [hr]
      rw [Mem.bind_ok (orBad_some _ _)]
      rw [Mem.bind_ok (change_ok (h := { h with locked := nm' i :: h.locked }) b2)]
      rw [Mem.bind_ok (unlock_eq _ _)]
      congr 1
      simp [Heap.set])
    (List.range y.node.length) (fun i hi => List.mem_range.1 hi) List.nodup_range h1
    (by
      intro i hi
      refine ⟨(g1.live _).2 (Or.inl (hlive _ (H.nodes.mem hi))), (g1.live _).2 (Or.inr (hmem i hi)), ?_, ?_⟩
      · rw [hlk]; exact hlock _ (H.nodes.mem hi)
      · exact g1.not_locked hok (hmem i hi) (by simp))
    (by
      intro i n hin
      rw [g1.cell _ (hlive _ (H.nodes.mem (List.getElem?_eq_some_iff.1 hin).1))]
      exact H.nodes.cell i n hin)
  have ez : x.node.zip l = (List.range y.node.length).map fun i => (nm i, nm' i) := by
    rw [← zip_names, ← H.nodes.node, ← hl']
  have mb : mapped x.node l x.b = some (nm' y.b) := by
    rw [H.nodes.node, H.b]
    rw [hl']
    exact mapped_eq H.nodes.inj H.blt
  have me : mapped x.node l x.e = some (nm' y.e) := by
    rw [H.nodes.node, H.e]
    rw [hl']
    exact mapped_eq H.nodes.inj H.elt
  refine ⟨⟨l, nm' y.b, nm' y.e⟩, h2, nm', ?_, ?_, ⟨⟨hl', hinj', ?_, H.nodes.tgt⟩, rfl, H.blt, rfl, H.elt⟩⟩
  · rw [cloneH, Mem.bind_ok e1, ez, Mem.bind_ok e2, mb, Mem.bind_ok (orBad_some _ _), me, Mem.bind_ok (orBad_some _ _)]
    rfl
  · refine ⟨?_, ?_, by rw [a2, g1.locked], g1.fresh⟩
    · intro a; rw [a1]; exact g1.live a
    · intro a ha
      rw [a3 a, g1.cell a ha]
      intro i hi hc
      exact g1.fresh _ (hmem i hi) (hc ▸ ha)
  · intro i n hin
    exact a5 i n (List.mem_range.2 (List.getElem?_eq_some_iff.1 hin).1) hin

end Verif.Tok
