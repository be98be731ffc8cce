import Verif.Tok.Ptr
import Verif.Tok.HeapProof
import Verif.Tok.MinWeak

/-! # Lemmas for the model with addresses of DFA nodes: memory, maps, subset construction -/

namespace Verif.Tok

/-! ## Computations -/

theorem DMem.bind_ok {α β : Type} {m : DMem α} {f : α → DMem β} {h h' : DHeap} {a : α} (hm : m h = .ok a h') :
    (m >>= f) h = f a h' := by
  show (match m h with | .ok a h => f a h | .bad b => .bad b | .fuel => .fuel) = _
  rw [hm]

theorem DMem.bind_fuel {α β : Type} {m : DMem α} {f : α → DMem β} {h : DHeap} (hm : m h = .fuel) : (m >>= f) h = .fuel := by
  show (match m h with | .ok a h => f a h | .bad b => .bad b | .fuel => .fuel) = _
  rw [hm]

theorem key_some {α : Type} {x : Option α} {a : α} (h : DHeap) (hx : x = some a) : key x h = .ok a h := by subst hx; rfl

theorem nth_some {α : Type} {l : List α} {i : Nat} {a : α} (h : DHeap) (hx : l[i]? = some a) : nth l i h = .ok a h := by
  unfold nth
  rw [hx]; rfl

theorem deref_ok {a : Addr} {h : DHeap} (ha : a ∈ h.nodes) : deref a h = .ok (h.cell a) h := by
  unfold deref; rw [if_pos ha]

theorem loopM_sim {α α' β γ : Type} {f : β → α → DMem β} {g : γ → α' → γ} {φ : α' → α} {R : β → γ → DHeap → Prop} :
    ∀ {l : List α'} {b : β} {c : γ} {h : DHeap},
    (∀ a ∈ l, ∀ b c h, R b c h → ∃ b' h', f b (φ a) h = .ok b' h' ∧ R b' (g c a) h') → R b c h →
    ∃ b' h', loopM f b (l.map φ) h = .ok b' h' ∧ R b' (l.foldl g c) h' := by
  intro l
  induction l with
  | nil => intro b c h _ hr; exact ⟨b, h, rfl, hr⟩
  | cons a l ih =>
    intro b c h H hr
    obtain ⟨b1, h1, e1, r1⟩ := H a (by simp) b c h hr
    obtain ⟨b2, h2, e2, r2⟩ := ih (fun a ha => H a (by simp [ha])) r1
    exact ⟨b2, h2, by rw [List.map_cons, loopM, DMem.bind_ok e1, e2], r2⟩

theorem mapD_sim {α α' β : Type} {f : α → DMem β} {g : α' → β} {φ : α' → α} {h : DHeap} : ∀ {l : List α'},
    (∀ a ∈ l, f (φ a) h = .ok (g a) h) → mapD f (l.map φ) h = .ok (l.map g) h := by
  intro l
  induction l with
  | nil => intro _; rfl
  | cons a l ih =>
    intro H
    rw [List.map_cons, mapD, DMem.bind_ok (H a (by simp)), DMem.bind_ok (ih fun a ha => H a (by simp [ha]))]
    rfl

/-! ## Hash maps -/

def keys {β : Type} (l : List (Nat × β)) : List Nat := l.map Prod.fst

theorem lookup_hinsert {β : Type} {k k' : Nat} {v : β} {l : List (Nat × β)} :
    (hinsert k v l).lookup k' = if k' = k then some v else l.lookup k' := by
  induction l with
  | nil =>
    simp only [hinsert, List.lookup_cons, List.lookup_nil]
    by_cases h : k' = k
    · subst h; simp
    · rw [if_neg h, beq_false_of_ne h]
  | cons x l ih =>
    obtain ⟨j, y⟩ := x
    simp only [hinsert]
    split
    · rename_i hkj
      subst hkj
      simp only [List.lookup_cons]
      by_cases h : k' = k
      · subst h; simp
      · rw [if_neg h, beq_false_of_ne h]
    · rename_i hne
      simp only [List.lookup_cons]
      by_cases h : k' = j
      · subst h
        rw [if_neg (fun e => hne e.symm)]
        simp
      · rw [beq_false_of_ne h]
        simpa using ih

theorem mem_keys_hinsert {β : Type} {k k' : Nat} {v : β} {l : List (Nat × β)} :
    k' ∈ keys (hinsert k v l) ↔ k' = k ∨ k' ∈ keys l := by
  induction l with
  | nil => simp [hinsert, keys]
  | cons x l ih =>
    obtain ⟨j, y⟩ := x
    simp only [hinsert]
    split
    · subst_vars; simp [keys]
    · simp only [keys, List.map_cons, List.mem_cons] at ih ⊢
      rw [ih]
      constructor
      · rintro (h | h | h) <;> simp [h]
      · rintro (h | h | h) <;> simp [h]

theorem nodup_keys_hinsert {β : Type} {k : Nat} {v : β} {l : List (Nat × β)} (h : (keys l).Nodup) :
    (keys (hinsert k v l)).Nodup := by
  induction l with
  | nil => simp [hinsert, keys]
  | cons x l ih =>
    obtain ⟨j, y⟩ := x
    simp only [keys, List.map_cons, List.nodup_cons] at h
    simp only [hinsert]
    split
    · subst_vars; simp only [keys, List.map_cons, List.nodup_cons]; exact h
    · rename_i hne
      simp only [keys, List.map_cons, List.nodup_cons]
      refine ⟨?_, ih h.2⟩
      intro hm
      rcases mem_keys_hinsert.1 hm with h' | h'
      · exact hne h'.symm
      · exact h.1 h'

theorem hinsert_new {β : Type} {k : Nat} {v : β} {l : List (Nat × β)} (h : k ∉ keys l) : hinsert k v l = l ++ [(k, v)] := by
  induction l with
  | nil => rfl
  | cons x l ih =>
    obtain ⟨j, y⟩ := x
    simp only [keys, List.map_cons, List.mem_cons, not_or] at h
    simp only [hinsert, if_neg h.1, List.cons_append]
    rw [ih h.2]

theorem mem_iff_lookup {β : Type} {l : List (Nat × β)} (h : (keys l).Nodup) {k : Nat} {v : β} :
    (k, v) ∈ l ↔ l.lookup k = some v := by
  induction l with
  | nil => simp
  | cons x l ih =>
    obtain ⟨j, y⟩ := x
    simp only [keys, List.map_cons, List.nodup_cons] at h
    rw [List.lookup_cons, List.mem_cons]
    by_cases e : k = j
    · subst e
      simp only [beq_self_eq_true, Option.some.injEq, Prod.mk.injEq, true_and]
      constructor
      · rintro (h' | h')
        · exact h'.symm
        · exact absurd (List.mem_map.2 ⟨_, h', rfl⟩) h.1
      · intro h'; exact Or.inl h'.symm
    · rw [beq_false_of_ne e]
      simp only [Prod.mk.injEq, e, false_and, false_or]
      exact ih h.2

theorem lookup_none {β : Type} {l : List (Nat × β)} {k : Nat} : l.lookup k = none ↔ k ∉ keys l := by
  induction l with
  | nil => simp [keys]
  | cons x l ih =>
    obtain ⟨j, y⟩ := x
    rw [List.lookup_cons]
    simp only [keys, List.map_cons, List.mem_cons, not_or] at ih ⊢
    by_cases e : k = j
    · subst e; simp
    · rw [beq_false_of_ne e]; simp only [e, not_false_eq_true, true_and]; exact ih

theorem hcollect_nodup {β : Type} {l : List (Nat × β)} (h : (keys l).Nodup) : hcollect l = l := by
  unfold hcollect
  suffices ∀ (l l0 : List (Nat × β)), (keys (l0 ++ l)).Nodup → l.foldl (fun m x => hinsert x.1 x.2 m) l0 = l0 ++ l by
    simpa using this l [] (by simpa using h)
  intro l
  induction l with
  | nil => intro l0 _; simp
  | cons x l ih =>
    intro l0 hn
    rw [List.foldl_cons, hinsert_new, ih (l0 ++ [(x.1, x.2)]) (by simpa using hn)]
    · simp
    · intro hm
      unfold keys at hn hm
      rw [List.map_append, List.nodup_append] at hn
      exact hn.2.2 x.1 hm x.1 (by simp) rfl

theorem hcollect_spec {β : Type} (l : List (Nat × β)) (h : ∀ k v v', (k, v) ∈ l → (k, v') ∈ l → v = v') :
    (keys (hcollect l)).Nodup ∧ (∀ k, k ∈ keys (hcollect l) ↔ k ∈ keys l) ∧
      ∀ k v, (hcollect l).lookup k = some v ↔ (k, v) ∈ l := by
  unfold hcollect
  suffices ∀ (l l0 : List (Nat × β)), (keys l0).Nodup →
      (∀ k v v', (l0.lookup k = some v ∨ (k, v) ∈ l) → (l0.lookup k = some v' ∨ (k, v') ∈ l) → v = v') →
      let r := l.foldl (fun m x => hinsert x.1 x.2 m) l0
      (keys r).Nodup ∧ (∀ k, k ∈ keys r ↔ k ∈ keys l0 ∨ k ∈ keys l) ∧
        ∀ k v, r.lookup k = some v ↔ l0.lookup k = some v ∨ (k, v) ∈ l by
    have := this l [] (by simp [keys]) (by simpa using h)
    simpa [keys] using this
  intro l
  induction l with
  | nil => intro l0 hn _; exact ⟨hn, by simp [keys], by simp⟩
  | cons x l ih =>
    intro l0 hn hf
    obtain ⟨i1, i2, i3⟩ := ih (hinsert x.1 x.2 l0) (nodup_keys_hinsert hn) (by
      intro k v v' h1 h2
      apply hf k v v'
      · rw [lookup_hinsert] at h1
        rcases h1 with h1 | h1
        · split at h1
          · cases h1; subst_vars; exact Or.inr (by simp)
          · exact Or.inl h1
        · exact Or.inr (by simp [h1])
      · rw [lookup_hinsert] at h2
        rcases h2 with h2 | h2
        · split at h2
          · cases h2; subst_vars; exact Or.inr (by simp)
          · exact Or.inl h2
        · exact Or.inr (by simp [h2]))
    rw [List.foldl_cons]
    refine ⟨i1, ?_, ?_⟩
    · intro k
      rw [i2 k, mem_keys_hinsert]
      simp only [keys, List.map_cons, List.mem_cons]
      constructor
      · rintro ((h | h) | h) <;> simp [h]
      · rintro (h | h | h) <;> simp [h]
    · intro k v
      rw [i3 k v, lookup_hinsert]
      by_cases e : k = x.1
      · subst e
        simp only [if_true, Option.some.injEq, List.mem_cons]
        constructor
        · rintro (h | h)
          · exact Or.inr (Or.inl (by rw [← h]))
          · exact Or.inr (Or.inr h)
        · rintro (h | h | h)
          · exact Or.inl (hf x.1 x.2 v (Or.inr (by simp)) (Or.inl h))
          · exact Or.inl (by rw [← h])
          · exact Or.inr h
      · rw [if_neg e]
        have : (k, v) ≠ x := fun h => e (by rw [← h])
        simp [this]

/-! ## Addresses by position -/

/-- Address of the node at a position. -/
def nmOf (node : List Addr) (i : Nat) : Addr := node.getD i 0

theorem nmOf_get {node : List Addr} {i : Nat} (h : i < node.length) : node[i]? = some (nmOf node i) := by
  unfold nmOf
  rw [List.getD_eq_getElem?_getD, List.getElem?_eq_getElem h]; rfl

theorem nmOf_mem {node : List Addr} {i : Nat} (h : i < node.length) : nmOf node i ∈ node := List.mem_of_getElem? (nmOf_get h)

theorem nmOf_inj {node : List Addr} (hn : node.Nodup) {i j : Nat} (hi : i < node.length) (hj : j < node.length)
    (h : nmOf node i = nmOf node j) : i = j := by
  have h1 := nmOf_get hi
  have h2 := nmOf_get hj
  rw [h] at h1
  rw [← h2] at h1
  exact (List.getElem?_inj hi hn).1 h1

theorem node_eq (node : List Addr) : node = (List.range node.length).map (nmOf node) := by
  apply List.ext_getElem?
  intro i
  rw [List.getElem?_map]
  by_cases h : i < node.length
  · rw [List.getElem?_range h, nmOf_get h]; rfl
  · rw [List.getElem?_eq_none (by omega), List.getElem?_eq_none (by simp; omega)]; rfl

theorem mem_node {node : List Addr} {a : Addr} (h : a ∈ node) : ∃ i, i < node.length ∧ nmOf node i = a := by
  rw [node_eq node] at h
  obtain ⟨i, hi, e⟩ := List.mem_map.1 h
  exact ⟨i, List.mem_range.1 hi, e⟩

theorem nmOf_append_lt {node l : List Addr} {i : Nat} (h : i < node.length) : nmOf (node ++ l) i = nmOf node i := by
  have h1 := nmOf_get h
  have h2 := nmOf_get (node := node ++ l) (i := i) (by simp; omega)
  rw [List.getElem?_append_left h, h1] at h2
  exact (Option.some.inj h2).symm

theorem nmOf_append_self {node : List Addr} {a : Addr} : nmOf (node ++ [a]) node.length = a := by
  simp [nmOf]

/-- The targets of a row are given new names. -/
def ren (f : Nat → Nat) (r : Row) : Row := r.map fun x => (x.1, f x.2)

theorem ren_congr {f g : Nat → Nat} {r : Row} (h : ∀ x ∈ r, f x.2 = g x.2) : ren f r = ren g r := by
  unfold ren
  apply List.map_congr_left
  intro x hx
  rw [h x hx]

/-- The nodes at `node` hold `rows`, and the memory differs from `h0` only by these nodes. -/
structure Held (h0 h : DHeap) (node : List Addr) (rows : List Row) : Prop where
  len : node.length = rows.length
  nodup : node.Nodup
  cell : ∀ i r, rows[i]? = some r → h.cell (nmOf node i) = ren (nmOf node) r
  tgt : ∀ r ∈ rows, ∀ x ∈ r, x.2 < rows.length
  nodes : h.nodes = node.reverse ++ h0.nodes
  other : h.other = h0.other
  frame : ∀ a ∈ h0.nodes, h.cell a = h0.cell a
  fresh : ∀ a ∈ node, a ∉ h0.nodes ∧ a ∉ h0.other

theorem Held.mem {h0 h : DHeap} {node : List Addr} {rows : List Row} (H : Held h0 h node rows) {a : Addr} (ha : a ∈ node) :
    a ∈ h.nodes := by rw [H.nodes]; simp [ha]

theorem Held.mono {h0 h : DHeap} {node : List Addr} {rows : List Row} {cell' : Addr → Row} {c : Nat} (H : Held h0 h node rows)
    (hc : ∀ a ∈ node ++ h0.nodes, cell' a = h.cell a) :
    Held h0 { h with cell := cell', clock := c } node rows :=
  ⟨H.len, H.nodup, fun i r hr => by
      rw [← H.cell i r hr]
      exact hc _ (by
        have : i < node.length := by rw [H.len]; exact (List.getElem?_eq_some_iff.1 hr).1
        simp [nmOf_mem this]), H.tgt, H.nodes, H.other,
    fun a ha => by rw [← H.frame a ha]; exact hc a (by simp [ha]), H.fresh⟩

theorem newNode_held {al : Alloc} (hal : al.Fair) {h0 h : DHeap} {node : List Addr} {rows : List Row} (H : Held h0 h node rows) :
    ∃ a h', newNode al h = .ok a h' ∧ Held h0 h' (node ++ [a]) (rows ++ [[]]) := by
  refine ⟨al h.clock (h.nodes ++ h.other), _, rfl, ?_⟩
  have hfr := hal h.clock (h.nodes ++ h.other)
  generalize al h.clock (h.nodes ++ h.other) = a at hfr
  rw [List.mem_append, not_or, H.nodes, List.mem_append, not_or, List.mem_reverse, H.other] at hfr
  refine ⟨by simp [H.len], ?_, ?_, ?_, ?_, H.other, ?_, ?_⟩
  · rw [List.nodup_append]
    exact ⟨H.nodup, by simp, by intro x hx y hy e; simp at hy; subst hy; subst e; exact hfr.1.1 hx⟩
  · intro i r hr
    by_cases hi : i < rows.length
    · rw [List.getElem?_append_left hi] at hr
      have hi' : i < node.length := by rw [H.len]; exact hi
      show (if _ = a then _ else _) = _
      rw [nmOf_append_lt hi', if_neg (show ¬ nmOf node i = a from fun e => hfr.1.1 (e ▸ nmOf_mem hi')), H.cell i r hr]
      apply ren_congr
      intro x hx
      rw [nmOf_append_lt]
      rw [H.len]
      exact H.tgt r (List.mem_of_getElem? hr) x hx
    · have : i = rows.length := by
        have := (List.getElem?_eq_some_iff.1 hr).1
        simp at this; omega
      subst this
      simp at hr
      subst hr
      rw [← H.len, nmOf_append_self]
      show (if _ = a then _ else _) = _
      rw [if_pos rfl]
      rfl
  · intro r hr x hx
    rw [List.length_append]
    rcases List.mem_append.1 hr with hr | hr
    · have := H.tgt r hr x hx; omega
    · simp at hr; subst hr; cases hx
  · simp [H.nodes]
  · intro b hb
    show (if b = a then _ else _) = _
    rw [if_neg (show ¬ b = a from fun e => hfr.1.2 (e ▸ hb)), H.frame b hb]
  · intro b hb
    rcases List.mem_append.1 hb with hb | hb
    · exact H.fresh b hb
    · simp at hb; subst hb; exact ⟨hfr.1.2, hfr.2⟩

theorem assign_held {h0 h : DHeap} {node : List Addr} {rows : List Row} (H : Held h0 h node rows) {i : Nat}
    (hi : i < rows.length) {f g : Row → Row} (hfg : ∀ r, f (ren (nmOf node) r) = ren (nmOf node) (g r))
    (ht : ∀ r, rows[i]? = some r → ∀ x ∈ g r, x.2 < rows.length) :
    ∃ h', assign (nmOf node i) f h = .ok () h' ∧ Held h0 h' node (rows.modify i g) := by
  have hi' : i < node.length := by rw [H.len]; exact hi
  have hm := nmOf_mem hi'
  refine ⟨_, by unfold assign; rw [if_pos (H.mem hm)], ?_⟩
  refine ⟨by simp [H.len], H.nodup, ?_, ?_, H.nodes, H.other, ?_, H.fresh⟩
  · intro j r hr
    rw [List.getElem?_modify] at hr
    show (if nmOf node j = nmOf node i then _ else _) = _
    by_cases e : i = j
    · subst e
      simp only [if_true] at hr
      rw [List.getElem?_eq_getElem hi] at hr
      simp at hr
      subst hr
      rw [if_pos rfl, H.cell i _ (List.getElem?_eq_getElem hi), hfg]
    · simp only [if_neg e] at hr
      have hr' : rows[j]? = some r := by simpa using hr
      have hj : j < node.length := by rw [H.len]; exact (List.getElem?_eq_some_iff.1 hr').1
      rw [if_neg (fun h => e (nmOf_inj H.nodup hj hi' h).symm), H.cell j r hr']
  · intro r hr x hx
    rw [List.length_modify]
    obtain ⟨j, hj⟩ := List.getElem?_of_mem hr
    rw [List.getElem?_modify] at hj
    by_cases e : i = j
    · subst e
      simp only [if_true] at hj
      rw [List.getElem?_eq_getElem hi] at hj
      simp at hj
      subst hj
      exact ht _ (List.getElem?_eq_getElem hi) x hx
    · simp only [if_neg e] at hj
      have hj' : rows[j]? = some r := by simpa using hj
      exact H.tgt r (List.mem_of_getElem? hj') x hx
  · intro a ha
    show (if a = nmOf node i then _ else _) = _
    rw [if_neg (show ¬ a = nmOf node i from fun e => (H.fresh _ hm).1 (e ▸ ha)), H.frame a ha]

end Verif.Tok
