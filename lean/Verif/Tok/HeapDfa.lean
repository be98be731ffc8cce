import Verif.Tok.HeapAll
import Verif.Tok.DfaProof3

/-! # The subset construction does not depend on where the nodes are -/

namespace Verif.Tok

/-- The nodes `ns` with names `nm` are found in `mem`. -/
structure Named (ns mem : List Node) (nm : Nat → Addr) : Prop where
  inj : ∀ i j, i < ns.length → j < ns.length → nm i = nm j → i = j
  cell : ∀ i n, ns[i]? = some n → mem[nm i]? = some (n.image nm)
  tgt : ∀ n ∈ ns, ∀ q, n.Tgt q → q < ns.length

/-- A set of positions as a set of addresses. -/
def setA (nm : Nat → Addr) (s : List Nat) : List Nat := OSet.ofList (s.map nm)

theorem mem_setA {nm s a} : a ∈ setA nm s ↔ ∃ q ∈ s, nm q = a := by
  simp [setA, OSet.mem_ofList, List.mem_map]

theorem sorted_setA {nm s} : OSet.Sorted (setA nm s) := OSet.sorted_ofList

/-- A set of positions that exist. -/
structure SetOk (n : Nat) (s : List Nat) : Prop where
  sorted : OSet.Sorted s
  lt : ∀ q ∈ s, q < n

theorem SetOk.nil {n} : SetOk n [] := ⟨OSet.sorted_nil, by simp⟩

theorem SetOk.union {n s t} (h : SetOk n s) (ht : ∀ q ∈ t, q < n) : SetOk n (OSet.union s t) := by
  refine ⟨OSet.sorted_union h.sorted, ?_⟩
  intro q hq
  rcases OSet.mem_union.1 hq with h1 | h1
  · exact h.lt q h1
  · exact ht q h1

section
variable {ns mem : List Node} {nm : Nat → Addr}

theorem setA_inj (H : Named ns mem nm) {s t : List Nat} (hs : SetOk ns.length s) (ht : SetOk ns.length t)
    (h : setA nm s = setA nm t) : s = t := by
  apply OSet.ext hs.sorted ht.sorted
  intro q
  constructor
  · intro hq
    have : nm q ∈ setA nm t := h ▸ mem_setA.2 ⟨q, hq, rfl⟩
    obtain ⟨p, hp, e⟩ := mem_setA.1 this
    exact H.inj p q (ht.lt p hp) (hs.lt q hq) e ▸ hp
  · intro hq
    have : nm q ∈ setA nm s := h ▸ mem_setA.2 ⟨q, hq, rfl⟩
    obtain ⟨p, hp, e⟩ := mem_setA.1 this
    exact H.inj p q (hs.lt p hp) (ht.lt q hq) e ▸ hp

theorem mem_setA_iff (H : Named ns mem nm) {s : List Nat} (hs : ∀ q ∈ s, q < ns.length) {p : Nat} (hp : p < ns.length) :
    nm p ∈ setA nm s ↔ p ∈ s := by
  rw [mem_setA]
  constructor
  · rintro ⟨q, hq, e⟩
    exact H.inj q p (hs q hq) hp e ▸ hq
  · intro h; exact ⟨p, h, rfl⟩

theorem setA_union (s t : List Nat) : setA nm (OSet.union s t) = OSet.union (setA nm s) (setA nm t) := by
  apply OSet.ext sorted_setA (OSet.sorted_union sorted_setA)
  intro a
  rw [OSet.mem_union, mem_setA, mem_setA, mem_setA]
  constructor
  · rintro ⟨q, hq, e⟩
    rcases OSet.mem_union.1 hq with h | h
    · exact Or.inl ⟨q, h, e⟩
    · exact Or.inr ⟨q, h, e⟩
  · rintro (⟨q, hq, e⟩ | ⟨q, hq, e⟩)
    · exact ⟨q, OSet.mem_union.2 (Or.inl hq), e⟩
    · exact ⟨q, OSet.mem_union.2 (Or.inr hq), e⟩

/-! ## Closures -/

theorem named_eps (H : Named ns mem nm) {p a : Nat} (hp : p < ns.length) :
    Eps mem (nm p) a ↔ ∃ q, Eps ns p q ∧ nm q = a := by
  obtain ⟨n, hn⟩ : ∃ n, ns[p]? = some n := ⟨ns[p], List.getElem?_eq_getElem hp⟩
  unfold Eps
  rw [H.cell p n hn, hn]
  constructor
  · rintro ⟨m, hm, ha⟩
    obtain rfl := Option.some.inj hm
    obtain ⟨q, hq, rfl⟩ := List.mem_map.1 (OSet.mem_ofList.1 ha)
    exact ⟨q, ⟨n, rfl, hq⟩, rfl⟩
  · rintro ⟨q, ⟨m, hm, hq⟩, rfl⟩
    obtain rfl := Option.some.inj hm
    exact ⟨_, rfl, OSet.mem_ofList.2 (List.mem_map.2 ⟨q, hq, rfl⟩)⟩

theorem eps_tgt (H : Named ns mem nm) {p q : Nat} (h : Eps ns p q) : q < ns.length := by
  obtain ⟨n, hn, hq⟩ := h
  exact H.tgt n (List.mem_of_getElem? hn) q (Or.inl hq)

theorem named_stp (H : Named ns mem nm) {p c a : Nat} (hp : p < ns.length) :
    Stp mem (nm p) c a ↔ ∃ q, Stp ns p c q ∧ nm q = a := by
  obtain ⟨n, hn⟩ : ∃ n, ns[p]? = some n := ⟨ns[p], List.getElem?_eq_getElem hp⟩
  unfold Stp
  rw [H.cell p n hn, hn]
  constructor
  · rintro ⟨m, hm, r, t, hr, h1, h2, ha⟩
    obtain rfl := Option.some.inj hm
    obtain ⟨x, hx, e⟩ := List.mem_map.1 hr
    cases e
    obtain ⟨q, hq, rfl⟩ := List.mem_map.1 (OSet.mem_ofList.1 ha)
    exact ⟨q, ⟨n, rfl, x.1, x.2, hx, h1, h2, hq⟩, rfl⟩
  · rintro ⟨q, ⟨m, hm, r, t, hr, h1, h2, hq⟩, rfl⟩
    obtain rfl := Option.some.inj hm
    exact ⟨_, rfl, r, _, List.mem_map.2 ⟨(r, t), hr, rfl⟩, h1, h2, OSet.mem_ofList.2 (List.mem_map.2 ⟨q, hq, rfl⟩)⟩

theorem stp_tgt (H : Named ns mem nm) {p c q : Nat} (h : Stp ns p c q) : q < ns.length := by
  obtain ⟨n, hn, r, t, hr, _, _, hq⟩ := h
  exact H.tgt n (List.mem_of_getElem? hn) q (Or.inr ⟨(r, t), hr, hq⟩)

theorem named_path (H : Named ns mem nm) {p : Nat} {w : List Nat} {a : Nat} (hp : p < ns.length) :
    NPath mem (nm p) w a ↔ ∃ q, NPath ns p w q ∧ nm q = a := by
  constructor
  · intro h
    generalize hb : nm p = b at h
    induction h generalizing p with
    | nil => exact ⟨p, .nil p, hb⟩
    | eps h1 _ ih =>
      subst hb
      obtain ⟨q, hq, rfl⟩ := (named_eps H hp).1 h1
      obtain ⟨r, hr, e⟩ := ih (eps_tgt H hq) rfl
      exact ⟨r, .eps hq hr, e⟩
    | step h1 _ ih =>
      subst hb
      obtain ⟨q, hq, rfl⟩ := (named_stp H hp).1 h1
      obtain ⟨r, hr, e⟩ := ih (stp_tgt H hq) rfl
      exact ⟨r, .step hq hr, e⟩
  · rintro ⟨q, h, rfl⟩
    induction h with
    | nil => exact .nil _
    | eps h1 _ ih => exact .eps ((named_eps H hp).2 ⟨_, h1, rfl⟩) (ih (eps_tgt H h1))
    | step h1 _ ih => exact .step ((named_stp H hp).2 ⟨_, h1, rfl⟩) (ih (stp_tgt H h1))

theorem named_path_lt (H : Named ns mem nm) {p : Nat} {w : List Nat} {q : Nat} (hp : p < ns.length) (h : NPath ns p w q) :
    q < ns.length := by
  induction h with
  | nil => exact hp
  | eps h1 _ ih => exact ih (eps_tgt H h1)
  | step h1 _ ih => exact ih (stp_tgt H h1)

theorem closure_ok (H : Named ns mem nm) {p : Nat} (hp : p < ns.length) : SetOk ns.length (closure ns p) :=
  ⟨sorted_closure, fun _ hq => named_path_lt H hp (mem_closure.1 hq)⟩

theorem named_closure (H : Named ns mem nm) {p : Nat} (hp : p < ns.length) : closure mem (nm p) = setA nm (closure ns p) := by
  apply OSet.ext sorted_closure sorted_setA
  intro a
  rw [mem_closure, named_path H hp, mem_setA]
  simp only [mem_closure]

/-! ## Collecting the edges of a set -/

/-- One edge is added. -/
def addEdge (ns : List Node) (m : List (Nat × EndMap)) (x : (Nat × Nat) × List Nat) : List (Nat × EndMap) :=
  entry x.1.1 [] (entry x.1.2 [] (fun s => OSet.union s (x.2.flatMap (closure ns)))) m

theorem collectNext_flat (ns : List Node) (set : List Nat) :
    collectNext ns set = (set.flatMap (nextOf ns)).foldl (addEdge ns) [] := by
  unfold collectNext
  generalize ([] : List (Nat × EndMap)) = m
  induction set generalizing m with
  | nil => rfl
  | cons p set ih =>
    rw [List.foldl_cons, List.flatMap_cons, List.foldl_append, ih]
    rfl

/-- Look-up. -/
def look {β : Type} (k : Nat) : List (Nat × β) → Option β
  | [] => none
  | (j, x) :: t => if j = k then some x else look k t

theorem look_none_of_lt {β : Type} {k : Nat} {l : List (Nat × β)} (h : ∀ x ∈ l, k < x.1) : look k l = none := by
  induction l with
  | nil => rfl
  | cons x l ih =>
    obtain ⟨j, y⟩ := x
    have h1 := h (j, y) (by simp)
    rw [look, if_neg (by simp only at h1; omega)]
    exact ih fun z hz => h z (by simp [hz])

theorem look_mem {β : Type} {k : Nat} {l : List (Nat × β)} {y : β} (h : look k l = some y) : (k, y) ∈ l := by
  induction l with
  | nil => cases h
  | cons x l ih =>
    obtain ⟨j, z⟩ := x
    rw [look] at h
    split at h
    · rename_i hj; subst hj; cases h; simp
    · exact List.mem_cons_of_mem _ (ih h)

theorem look_entry {β : Type} {k : Nat} {d : β} {f : β → β} {l : List (Nat × β)} (hl : KeysSorted l) (j : Nat) :
    look j (entry k d f l) = if k = j then some (f ((look k l).getD d)) else look j l := by
  induction l with
  | nil => simp only [entry, look]; split <;> rfl
  | cons x l ih =>
    obtain ⟨i, y⟩ := x
    have hl' := List.pairwise_cons.1 hl
    rw [entry]
    split
    · rename_i h1
      rw [look_none_of_lt (k := k) (l := (i, y) :: l)]
      · rw [look]; rfl
      · intro z hz
        rcases List.mem_cons.1 hz with rfl | hz
        · exact h1
        · exact Nat.lt_trans h1 (hl'.1 z hz)
    · split
      · rename_i h1 h2
        rw [look, ih hl'.2]
        simp only [look]
        have h3 : ¬ i = k := by omega
        rw [if_neg h3]
        by_cases h4 : i = j
        · subst h4
          rw [if_pos rfl, if_neg (fun h => h3 h.symm)]
          simp
        · rw [if_neg h4, if_neg h4]
      · rename_i h1 h2
        obtain rfl : k = i := by omega
        simp only [look, if_true, Option.getD_some]
        by_cases h4 : k = j
        · subst h4; simp
        · simp [h4]

theorem look_ext {β : Type} {l l' : List (Nat × β)} (hl : KeysSorted l) (hl' : KeysSorted l')
    (h : ∀ k, look k l = look k l') : l = l' := by
  induction l generalizing l' with
  | nil =>
    cases l' with
    | nil => rfl
    | cons x l' =>
      obtain ⟨j, y⟩ := x
      have := h j
      simp [look] at this
  | cons x l ih =>
    obtain ⟨j, y⟩ := x
    have a := List.pairwise_cons.1 hl
    cases l' with
    | nil =>
      have := h j
      simp [look] at this
    | cons x' l' =>
      obtain ⟨j', y'⟩ := x'
      have a' := List.pairwise_cons.1 hl'
      have hj : j = j' := by
        rcases Nat.lt_trichotomy j j' with h1 | h1 | h1
        · have := h j
          rw [look_none_of_lt (l := (j', y') :: l') (k := j)] at this
          · simp [look] at this
          · intro z hz
            rcases List.mem_cons.1 hz with rfl | hz
            · exact h1
            · exact Nat.lt_trans h1 (a'.1 z hz)
        · exact h1
        · have := h j'
          rw [look_none_of_lt (l := (j, y) :: l) (k := j')] at this
          · simp [look] at this
          · intro z hz
            rcases List.mem_cons.1 hz with rfl | hz
            · exact h1
            · exact Nat.lt_trans h1 (a.1 z hz)
      subst hj
      have hy := h j
      simp only [look, if_true, Option.some.injEq] at hy
      subst hy
      congr 1
      apply ih a.2 a'.2
      intro k
      by_cases hk : j = k
      · subst hk
        rw [look_none_of_lt (fun z hz => a.1 z hz), look_none_of_lt (fun z hz => a'.1 z hz)]
      · have := h k
        simpa only [look, if_neg hk] using this

/-- End maps in order. -/
structure MapOk (m : EndMap) : Prop where
  keys : KeysSorted m
  sets : ∀ e t, (e, t) ∈ m → OSet.Sorted t

/-- Lists of end maps in order. -/
structure MapsOk (l : List (Nat × EndMap)) : Prop where
  keys : KeysSorted l
  maps : ∀ b m, (b, m) ∈ l → MapOk m

theorem MapOk.nil : MapOk [] := ⟨List.Pairwise.nil, by simp⟩
theorem MapsOk.nil : MapsOk [] := ⟨List.Pairwise.nil, by simp⟩

theorem MapOk.entry {m : EndMap} (h : MapOk m) (k : Nat) (t : List Nat) :
    MapOk (entry k [] (fun s => OSet.union s t) m) :=
  ⟨keysSorted_entry h.keys, entry_all (P := fun _ t => OSet.Sorted t) h.sets (OSet.sorted_union OSet.sorted_nil)
    (fun _ hx => OSet.sorted_union hx)⟩

theorem MapsOk.addEdge {l : List (Nat × EndMap)} (h : MapsOk l) (x : (Nat × Nat) × List Nat) : MapsOk (addEdge ns l x) :=
  ⟨keysSorted_entry h.keys, entry_all (P := fun _ m => MapOk m) h.maps (MapOk.nil.entry _ _) (fun _ hx => hx.entry _ _)⟩

theorem union_comm_right {s t u : List Nat} (hs : OSet.Sorted s) :
    OSet.union (OSet.union s t) u = OSet.union (OSet.union s u) t := by
  apply OSet.ext (OSet.sorted_union (OSet.sorted_union hs)) (OSet.sorted_union (OSet.sorted_union hs))
  intro a
  simp only [OSet.mem_union, or_assoc]
  constructor
  · rintro (h | h | h)
    · exact Or.inl h
    · exact Or.inr (Or.inr h)
    · exact Or.inr (Or.inl h)
  · rintro (h | h | h)
    · exact Or.inl h
    · exact Or.inr (Or.inr h)
    · exact Or.inr (Or.inl h)

theorem MapOk.look {m : EndMap} (h : MapOk m) (k : Nat) : OSet.Sorted ((look k m).getD []) := by
  cases hl : Verif.Tok.look k m with
  | none => exact OSet.sorted_nil
  | some t => exact h.sets k t (look_mem hl)

theorem MapsOk.look {l : List (Nat × EndMap)} (h : MapsOk l) (k : Nat) : MapOk ((look k l).getD []) := by
  cases hl : Verif.Tok.look k l with
  | none => exact MapOk.nil
  | some t => exact h.maps k t (look_mem hl)

theorem entry_comm_inner {m : EndMap} (h : MapOk m) (j k : Nat) (t u : List Nat) :
    entry k [] (fun s => OSet.union s u) (entry j [] (fun s => OSet.union s t) m) =
      entry j [] (fun s => OSet.union s t) (entry k [] (fun s => OSet.union s u) m) := by
  have h1 := h.entry j t
  have h2 := h.entry k u
  apply look_ext (h1.entry k u).keys (h2.entry j t).keys
  intro i
  rw [look_entry h1.keys, look_entry h2.keys, look_entry h.keys, look_entry h.keys, look_entry h.keys, look_entry h.keys]
  by_cases hjk : j = k
  · subst hjk
    simp only [if_true, Option.getD_some]
    rw [union_comm_right (h.look j)]
    by_cases e1 : j = i <;> simp [e1]
  · have hkj : ¬ k = j := fun h => hjk h.symm
    simp only [if_neg hjk, if_neg hkj]
    by_cases e1 : j = i <;> by_cases e2 : k = i <;> simp [e1, e2]
    omega

theorem addEdge_comm {l : List (Nat × EndMap)} (h : MapsOk l) (x y : (Nat × Nat) × List Nat) :
    addEdge ns (addEdge ns l x) y = addEdge ns (addEdge ns l y) x := by
  have h1 := h.addEdge (ns := ns) x
  have h2 := h.addEdge (ns := ns) y
  apply look_ext (h1.addEdge y).keys (h2.addEdge x).keys
  intro i
  have e1 := fun (l : List (Nat × EndMap)) (hl : KeysSorted l) (x : (Nat × Nat) × List Nat) (i : Nat) =>
    (look_entry (k := x.1.1) (d := []) (f := entry x.1.2 [] (fun s => OSet.union s (x.2.flatMap (closure ns)))) hl i)
  change look i (entry _ _ _ (addEdge ns l x)) = look i (entry _ _ _ (addEdge ns l y))
  rw [e1 _ h1.keys, e1 _ h2.keys]
  simp only [addEdge]
  rw [e1 _ h.keys, e1 _ h.keys, e1 _ h.keys, e1 _ h.keys]
  by_cases hjk : x.1.1 = y.1.1
  · rw [hjk]
    simp only [if_true, Option.getD_some]
    rw [entry_comm_inner (h.look _)]
    by_cases e1 : y.1.1 = i <;> simp [e1]
  · have hkj : ¬ y.1.1 = x.1.1 := fun h => hjk h.symm
    simp only [if_neg hjk, if_neg hkj]
    by_cases e1 : x.1.1 = i <;> by_cases e2 : y.1.1 = i <;> simp [e1, e2]
    omega

theorem foldl_addEdge_perm {xs ys : List ((Nat × Nat) × List Nat)} (h : xs.Perm ys) {l : List (Nat × EndMap)} (hl : MapsOk l) :
    xs.foldl (addEdge ns) l = ys.foldl (addEdge ns) l := by
  induction h generalizing l with
  | nil => rfl
  | cons x _ ih => exact ih (hl.addEdge x)
  | swap x y t => simp only [List.foldl_cons]; rw [addEdge_comm hl]
  | trans _ _ ih1 ih2 => rw [ih1 hl, ih2 hl]

theorem collectNext_perm {s s' : List Nat} (h : s.Perm s') : collectNext ns s = collectNext ns s' := by
  rw [collectNext_flat, collectNext_flat]
  exact foldl_addEdge_perm (h.flatMap_right _) MapsOk.nil

/-- End maps with addresses. -/
def mapE (nm : Nat → Addr) (m : EndMap) : EndMap := m.map fun x => (x.1, setA nm x.2)
def mapL (nm : Nat → Addr) (l : List (Nat × EndMap)) : List (Nat × EndMap) := l.map fun x => (x.1, mapE nm x.2)
def mapR (nm : Nat → Addr) (l : List ((Nat × Nat) × List Nat)) : List ((Nat × Nat) × List Nat) :=
  l.map fun x => (x.1, setA nm x.2)

theorem map_entry {β γ : Type} (g : β → γ) {k : Nat} {d : β} {f : β → β} {f' : γ → γ} (hf : ∀ x, g (f x) = f' (g x))
    (l : List (Nat × β)) : (entry k d f l).map (fun x => (x.1, g x.2)) = entry k (g d) f' (l.map fun x => (x.1, g x.2)) := by
  induction l with
  | nil => simp [entry, hf]
  | cons x l ih =>
    obtain ⟨j, y⟩ := x
    simp only [entry, List.map_cons]
    split
    · simp [hf]
    · split
      · simp [ih]
      · simp [hf]

theorem mapE_entry (k : Nat) (t : List Nat) (m : EndMap) :
    mapE nm (entry k [] (fun s => OSet.union s t) m) = entry k [] (fun s => OSet.union s (setA nm t)) (mapE nm m) :=
  map_entry (setA nm) (fun x => setA_union x t) m

theorem union_congr_right {s t u : List Nat} (hs : OSet.Sorted s) (h : ∀ a, a ∈ t ↔ a ∈ u) : OSet.union s t = OSet.union s u := by
  apply OSet.ext (OSet.sorted_union hs) (OSet.sorted_union hs)
  intro a
  rw [OSet.mem_union, OSet.mem_union, h]

theorem flatMap_closure_named (H : Named ns mem nm) {t : List Nat} (ht : ∀ q ∈ t, q < ns.length) (a : Nat) :
    a ∈ (setA nm t).flatMap (closure mem) ↔ a ∈ setA nm (t.flatMap (closure ns)) := by
  rw [List.mem_flatMap, mem_setA]
  constructor
  · rintro ⟨b, hb, ha⟩
    obtain ⟨q, hq, rfl⟩ := mem_setA.1 hb
    rw [named_closure H (ht q hq)] at ha
    obtain ⟨r, hr, e⟩ := mem_setA.1 ha
    exact ⟨r, List.mem_flatMap.2 ⟨q, hq, hr⟩, e⟩
  · rintro ⟨r, hr, e⟩
    obtain ⟨q, hq, hr⟩ := List.mem_flatMap.1 hr
    refine ⟨nm q, mem_setA.2 ⟨q, hq, rfl⟩, ?_⟩
    rw [named_closure H (ht q hq)]
    exact mem_setA.2 ⟨r, hr, e⟩

theorem entry_congr {β : Type} {k : Nat} {d : β} {f f' : β → β} {l : List (Nat × β)} (P : β → Prop) (hd : P d)
    (hl : ∀ a y, (a, y) ∈ l → P y) (hf : ∀ x, P x → f x = f' x) : entry k d f l = entry k d f' l := by
  induction l with
  | nil => simp [entry, hf d hd]
  | cons x l ih =>
    obtain ⟨j, y⟩ := x
    simp only [entry]
    rw [hf d hd, hf y (hl j y (by simp)), ih (fun a y h => hl a y (by simp [h]))]

theorem MapsOk.mapL {l : List (Nat × EndMap)} (h : MapsOk l) : MapsOk (mapL nm l) := by
  refine ⟨?_, ?_⟩
  · rw [Verif.Tok.mapL, KeysSorted, List.pairwise_map]
    exact h.keys
  · intro b m hm
    obtain ⟨x, hx, e⟩ := List.mem_map.1 hm
    cases e
    refine ⟨?_, ?_⟩
    · rw [mapE, KeysSorted, List.pairwise_map]
      exact (h.maps _ _ hx).keys
    · intro e t ht
      obtain ⟨y, hy, e⟩ := List.mem_map.1 ht
      cases e
      exact sorted_setA

theorem mapL_addEdge (H : Named ns mem nm) {x : (Nat × Nat) × List Nat} (hx : ∀ q ∈ x.2, q < ns.length)
    {l : List (Nat × EndMap)} (hl : MapsOk l) :
    addEdge mem (mapL nm l) (x.1, setA nm x.2) = mapL nm (addEdge ns l x) := by
  have h1 : mapL nm (addEdge ns l x) = entry x.1.1 (mapE nm [])
      (entry x.1.2 [] (fun s => OSet.union s (setA nm (x.2.flatMap (closure ns))))) (mapL nm l) :=
    map_entry (mapE nm) (fun m => mapE_entry x.1.2 (x.2.flatMap (closure ns)) m) l
  rw [h1]
  show entry x.1.1 [] (entry x.1.2 [] (fun s => OSet.union s ((setA nm x.2).flatMap (closure mem)))) (mapL nm l) = _
  refine entry_congr MapOk MapOk.nil (MapsOk.mapL hl).maps ?_
  intro m hm
  refine entry_congr OSet.Sorted OSet.sorted_nil hm.sets ?_
  intro s hs
  exact union_congr_right hs (flatMap_closure_named H hx)

theorem named_nextOf (H : Named ns mem nm) {p : Nat} (hp : p < ns.length) : nextOf mem (nm p) = mapR nm (nextOf ns p) := by
  obtain ⟨n, hn⟩ : ∃ n, ns[p]? = some n := ⟨ns[p], List.getElem?_eq_getElem hp⟩
  rw [nextOf, nextOf, H.cell p n hn, hn]
  rfl

theorem nextOf_lt (H : Named ns mem nm) {p : Nat} {x : (Nat × Nat) × List Nat} (hx : x ∈ nextOf ns p) :
    ∀ q ∈ x.2, q < ns.length := by
  intro q hq
  unfold nextOf at hx
  cases hn : ns[p]? with
  | none => rw [hn] at hx; simp at hx
  | some n =>
    rw [hn] at hx
    exact H.tgt n (List.mem_of_getElem? hn) q (Or.inr ⟨x, hx, hq⟩)

theorem setA_perm (H : Named ns mem nm) {s : List Nat} (hs : SetOk ns.length s) : (setA nm s).Perm (s.map nm) := by
  refine (List.perm_ext_iff_of_nodup sorted_setA.nodup ?_).2 ?_
  · have : s.Nodup := hs.sorted.nodup
    rw [List.Nodup, List.pairwise_map]
    refine List.Pairwise.imp_of_mem ?_ this
    intro a b ha hb hne hc
    exact hne (H.inj a b (hs.lt a ha) (hs.lt b hb) hc)
  · intro a; rw [mem_setA, List.mem_map]

theorem named_collectNext (H : Named ns mem nm) {s : List Nat} (hs : SetOk ns.length s) :
    collectNext mem (setA nm s) = mapL nm (collectNext ns s) := by
  rw [collectNext_perm (setA_perm H hs), collectNext_flat, collectNext_flat]
  have hE : (s.map nm).flatMap (nextOf mem) = mapR nm (s.flatMap (nextOf ns)) := by
    have hlt := hs.lt
    clear hs
    induction s with
    | nil => rfl
    | cons p s ih =>
      rw [List.map_cons, List.flatMap_cons, List.flatMap_cons, ih (fun q hq => hlt q (by simp [hq])),
        named_nextOf H (hlt p (by simp))]
      simp [mapR]
  rw [hE]
  have hx : ∀ x ∈ s.flatMap (nextOf ns), ∀ q ∈ x.2, q < ns.length := by
    intro x hx
    obtain ⟨p, _, hp⟩ := List.mem_flatMap.1 hx
    exact nextOf_lt H hp
  have : ([] : List (Nat × EndMap)) = mapL nm [] := rfl
  conv => lhs; rw [this]
  have hl : MapsOk ([] : List (Nat × EndMap)) := MapsOk.nil
  revert hl hx
  generalize ([] : List (Nat × EndMap)) = l
  generalize s.flatMap (nextOf ns) = xs
  induction xs generalizing l with
  | nil => intro _ _; rfl
  | cons x xs ih =>
    intro hx hl
    rw [List.foldl_cons]
    show List.foldl _ (addEdge mem (mapL nm l) (x.1, setA nm x.2)) (mapR nm xs) = _
    rw [mapL_addEdge H (hx x (by simp)) hl]
    exact ih _ (fun y hy => hx y (by simp [hy])) (hl.addEdge x)

/-! ## Cutting the edges -/

theorem mapE_filter (f : Nat → Bool) (m : EndMap) :
    (mapE nm m).filter (fun kv => f kv.1) = mapE nm (m.filter fun kv => f kv.1) := by
  rw [mapE, mapE, List.filter_map]
  rfl

theorem foldl_union_setA (g : EndMap) (s : List Nat) :
    (mapE nm g).foldl (fun s kv => OSet.union s kv.2) (setA nm s) = setA nm (g.foldl (fun s kv => OSet.union s kv.2) s) := by
  induction g generalizing s with
  | nil => rfl
  | cons x g ih =>
    rw [List.foldl_cons, ← ih, setA_union]
    rfl

theorem foldl_entry_mapE (g : EndMap) (m : EndMap) :
    (mapE nm g).foldl (fun m kv => entry kv.1 [] (fun s => OSet.union s kv.2) m) (mapE nm m) =
      mapE nm (g.foldl (fun m kv => entry kv.1 [] (fun s => OSet.union s kv.2) m) m) := by
  induction g generalizing m with
  | nil => rfl
  | cons x g ih =>
    rw [List.foldl_cons, ← ih, mapE_entry]
    rfl

theorem named_alignFrom (cur : Nat × EndMap) (l : List (Nat × EndMap)) :
    alignFrom (cur.1, mapE nm cur.2) (mapL nm l) = mapL nm (alignFrom cur l) := by
  induction l generalizing cur with
  | nil => rfl
  | cons x l ih =>
    obtain ⟨upper, m2⟩ := x
    have e0 : mapL nm ((upper, m2) :: l) = (upper, mapE nm m2) :: mapL nm l := rfl
    rw [e0]
    simp only [alignFrom]
    rw [mapE_filter (fun k => decide (upper < k)), mapE_filter (fun k => !decide (upper < k))]
    have e1 : (mapE nm (cur.2.filter fun kv => decide (upper < kv.1))).isEmpty =
        (cur.2.filter fun kv => decide (upper < kv.1)).isEmpty := by
      rw [mapE, List.isEmpty_map]
    rw [e1]
    split
    · rw [ih (upper, m2)]; rfl
    · rw [foldl_entry_mapE]
      have e2 := foldl_union_setA (nm := nm) (cur.2.filter fun kv => decide (upper < kv.1)) []
      have e3 : setA nm [] = [] := rfl
      rw [e3] at e2
      rw [e2, ← mapE_entry, ih (upper, _)]
      rfl

theorem named_align (l : List (Nat × EndMap)) : align (mapL nm l) = mapL nm (align l) := by
  cases l with
  | nil => rfl
  | cons x l => exact named_alignFrom x l

theorem named_splitOne (b : Nat) (m : EndMap) :
    splitOne b (mapE nm m) = (mapR nm (splitOne b m).1, setA nm (splitOne b m).2) := by
  induction m generalizing b with
  | nil => rfl
  | cons x m ih =>
    obtain ⟨e, t⟩ := x
    show splitOne b ((e, setA nm t) :: mapE nm m) = _
    simp only [splitOne]
    rw [ih e]
    simp only [mapR, List.map_cons, setA_union]
    rfl

theorem named_split (l : List (Nat × EndMap)) : split (mapL nm l) = mapR nm (split l) := by
  induction l with
  | nil => rfl
  | cons x l ih =>
    obtain ⟨b, m⟩ := x
    show split ((b, mapE nm m) :: mapL nm l) = mapR nm (split ((b, m) :: l))
    simp only [split, List.flatMap_cons] at ih ⊢
    rw [ih, named_splitOne]
    simp [mapR]

theorem named_outRanges (H : Named ns mem nm) {s : List Nat} (hs : SetOk ns.length s) :
    outRanges mem (setA nm s) = mapR nm (outRanges ns s) := by
  rw [outRanges, named_collectNext H hs, named_align, named_split]
  rfl

/-! ## The sets stay in range -/

/-- All sets of an end map are sets of existing positions. -/
def MapIn (n : Nat) (m : EndMap) : Prop := ∀ e t, (e, t) ∈ m → SetOk n t

theorem MapIn.entry {n : Nat} {m : EndMap} (h : MapIn n m) {k : Nat} {t : List Nat} (ht : ∀ q ∈ t, q < n) :
    MapIn n (entry k [] (fun s => OSet.union s t) m) :=
  entry_all (P := fun _ t => SetOk n t) h (SetOk.nil.union ht) (fun _ hx => hx.union ht)

def ListIn (n : Nat) (l : List (Nat × EndMap)) : Prop := ∀ b m, (b, m) ∈ l → MapIn n m

theorem flatMap_closure_lt (H : Named ns mem nm) {t : List Nat} (ht : ∀ q ∈ t, q < ns.length) :
    ∀ q ∈ t.flatMap (closure ns), q < ns.length := by
  intro q hq
  obtain ⟨p, hp, hq⟩ := List.mem_flatMap.1 hq
  exact (closure_ok H (ht p hp)).lt q hq

theorem collectNext_in (H : Named ns mem nm) (s : List Nat) : ListIn ns.length (collectNext ns s) := by
  rw [collectNext_flat]
  have hx : ∀ x ∈ s.flatMap (nextOf ns), ∀ q ∈ x.2, q < ns.length := by
    intro x hx
    obtain ⟨p, _, hp⟩ := List.mem_flatMap.1 hx
    exact nextOf_lt H hp
  have hl : ListIn ns.length ([] : List (Nat × EndMap)) := by intro b m h; simp at h
  revert hl hx
  generalize ([] : List (Nat × EndMap)) = l
  generalize s.flatMap (nextOf ns) = xs
  induction xs generalizing l with
  | nil => intro _ hl; exact hl
  | cons x xs ih =>
    intro hx hl
    rw [List.foldl_cons]
    refine ih _ (fun y hy => hx y (by simp [hy])) ?_
    have ht := flatMap_closure_lt H (hx x (by simp))
    exact entry_all (P := fun _ m => MapIn ns.length m) hl
      (MapIn.entry (m := []) (fun e t h => by simp at h) ht) (fun m hm => MapIn.entry hm ht)

theorem foldl_union_in {n : Nat} {g : EndMap} (hg : MapIn n g) {s : List Nat} (hs : SetOk n s) :
    SetOk n (g.foldl (fun s kv => OSet.union s kv.2) s) := by
  induction g generalizing s with
  | nil => exact hs
  | cons x g ih =>
    exact ih (fun e t h => hg e t (by simp [h])) (hs.union (hg x.1 x.2 (by simp)).lt)

theorem foldl_entry_in {n : Nat} {g : EndMap} (hg : MapIn n g) {m : EndMap} (hm : MapIn n m) :
    MapIn n (g.foldl (fun m kv => entry kv.1 [] (fun s => OSet.union s kv.2) m) m) := by
  induction g generalizing m with
  | nil => exact hm
  | cons x g ih =>
    exact ih (fun e t h => hg e t (by simp [h])) (MapIn.entry hm (hg x.1 x.2 (by simp)).lt)

theorem alignFrom_in {n : Nat} (cur : Nat × EndMap) (hc : MapIn n cur.2) (l : List (Nat × EndMap)) (hl : ListIn n l) :
    ListIn n (alignFrom cur l) := by
  induction l generalizing cur with
  | nil =>
    intro b m h
    simp only [alignFrom, List.mem_cons, List.not_mem_nil, or_false] at h
    subst h; exact hc
  | cons x l ih =>
    obtain ⟨upper, m2⟩ := x
    have hm2 : MapIn n m2 := hl upper m2 (by simp)
    have hl' : ListIn n l := fun b m h => hl b m (by simp [h])
    simp only [alignFrom]
    split
    · intro b m h
      rcases List.mem_cons.1 h with h | h
      · subst h; exact hc
      · exact ih (upper, m2) hm2 hl' b m h
    · intro b m h
      have hg : MapIn n (cur.2.filter fun kv => decide (upper < kv.1)) := fun e t h => hc e t (List.mem_filter.1 h).1
      rcases List.mem_cons.1 h with h | h
      · cases h
        exact MapIn.entry (fun e t h => hc e t (List.mem_filter.1 h).1) (foldl_union_in hg SetOk.nil).lt
      · exact ih (upper, _) (foldl_entry_in hg hm2) hl' b m h

theorem splitOne_in {n : Nat} {m : EndMap} (hm : MapIn n m) (b : Nat) :
    (∀ x ∈ (splitOne b m).1, SetOk n x.2) ∧ SetOk n (splitOne b m).2 := by
  induction m generalizing b with
  | nil => exact ⟨by simp [splitOne], SetOk.nil⟩
  | cons x m ih =>
    obtain ⟨e, t⟩ := x
    obtain ⟨h1, h2⟩ := ih (fun e t h => hm e t (by simp [h])) e
    have h3 := h2.union (hm e t (by simp)).lt
    refine ⟨?_, h3⟩
    intro x hx
    simp only [splitOne] at hx
    rcases List.mem_cons.1 hx with rfl | hx
    · exact SetOk.nil.union h3.lt
    · exact h1 x hx

theorem outRanges_in (H : Named ns mem nm) (s : List Nat) : ∀ x ∈ outRanges ns s, SetOk ns.length x.2 := by
  intro x hx
  obtain ⟨y, hy, hx⟩ := List.mem_flatMap.1 hx
  have hc := collectNext_in H s
  have ha : ListIn ns.length (align (collectNext ns s)) := by
    revert hc
    cases collectNext ns s with
    | nil => intro h; exact h
    | cons z l => intro h; exact alignFrom_in z (h z.1 z.2 (by simp)) l (fun b m hm => h b m (by simp [hm]))
  exact (splitOne_in (ha y.1 y.2 hy) y.1).1 x hx

/-! ## The subset construction -/

/-- A state of the construction with addresses. -/
def Sub.named (nm : Nat → Addr) (st : Sub) : Sub :=
  { st with sets := st.sets.map (setA nm), queue := st.queue.map (setA nm) }

structure SubOk (n : Nat) (st : Sub) : Prop where
  sets : ∀ s ∈ st.sets, SetOk n s
  queue : ∀ s ∈ st.queue, SetOk n s

theorem idxOf_map_inj {α β : Type} [BEq α] [LawfulBEq α] [BEq β] [LawfulBEq β] {f : α → β} {l : List α} {a : α}
    (h : ∀ b ∈ l, f b = f a → b = a) : (l.map f).idxOf (f a) = l.idxOf a := by
  induction l with
  | nil => rfl
  | cons b l ih =>
    rw [List.map_cons, List.idxOf_cons, List.idxOf_cons, ih (fun c hc => h c (by simp [hc]))]
    by_cases hb : b = a
    · subst hb; simp
    · have : ¬ f b = f a := fun hc => hb (h b (by simp) hc)
      rw [beq_false_of_ne hb, beq_false_of_ne this]

theorem named_find (H : Named ns mem nm) {st : Sub} (hst : SubOk ns.length st) {s : List Nat} (hs : SetOk ns.length s) :
    (st.named nm).find (setA nm s) = st.find s :=
  idxOf_map_inj fun b hb hc => setA_inj H (hst.sets b hb) hs hc

theorem named_mem (H : Named ns mem nm) {st : Sub} (hst : SubOk ns.length st) {s : List Nat} (hs : SetOk ns.length s) :
    setA nm s ∈ (st.named nm).sets ↔ s ∈ st.sets := by
  simp only [Sub.named, List.mem_map]
  constructor
  · rintro ⟨b, hb, hc⟩
    exact setA_inj H (hst.sets b hb) hs hc ▸ hb
  · intro h; exact ⟨s, h, rfl⟩

theorem subEdge_ok {n cur : Nat} {st : Sub} (hst : SubOk n st) {x : (Nat × Nat) × List Nat} (hx : SetOk n x.2) :
    SubOk n (subEdge cur st x) := by
  obtain ⟨r, s⟩ := x
  simp only [subEdge]
  split
  · exact ⟨hst.sets, fun t ht => (List.mem_append.1 ht).elim (hst.queue t) (fun h => by simp at h; subst h; exact hx)⟩
  · exact ⟨fun t ht => (List.mem_append.1 ht).elim (hst.sets t) (fun h => by simp at h; subst h; exact hx),
      fun t ht => (List.mem_append.1 ht).elim (hst.queue t) (fun h => by simp at h; subst h; exact hx)⟩

theorem named_subEdge (H : Named ns mem nm) {cur : Nat} {st : Sub} (hst : SubOk ns.length st) {x : (Nat × Nat) × List Nat}
    (hx : SetOk ns.length x.2) : subEdge cur (st.named nm) (x.1, setA nm x.2) = (subEdge cur st x).named nm := by
  obtain ⟨r, s⟩ := x
  simp only at hx
  simp only [subEdge]
  by_cases h : s ∈ st.sets
  · rw [if_pos h, if_pos ((named_mem H hst hx).2 h), named_find H hst hx]
    simp [Sub.named]
  · rw [if_neg h, if_neg (fun hc => h ((named_mem H hst hx).1 hc))]
    have hok : SubOk ns.length { st with sets := st.sets ++ [s], rows := st.rows ++ [[]] } :=
      ⟨fun t ht => (List.mem_append.1 ht).elim (hst.sets t) (fun h => by simp at h; subst h; exact hx), hst.queue⟩
    have e := named_find H hok hx
    have e2 : ({ st with sets := st.sets ++ [s], rows := st.rows ++ [[]] } : Sub).named nm =
        { (st.named nm) with sets := (st.named nm).sets ++ [setA nm s], rows := (st.named nm).rows ++ [[]] } := by
      simp [Sub.named]
    rw [e2] at e
    rw [e]
    simp [Sub.named]

theorem named_edges (H : Named ns mem nm) {cur : Nat} (xs : List ((Nat × Nat) × List Nat)) (hx : ∀ x ∈ xs, SetOk ns.length x.2)
    {st : Sub} (hst : SubOk ns.length st) :
    (mapR nm xs).foldl (subEdge cur) (st.named nm) = (xs.foldl (subEdge cur) st).named nm ∧
      SubOk ns.length (xs.foldl (subEdge cur) st) := by
  induction xs generalizing st with
  | nil => exact ⟨rfl, hst⟩
  | cons x xs ih =>
    have h1 := ih (fun y hy => hx y (by simp [hy])) (subEdge_ok (cur := cur) hst (hx x (by simp)))
    refine ⟨?_, h1.2⟩
    rw [List.foldl_cons, ← h1.1, ← named_subEdge H hst (hx x (by simp))]
    rfl

theorem named_subLoop (H : Named ns mem nm) (f : Nat) {st : Sub} (hst : SubOk ns.length st) :
    subLoop mem f (st.named nm) = (subLoop ns f st).map (Sub.named nm) ∧
      ∀ r, subLoop ns f st = some r → SubOk ns.length r := by
  induction f generalizing st with
  | zero =>
    simp only [subLoop]
    have : (st.named nm).queue.isEmpty = st.queue.isEmpty := by simp [Sub.named]
    rw [this]
    split
    · exact ⟨rfl, fun r hr => by cases hr; exact hst⟩
    · exact ⟨rfl, fun r hr => by cases hr⟩
  | succ f ih =>
    obtain ⟨rows, sets, queue, proc⟩ := st
    cases queue with
    | nil => exact ⟨rfl, fun r hr => by cases hr; exact hst⟩
    | cons cur q =>
      have hcur : SetOk ns.length cur := hst.queue cur (by simp)
      have hst' : SubOk ns.length ⟨rows, sets, q, proc⟩ := ⟨hst.sets, fun s hs => hst.queue s (by simp [hs])⟩
      have hfind : (Sub.named nm ⟨rows, sets, cur :: q, proc⟩).find (setA nm cur) = Sub.find ⟨rows, sets, cur :: q, proc⟩ cur :=
        named_find H hst hcur
      have e1 : subLoop mem (f + 1) (Sub.named nm ⟨rows, sets, cur :: q, proc⟩) =
          if Sub.find ⟨rows, sets, cur :: q, proc⟩ cur ∈ proc then subLoop mem f (Sub.named nm ⟨rows, sets, q, proc⟩)
          else subLoop mem f ((outRanges mem (setA nm cur)).foldl (subEdge (Sub.find ⟨rows, sets, cur :: q, proc⟩ cur))
            (Sub.named nm ⟨rows, sets, q, Sub.find ⟨rows, sets, cur :: q, proc⟩ cur :: proc⟩)) := by
        rw [← hfind]; rfl
      have e2 : subLoop ns (f + 1) ⟨rows, sets, cur :: q, proc⟩ =
          if Sub.find ⟨rows, sets, cur :: q, proc⟩ cur ∈ proc then subLoop ns f ⟨rows, sets, q, proc⟩
          else subLoop ns f ((outRanges ns cur).foldl (subEdge (Sub.find ⟨rows, sets, cur :: q, proc⟩ cur))
            ⟨rows, sets, q, Sub.find ⟨rows, sets, cur :: q, proc⟩ cur :: proc⟩) := rfl
      rw [e1, e2]
      split
      · exact ih hst'
      · have := named_edges H (cur := Sub.find ⟨rows, sets, cur :: q, proc⟩ cur) (outRanges ns cur) (outRanges_in H cur)
          (st := ⟨rows, sets, q, Sub.find ⟨rows, sets, cur :: q, proc⟩ cur :: proc⟩) ⟨hst'.sets, hst'.queue⟩
        rw [named_outRanges H hcur, this.1]
        exact ih this.2

theorem named_markEnds (H : Named ns mem nm) {ends : List Nat} (he : ∀ e ∈ ends, e < ns.length) {s : List Nat}
    (hs : SetOk ns.length s) : markEnds (ends.map nm) (setA nm s) = markEnds ends s := by
  unfold markEnds
  have hz : (ends.map nm).zipIdx.reverse = ends.zipIdx.reverse.map fun x => (nm x.1, x.2) := by
    rw [List.zipIdx_map, ← List.map_reverse]
    rfl
  rw [hz]
  have hm : ∀ x ∈ ends.zipIdx.reverse, x.1 < ns.length := by
    intro x hx
    obtain ⟨a, i⟩ := x
    have := List.mem_zipIdx_iff_getElem?.1 (List.mem_reverse.1 hx)
    exact he a (List.mem_of_getElem? this)
  revert hm
  generalize ends.zipIdx.reverse = l
  generalize ((none, []) : Option Nat × List (Nat × Nat)) = acc
  induction l generalizing acc with
  | nil => intro _; rfl
  | cons x l ih =>
    intro hm
    rw [List.map_cons, List.foldl_cons, List.foldl_cons]
    simp only [mem_setA_iff H hs.lt (hm x (by simp))]
    exact ih _ fun y hy => hm y (by simp [hy])

/-- The automaton in memory is determinised to the very same tables, with the same warnings in some order. -/
theorem named_fromNfa {t : TNFA} (H : Named t.node mem nm) (hb : t.b < t.node.length) (he : ∀ e ∈ t.ends, e < t.node.length)
    (fuel : Nat) {ord ord' : List (List Nat) → List (List Nat)} (ho : ∀ l, (ord l).Perm l) (ho' : ∀ l, (ord' l).Perm l) :
    (fromNfa fuel ord ⟨mem, nm t.b, t.ends.map nm⟩ = none ∧ fromNfa fuel ord' t = none) ∨
      ∃ d ws ws', fromNfa fuel ord ⟨mem, nm t.b, t.ends.map nm⟩ = some (d, ws) ∧ fromNfa fuel ord' t = some (d, ws') ∧
        ws.Perm ws' := by
  have h0 : SubOk t.node.length ⟨[[]], [closure t.node t.b], [closure t.node t.b], []⟩ :=
    ⟨fun s hs => by simp at hs; subst hs; exact closure_ok H hb, fun s hs => by simp at hs; subst hs; exact closure_ok H hb⟩
  have e0 : (⟨[[]], [closure mem (nm t.b)], [closure mem (nm t.b)], []⟩ : Sub) =
      Sub.named nm ⟨[[]], [closure t.node t.b], [closure t.node t.b], []⟩ := by
    rw [named_closure H hb]; rfl
  obtain ⟨h1, h2⟩ := named_subLoop H fuel h0
  rw [← e0] at h1
  simp only [fromNfa]
  rw [h1]
  cases hr : subLoop t.node fuel ⟨[[]], [closure t.node t.b], [closure t.node t.b], []⟩ with
  | none => exact Or.inl ⟨rfl, rfl⟩
  | some r =>
    right
    have hok := h2 r hr
    have hmk : ∀ s ∈ r.sets, markEnds (t.ends.map nm) (setA nm s) = markEnds t.ends s :=
      fun s hs => named_markEnds H he (hok.sets s hs)
    refine ⟨⟨r.rows, 0, r.sets.map fun s => (markEnds t.ends s).1⟩,
      (ord (r.sets.map (setA nm))).flatMap fun s => (markEnds (t.ends.map nm) s).2, _, ?_, rfl, ?_⟩
    · simp only [Option.map_some, Option.some.injEq, Prod.mk.injEq, DFA.mk.injEq, true_and]
      refine ⟨⟨rfl, ?_⟩, rfl⟩
      simp only [Sub.named, List.map_map]
      exact List.map_congr_left fun s hs => by simp only [Function.comp]; rw [hmk s hs]
    · have p1 := (ho (r.sets.map (setA nm))).flatMap_right (fun s => (markEnds (t.ends.map nm) s).2)
      have p2 := (ho' r.sets).flatMap_right (fun s => (markEnds t.ends s).2)
      refine p1.trans (List.Perm.trans (List.Perm.of_eq ?_) p2.symm)
      have : ∀ l : List (List Nat), (∀ s ∈ l, markEnds (t.ends.map nm) (setA nm s) = markEnds t.ends s) →
          (l.map (setA nm)).flatMap (fun s => (markEnds (t.ends.map nm) s).2) = l.flatMap fun s => (markEnds t.ends s).2 := by
        intro l hl
        induction l with
        | nil => rfl
        | cons s l ih =>
          rw [List.map_cons, List.flatMap_cons, List.flatMap_cons, hl s (by simp), ih (fun u hu => hl u (by simp [hu]))]
      exact this r.sets hmk

end

end Verif.Tok
