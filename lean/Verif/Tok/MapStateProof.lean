import Verif.Tok.MapState
import Verif.Tok.IterProof

/-!
# Helper lemmas: one call with a stateful closure is a call on items paired with the answers
-/

namespace Verif.Tok

variable {α E μ : Type} {d : DFA} {m : Closure μ α}

/-- The items with the answers. -/
def marked (m : Closure μ α) (mem : μ) : List α → List (α × Nat)
  | [] => []
  | x :: l => (x, (m mem x).1) :: marked m (m mem x).2 l

theorem marked_fst (mem : μ) (l : List α) : (marked m mem l).map Prod.fst = l := by
  induction l generalizing mem with
  | nil => rfl
  | cons x l ih => simp [marked, ih]

theorem marked_snd (mem : μ) (l : List α) : (marked m mem l).map Prod.snd = letters m mem l := by
  induction l generalizing mem with
  | nil => rfl
  | cons x l ih => simp [marked, letters, ih]

theorem marked_append (mem : μ) (l l' : List α) : marked m mem (l ++ l') = marked m mem l ++ marked m (memory m mem l) l' := by
  induction l generalizing mem with
  | nil => rfl
  | cons x l ih => simp [marked, memory, ih]

theorem memory_append (mem : μ) (l l' : List α) : memory m mem (l ++ l') = memory m (memory m mem l) l' := by
  induction l generalizing mem with
  | nil => rfl
  | cons x l ih => simp [memory, ih]

theorem letters_length (mem : μ) (l : List α) : (letters m mem l).length = l.length := by
  rw [← marked_snd, List.length_map, ← List.length_map (f := Prod.fst), marked_fst]

theorem letters_append (mem : μ) (l l' : List α) : letters m mem (l ++ l') = letters m mem l ++ letters m (memory m mem l) l' := by
  rw [← marked_snd, marked_append, List.map_append, marked_snd, marked_snd]

theorem letters_take (mem : μ) (l : List α) (n : Nat) : (letters m mem l).take n = letters m mem (l.take n) := by
  induction l generalizing mem n with
  | nil => simp [letters]
  | cons x l ih => cases n <;> simp [letters, ih]

theorem marked_length (mem : μ) (l : List α) : (marked m mem l).length = l.length := by
  rw [← List.length_map (f := Prod.fst), marked_fst]

/-- Loop variables without the answers. -/
def Scan.strip (s : Scan (α × Nat)) : Scan α :=
  { node := s.node, pat := s.pat, len := s.len, i := s.i, items := s.items.map Prod.fst, chars := s.chars }

theorem scanItem_strip (s : Scan (α × Nat)) (x : α) (c : Nat) :
    scanItem d (fun _ => c) s.strip x = (scanItem d Prod.snd s (x, c)).map fun (b, s) => (b, s.strip) := by
  unfold scanItem Scan.strip
  simp only
  split
  · rfl
  · split
    · simp
    · split <;> simp

theorem scanItem_items {s s' : Scan α} {map : α → Nat} {x : α} {b : Bool} (h : scanItem d map s x = some (b, s')) :
    s'.items = s.items ++ [x] := by
  unfold scanItem at h
  simp only at h
  split at h
  · cases h
  · split at h
    · cases h; rfl
    · split at h <;> · cases h; rfl

theorem scanSrcM_marked (mem0 : μ) : ∀ (src : List α) (s : Scan (α × Nat)),
    scanSrcM d m s.strip (memory m mem0 (s.items.map Prod.fst)) src =
      (scanSrc d Prod.snd s (marked m (memory m mem0 (s.items.map Prod.fst)) src)).map fun (s, it) =>
        (s.strip, ⟨it.queue.map Prod.fst, it.src.map Prod.fst, memory m mem0 (s.items.map Prod.fst)⟩) := by
  intro src
  induction src with
  | nil => intro s; rfl
  | cons x l ih =>
    intro s
    unfold scanSrcM scanItemM
    simp only [marked, scanSrc, scanItem_strip]
    cases h : scanItem d Prod.snd s (x, (m (memory m mem0 (s.items.map Prod.fst)) x).1) with
    | none => rfl
    | some r =>
      obtain ⟨b, s'⟩ := r
      have hi : memory m mem0 (s'.items.map Prod.fst) = (m (memory m mem0 (s.items.map Prod.fst)) x).2 := by
        rw [scanItem_items h, List.map_append, memory_append]; rfl
      cases b with
      | false =>
        simp only [Option.map_some, hi]
        simp [marked_fst]
      | true =>
        simp only [Option.map_some]
        rw [← hi]
        exact ih s'

theorem scanM_marked (mem0 : μ) : ∀ (q src : List α) (s : Scan (α × Nat)),
    scanM d m s.strip (memory m mem0 (s.items.map Prod.fst)) q src =
      (scan d Prod.snd s (marked m (memory m mem0 (s.items.map Prod.fst)) q)
        (marked m (memory m (memory m mem0 (s.items.map Prod.fst)) q) src)).map fun (s, it) =>
        (s.strip, ⟨it.queue.map Prod.fst, it.src.map Prod.fst, memory m mem0 (s.items.map Prod.fst)⟩) := by
  intro q
  induction q with
  | nil => intro src s; exact scanSrcM_marked mem0 src s
  | cons x l ih =>
    intro src s
    unfold scanM scanItemM
    simp only [marked, scan, scanItem_strip]
    cases h : scanItem d Prod.snd s (x, (m (memory m mem0 (s.items.map Prod.fst)) x).1) with
    | none => rfl
    | some r =>
      obtain ⟨b, s'⟩ := r
      have hi : memory m mem0 (s'.items.map Prod.fst) = (m (memory m mem0 (s.items.map Prod.fst)) x).2 := by
        rw [scanItem_items h, List.map_append, memory_append]; rfl
      cases b with
      | false =>
        simp only [Option.map_some, hi]
        simp [marked_fst]
      | true =>
        simp only [Option.map_some]
        have := ih src s'
        rw [hi] at this
        exact this

theorem putBack_map {β : Type} (f : α → β) (n : Nat) : ∀ (l q : List α),
    putBack n (l.map f) (q.map f) = ((putBack n l q).1.map f, (putBack n l q).2.map f)
  | [], q => rfl
  | x :: l, q => by
    simp only [List.map_cons, putBack]
    have : (f x :: l.map f).length = (x :: l).length := by simp
    rw [this]
    split
    · have := putBack_map f n l (x :: q)
      rw [List.map_cons] at this
      exact this
    · simp

/-- The tokenizer on items with answers. -/
def Tokenizer.onMarked (t : Tokenizer α E) : Tokenizer (α × Nat) E :=
  ⟨t.dfa, t.maker.map fun f w items => f w (items.map Prod.fst)⟩

theorem readLen_unique {d : DFA} {w : List Nat} {r r' : Nat} (h : ReadLen d w r) (h' : ReadLen d w r') : r = r' := by
  obtain ⟨a1, a2, a3⟩ := h
  obtain ⟨b1, b2, b3⟩ := h'
  rcases Nat.lt_trichotomy r r' with hl | hl | hl
  · rcases a3 with a3 | a3
    · omega
    · exact absurd a3 (b2 r hl)
  · exact hl
  · rcases b3 with b3 | b3
    · omega
    · exact absurd b3 (a2 r' hl)

/-- Complete description of one call of `next` with a stateful closure. -/
theorem nextM_spec {t : Tokenizer α E} (hd : t.dfa.WF t.maker.length) (it : ItM μ α) :
    ∃ r, ReadLen t.dfa (letters m it.mem (it.queue ++ it.src)) r ∧
      (t.nextM m it).2.mem = memory m it.mem ((it.queue ++ it.src).take r) ∧
      (t.nextM m it).2.src = it.src.drop (r - it.queue.length) ∧
      (((t.nextM m it).1 = .none ∧ (t.nextM m it).2.queue = it.queue.drop r ∧
          ∀ n, ∀ j, ¬ t.dfa.Acc j ((letters m it.mem (it.queue ++ it.src)).take n)) ∨
       (∃ n k f, n ≤ r ∧ t.maker[k]? = some f ∧ t.dfa.Acc k ((letters m it.mem (it.queue ++ it.src)).take n) ∧
          (∀ j, n < j → j ≤ (it.queue ++ it.src).length → ∀ i, ¬ t.dfa.Acc i ((letters m it.mem (it.queue ++ it.src)).take j)) ∧
          (t.nextM m it).1 = .token (f ((letters m it.mem (it.queue ++ it.src)).take n) ((it.queue ++ it.src).take n)) ∧
          (t.nextM m it).2.queue ++ (t.nextM m it).2.src = (it.queue ++ it.src).drop n)) := by
  obtain ⟨q, src, mem⟩ := it
  simp only
  have hd' : t.onMarked.dfa.WF t.onMarked.maker.length := by simpa [Tokenizer.onMarked] using hd
  have hq : marked m mem q ++ marked m (memory m mem q) src = marked m mem (q ++ src) := (marked_append _ _ _).symm
  obtain ⟨r, h1, h2, h3⟩ := next_spec (t := t.onMarked) (map := Prod.snd) hd' ⟨marked m mem q, marked m (memory m mem q) src⟩
  simp only [hq, marked_snd, marked_length] at h1 h2 h3
  have hinit : ScanInv t.dfa (Prod.snd : α × Nat → Nat) [] { node := t.dfa.b, pat := t.dfa.accept t.dfa.b, len := 0, i := 0, items := [], chars := [] } := by
    refine ⟨rfl, rfl, rfl, rfl, ?_⟩
    have h0 : t.dfa.obs [] = some (t.dfa.accept t.dfa.b) := rfl
    cases ha : t.dfa.accept t.dfa.b with
    | none =>
      refine ⟨rfl, ?_⟩
      intro m hm j hj
      simp [DFA.Acc, h0, ha] at hj
    | some k =>
      refine ⟨by simp, by simp [DFA.Acc, h0, ha], ?_⟩
      intro m hm hm'
      simp at hm'
      omega
  obtain ⟨s, r', k1, k2, k3, k4, k5⟩ := scan_spec hd (marked m mem q) (marked m (memory m mem q) src) [] _ hinit
  simp only [List.nil_append, hq, marked_length] at k2 k3 k4 k5
  have hr : r' = r := by
    refine readLen_unique (d := t.dfa) (w := letters m mem (q ++ src)) ⟨?_, ?_, ?_⟩ h1
    · rw [letters_length]; exact k2
    · intro n hn
      have := k4 n hn
      rwa [List.map_take, marked_snd] at this
    · rcases k5 with k5 | k5
      · left; rw [letters_length]; exact k5
      · right; rwa [List.map_take, marked_snd] at k5
  subst hr
  have hmem : memory m mem (s.items.map Prod.fst) = memory m mem ((q ++ src).take r') := by
    rw [k3.items, List.map_take, marked_fst]
  have hs : scanM t.dfa m { node := t.dfa.b, pat := t.dfa.accept t.dfa.b, len := 0, i := 0, items := [], chars := [] } mem q src = _ :=
    scanM_marked (d := t.dfa) (m := m) mem q src { node := t.dfa.b, pat := t.dfa.accept t.dfa.b, len := 0, i := 0, items := [], chars := [] }
  simp only [List.map_nil, memory, k1, Option.map_some, hmem] at hs
  have hnext : t.nextM m ⟨q, src, mem⟩ = ((t.onMarked.next Prod.snd ⟨marked m mem q, marked m (memory m mem q) src⟩).1,
      ⟨(t.onMarked.next Prod.snd ⟨marked m mem q, marked m (memory m mem q) src⟩).2.queue.map Prod.fst,
        (t.onMarked.next Prod.snd ⟨marked m mem q, marked m (memory m mem q) src⟩).2.src.map Prod.fst, memory m mem ((q ++ src).take r')⟩) := by
    unfold Tokenizer.nextM Tokenizer.next
    simp only [hs, Tokenizer.onMarked, k1, Scan.strip]
    cases hp : s.pat with
    | none => rfl
    | some k =>
      simp only [← List.map_reverse]
      simp only [putBack_map, List.getElem?_map]
      cases hk : t.maker[k]? with
      | none => rfl
      | some f => rfl
  rw [hnext]
  simp only
  refine ⟨r', h1, rfl, ?_, ?_⟩
  · rw [h2, List.map_drop, marked_fst]
  · rcases h3 with ⟨a1, a2, a3⟩ | ⟨n, k, f, b1, b2, b3, b4, b5, b6⟩
    · exact Or.inl ⟨a1, by rw [a2, List.map_drop, marked_fst], a3⟩
    · right
      simp only [Tokenizer.onMarked, List.getElem?_map, Option.map_eq_some_iff] at b2
      obtain ⟨f', hf, rfl⟩ := b2
      refine ⟨n, k, f', b1, hf, b3, b4, ?_, ?_⟩
      · rw [b5]; simp only [List.map_take, marked_fst]
      · rw [← List.map_append, b6, List.map_drop, marked_fst]

end Verif.Tok
