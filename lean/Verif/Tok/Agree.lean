import Verif.Props.TokSize

/-!
# Lemmas for C101: finite automata that agree on short words
-/

namespace Verif.Tok.Agree

variable {S O : Type} (δ : S → Nat → S) (out : S → O) (P : Nat → Prop)

/-- The states show the same for all words of length at most `k`. -/
def Sim (k : Nat) (x y : S) : Prop := ∀ w : List Nat, w.length ≤ k → (∀ c ∈ w, P c) → out (w.foldl δ x) = out (w.foldl δ y)

variable {δ out P}

theorem Sim.symm {k : Nat} {x y : S} (h : Sim δ out P k x y) : Sim δ out P k y x := fun w h1 h2 => (h w h1 h2).symm

theorem Sim.trans {k : Nat} {x y z : S} (h : Sim δ out P k x y) (h' : Sim δ out P k y z) : Sim δ out P k x z :=
  fun w h1 h2 => (h w h1 h2).trans (h' w h1 h2)

theorem Sim.mono {k j : Nat} {x y : S} (h : Sim δ out P k x y) (hj : j ≤ k) : Sim δ out P j x y := fun w h1 h2 => h w (by omega) h2

theorem Sim.step {k : Nat} {x y : S} (h : Sim δ out P (k + 1) x y) {c : Nat} (hc : P c) : Sim δ out P k (δ x c) (δ y c) :=
  fun w h1 h2 => h (c :: w) (by simpa using h1) (by simpa [hc] using h2)

/-- Nothing new is seen with words that are longer by one. -/
def Stable (δ : S → Nat → S) (out : S → O) (P : Nat → Prop) (Q : S → Prop) (k : Nat) : Prop :=
  ∀ x y, Q x → Q y → Sim δ out P k x y → Sim δ out P (k + 1) x y

theorem Stable.all {Q : S → Prop} (hQ : ∀ x c, Q x → P c → Q (δ x c)) {k : Nat} (h : Stable δ out P Q k) :
    ∀ n x y, Q x → Q y → Sim δ out P k x y → Sim δ out P n x y := by
  intro n
  induction n with
  | zero => intro x y _ _ hs; exact hs.mono (Nat.zero_le _)
  | succ n ih =>
    intro x y hx hy hs w h1 h2
    cases w with
    | nil => exact hs [] (by simp) (by simp)
    | cons c w =>
      have hc := h2 c (by simp)
      exact ih _ _ (hQ x c hx hc) (hQ y c hy hc) ((h x y hx hy hs).step hc) w (by simpa using h1) fun c' hc' => h2 c' (by simp [hc'])

theorem stable_or {Q : S → Prop} (hQ : ∀ x c, Q x → P c → Q (δ x c)) (k : Nat) : (∃ j, j ≤ k - 1 ∧ Stable δ out P Q j) ∨
    ∃ L : List S, L.length = k + 2 ∧ (∀ x ∈ L, Q x) ∧ L.Pairwise fun x y => ¬ Sim δ out P k x y := by
  induction k with
  | zero =>
    by_cases h : ∃ x y, Q x ∧ Q y ∧ ¬ Sim δ out P 0 x y
    · obtain ⟨x, y, h1, h2, h3⟩ := h
      exact .inr ⟨[x, y], rfl, by simp [h1, h2], by simp [h3]⟩
    · refine .inl ⟨0, Nat.le_refl _, ?_⟩
      have hall : ∀ x y, Q x → Q y → Sim δ out P 0 x y := fun x y h1 h2 => Classical.byContradiction fun h3 => h ⟨x, y, h1, h2, h3⟩
      intro x y hx hy hs w h1 h2
      cases w with
      | nil => exact hs [] (by simp) (by simp)
      | cons c w =>
        have hc := h2 c (by simp)
        exact hall _ _ (hQ x c hx hc) (hQ y c hy hc) w (by simpa using h1) fun c' hc' => h2 c' (by simp [hc'])
  | succ k ih =>
    rcases ih with ⟨j, h1, h2⟩ | ⟨L, h1, h2, h3⟩
    · exact .inl ⟨j, by omega, h2⟩
    by_cases hst : Stable δ out P Q k
    · exact .inl ⟨k, by omega, hst⟩
    right
    obtain ⟨x, y, hx, hy, hxy, hn⟩ : ∃ x y, Q x ∧ Q y ∧ Sim δ out P k x y ∧ ¬ Sim δ out P (k + 1) x y := by
      apply Classical.byContradiction
      intro h
      exact hst fun x y hx hy hs => Classical.byContradiction fun hn => h ⟨x, y, hx, hy, hs, hn⟩
    have up : ∀ {u v : S}, ¬ Sim δ out P k u v → ¬ Sim δ out P (k + 1) u v := fun h h' => h (h'.mono (by omega))
    by_cases hz : ∃ z ∈ L, Sim δ out P k x z
    · obtain ⟨z, hzL, hxz⟩ := hz
      obtain ⟨pre, post, rfl⟩ := List.append_of_mem hzL
      have hsub : (pre ++ post).Sublist (pre ++ z :: post) := List.Sublist.append_left (List.sublist_cons_self _ _) _
      have hother : ∀ u ∈ pre ++ post, ¬ Sim δ out P k z u := by
        rw [List.pairwise_append, List.pairwise_cons] at h3
        intro u hu h
        rcases List.mem_append.1 hu with hu | hu
        · exact h3.2.2 u hu z (by simp) h.symm
        · exact h3.2.1.1 u hu h
      refine ⟨x :: y :: (pre ++ post), ?_, ?_, ?_⟩
      · simp only [List.length_append, List.length_cons] at h1 ⊢
        omega
      · intro u hu
        rcases List.mem_cons.1 hu with rfl | hu
        · exact hx
        · rcases List.mem_cons.1 hu with rfl | hu
          · exact hy
          · exact h2 u (hsub.subset hu)
      · rw [List.pairwise_cons, List.pairwise_cons]
        refine ⟨?_, ?_, (h3.sublist hsub).imp up⟩
        · intro u hu
          rcases List.mem_cons.1 hu with rfl | hu
          · exact hn
          · exact up fun h => hother u hu (hxz.symm.trans h)
        · intro u hu
          exact up fun h => hother u hu (hxz.symm.trans (hxy.trans h))
    · refine ⟨x :: L, by simp [h1], ?_, ?_⟩
      · intro u hu
        rcases List.mem_cons.1 hu with rfl | hu
        · exact hx
        · exact h2 u hu
      · rw [List.pairwise_cons]
        exact ⟨fun u hu => up fun h => hz ⟨u, hu, h⟩, h3.imp up⟩

/-- With `N` states, words of length at most `N - 2` tell all states apart that can be told apart. -/
theorem short {Q : S → Prop} (hQ : ∀ x c, Q x → P c → Q (δ x c)) {L : List S} (hL : ∀ x, Q x → x ∈ L) {x y : S} (hx : Q x) (hy : Q y)
    (h : Sim δ out P (L.length - 2) x y) : ∀ n, Sim δ out P n x y := by
  intro n
  rcases stable_or (out := out) hQ (L.length - 1) with ⟨j, h1, h2⟩ | ⟨L', h1, h2, h3⟩
  · exact h2.all hQ n x y hx hy (h.mono (by omega))
  · have hnd : L'.Nodup := by
      refine h3.imp ?_
      rintro a b hab rfl
      exact hab fun _ _ _ => rfl
    have := length_le_of_nodup_subset hnd fun a ha => hL a (h2 a ha)
    omega

/-! ## Two tables -/

variable (d e : DFA)

/-- Both tables side by side, with one state for being stuck. -/
def move : Option (Bool × Nat) → Nat → Option (Bool × Nat)
  | none, _ => none
  | some (false, i), c => (d.next i c).map (false, ·)
  | some (true, i), c => (e.next i c).map (true, ·)

def seen : Option (Bool × Nat) → Option (Option Nat)
  | none => none
  | some (false, i) => some (d.accept i)
  | some (true, i) => some (e.accept i)

variable {d e}

theorem move_none (w : List Nat) : w.foldl (move d e) none = none := by
  induction w with
  | nil => rfl
  | cons c w ih => exact ih

theorem move_left (w : List Nat) : ∀ i, w.foldl (move d e) (some (false, i)) = (d.run i w).map (false, ·) := by
  induction w with
  | nil => intro i; rfl
  | cons c w ih =>
    intro i
    simp only [List.foldl_cons, move, DFA.run]
    cases d.next i c with
    | none => exact move_none w
    | some m => exact ih m

theorem move_right (w : List Nat) : ∀ i, w.foldl (move d e) (some (true, i)) = (e.run i w).map (true, ·) := by
  induction w with
  | nil => intro i; rfl
  | cons c w ih =>
    intro i
    simp only [List.foldl_cons, move, DFA.run]
    cases e.next i c with
    | none => exact move_none w
    | some m => exact ih m

theorem seen_left (w : List Nat) : seen d e (w.foldl (move d e) (some (false, d.b))) = d.obs w := by
  rw [move_left]
  unfold DFA.obs
  cases d.run d.b w <;> rfl

theorem seen_right (w : List Nat) : seen d e (w.foldl (move d e) (some (true, e.b))) = e.obs w := by
  rw [move_right]
  unfold DFA.obs
  cases e.run e.b w <;> rfl

/-- Tables of which some part is seen. -/
theorem tables {p q : Nat} (hd : d.WF p) (he : e.WF q) {O : Type} (g : Option (Option Nat) → O)
    (h : ∀ w : List Nat, w.length < d.rows.length + e.rows.length → (∀ c ∈ w, P c) → g (d.obs w) = g (e.obs w)) :
    ∀ w : List Nat, (∀ c ∈ w, P c) → g (d.obs w) = g (e.obs w) := by
  let L : List (Option (Bool × Nat)) := none :: ((List.range d.rows.length).map (fun i => some (false, i)) ++
    (List.range e.rows.length).map fun i => some (true, i))
  have hlen : L.length = d.rows.length + e.rows.length + 1 := by simp [L]
  have hb := hd.b
  have hb' := he.b
  have key := short (δ := move d e) (out := fun x => g (seen d e x)) (P := P) (Q := fun x => x ∈ L) (L := L) (fun x c hx _ => ?_) (fun _ h => h)
    (x := some (false, d.b)) (y := some (true, e.b)) (by simp [L, hb]) (by simp [L, hb']) ?_
  · intro w hw
    have := key w.length w (Nat.le_refl _) hw
    simpa only [seen_left, seen_right] using this
  · rcases x with _ | ⟨_ | _, i⟩
    · simp [move, L]
    · cases hn : d.next i c with
      | none => simp [move, hn, L]
      | some m => simp [move, hn, L, next_lt hd hn]
    · cases hn : e.next i c with
      | none => simp [move, hn, L]
      | some m => simp [move, hn, L, next_lt he hn]
  · intro w h1 h2
    simp only [seen_left, seen_right]
    exact h w (by omega) h2

end Verif.Tok.Agree
