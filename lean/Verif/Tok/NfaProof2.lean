import Verif.Tok.NfaProof

/-! # Helper lemmas about NFA construction: copies, concatenation, alternation -/

namespace Verif.Tok

/-- Edges of a copy of `x` placed at `off`. -/
def CEps (off : Nat) (ms : List Node) (a b : Nat) : Prop := ∃ a' b', a = off + a' ∧ b = off + b' ∧ Eps ms a' b'
def CStp (off : Nat) (ms : List Node) (a c b : Nat) : Prop := ∃ a' b', a = off + a' ∧ b = off + b' ∧ Stp ms a' c b'

theorem copy_path {off ms p w q} (h : NPath ms p w q) : Path (CEps off ms) (CStp off ms) (off + p) w (off + q) :=
  h.map (off + ·) (fun a b h => ⟨a, b, rfl, rfl, h⟩) (fun a _ b h => ⟨a, b, rfl, rfl, h⟩)

theorem copy_path_inv {off ms p w q} (h : Path (CEps off ms) (CStp off ms) (off + p) w q) :
    ∃ q', q = off + q' ∧ NPath ms p w q' := by
  generalize ha : off + p = a at h
  induction h generalizing p with
  | nil => exact ⟨p, ha.symm, .nil _⟩
  | eps he _ ih =>
    obtain ⟨a', b', h1, h2, h3⟩ := he
    obtain ⟨q', hq, hp⟩ := ih h2.symm
    obtain rfl : p = a' := by omega
    exact ⟨q', hq, .eps h3 hp⟩
  | step hs _ ih =>
    obtain ⟨a', b', h1, h2, h3⟩ := hs
    obtain ⟨q', hq, hp⟩ := ih h2.symm
    obtain rfl : p = a' := by omega
    exact ⟨q', hq, .step h3 hp⟩

theorem copy_path_iff {off ms p w q} : Path (CEps off ms) (CStp off ms) (off + p) w (off + q) ↔ NPath ms p w q := by
  constructor
  · intro h
    obtain ⟨q', h1, h2⟩ := copy_path_inv h
    obtain rfl : q = q' := by omega
    exact h2
  · exact copy_path

theorem copy_path_lt {x : NFA} (hx : x.WF) {p w q} (hp : p < x.node.length) (h : NPath x.node p w q) :
    q < x.node.length := by
  induction h with
  | nil => exact hp
  | eps he _ ih => exact ih (hx.eps _ _ he)
  | step hs _ ih => exact ih (hx.stp _ _ _ hs)

/-- A copy of `x` linked behind `acc`; `ex` says whether there is also an edge to the final end `F`. -/
structure Link (acc x r : NFA) (F : Nat) (ex : Prop) : Prop where
  len : r.node.length = acc.node.length + x.node.length
  b : r.b = acc.b
  e : r.e = acc.node.length + x.e
  eps : ∀ a b, Eps r.node a b ↔ Eps acc.node a b ∨ CEps acc.node.length x.node a b ∨
    (a = acc.e ∧ b = acc.node.length + x.b) ∨ (ex ∧ a = acc.e ∧ b = F)
  stp : ∀ a c b, Stp r.node a c b ↔ Stp acc.node a c b ∨ CStp acc.node.length x.node a c b

/-- State of the loops: an automaton whose edges may already point to the future end `F`. -/
structure Open (acc : NFA) (F : Nat) : Prop where
  leF : acc.node.length ≤ F
  eps : ∀ p q, Eps acc.node p q → q < acc.node.length ∨ q = F
  stp : ∀ p c q, Stp acc.node p c q → q < acc.node.length
  b : acc.b < acc.node.length
  e : acc.e < acc.node.length

theorem linkCopy_link {x acc : NFA} (he : acc.e < acc.node.length) (F) : Link acc x (linkCopy x acc) F False where
  len := by simp [linkCopy]
  b := rfl
  e := rfl
  eps a b := by
    simp only [linkCopy, eps_addEps, eps_append, length_appendNodes, CEps, false_and, or_false]
    constructor
    · rintro ((h | h) | ⟨h1, h2, _⟩)
      · exact Or.inl h
      · exact Or.inr (Or.inl h)
      · exact Or.inr (Or.inr ⟨h1, h2⟩)
    · rintro (h | h | ⟨h1, h2⟩)
      · exact Or.inl (Or.inl h)
      · exact Or.inl (Or.inr h)
      · exact Or.inr ⟨h1, h2, by omega⟩
  stp a c b := by simp only [linkCopy, stp_addEps, stp_append, CStp]

theorem linkCopyExit_link {x acc : NFA} (he : acc.e < acc.node.length) (F) :
    Link acc x (linkCopyExit x F acc) F True where
  len := by simp [linkCopyExit]
  b := rfl
  e := rfl
  eps a b := by
    simp only [linkCopyExit, eps_addEps, eps_append, length_appendNodes, length_addEps, CEps, true_and]
    constructor
    · rintro (((h | h) | ⟨h1, h2, _⟩) | ⟨h1, h2, _⟩)
      · exact Or.inl h
      · exact Or.inr (Or.inl h)
      · exact Or.inr (Or.inr (Or.inl ⟨h1, h2⟩))
      · exact Or.inr (Or.inr (Or.inr ⟨h1, h2⟩))
    · rintro (h | h | ⟨h1, h2⟩ | ⟨h1, h2⟩)
      · exact Or.inl (Or.inl (Or.inl h))
      · exact Or.inl (Or.inl (Or.inr h))
      · exact Or.inl (Or.inr ⟨h1, h2, by omega⟩)
      · exact Or.inr ⟨h1, h2, by omega⟩
  stp a c b := by simp only [linkCopyExit, stp_addEps, stp_append, CStp]

section
variable {acc x r : NFA} {F : Nat} {ex : Prop}

theorem Link.path_iff (hl : Link acc x r F ex) (ho : Open acc F) {w q} (hq : acc.node.length ≤ q) :
    NPath r.node acc.b w q ↔ ∃ u v, w = u ++ v ∧
      ((NPath acc.node acc.b u acc.e ∧
          Path (CEps acc.node.length x.node) (CStp acc.node.length x.node) (acc.node.length + x.b) v q) ∨
       ((NPath acc.node acc.b u F ∨ (ex ∧ NPath acc.node acc.b u acc.e)) ∧
          Path (CEps acc.node.length x.node) (CStp acc.node.length x.node) F v q)) := by
  constructor
  · intro h
    have := h.cross (P := fun a => a < acc.node.length) (E1 := Eps acc.node) (S1 := Stp acc.node)
      (E2 := CEps acc.node.length x.node) (S2 := CStp acc.node.length x.node)
      (X := fun a b => (a = acc.e ∧ b = acc.node.length + x.b) ∨ (ex ∧ a = acc.e ∧ b = F) ∨ (Eps acc.node a F ∧ b = F))
      ?_ ?_ ?_ ?_ ho.b
    · rcases this with ⟨h1, _⟩ | ⟨_, u, v, a, y, rfl, h1, h2, h3⟩
      · omega
      · refine ⟨u, v, rfl, ?_⟩
        rcases h2 with ⟨rfl, rfl⟩ | ⟨hex, rfl, rfl⟩ | ⟨he, rfl⟩
        · exact Or.inl ⟨h1, h3⟩
        · exact Or.inr ⟨Or.inr ⟨hex, h1⟩, h3⟩
        · refine Or.inr ⟨Or.inl ?_, h3⟩
          have := Path.trans h1 (.single_eps he)
          simpa using this
    · intro a b ha he
      rcases (hl.eps a b).1 he with h | ⟨a', b', h1, h2, _⟩ | ⟨h1, h2⟩ | ⟨h0, h1, h2⟩
      · rcases ho.eps _ _ h with h' | rfl
        · exact Or.inl ⟨h, h'⟩
        · exact Or.inr ⟨Or.inr (Or.inr ⟨h, rfl⟩), by have := ho.leF; omega⟩
      · omega
      · exact Or.inr ⟨Or.inl ⟨h1, h2⟩, by omega⟩
      · exact Or.inr ⟨Or.inr (Or.inl ⟨h0, h1, h2⟩), by have := ho.leF; omega⟩
    · intro a c b ha hs
      rcases (hl.stp a c b).1 hs with h | ⟨a', b', h1, h2, _⟩
      · exact ⟨h, ho.stp _ _ _ h⟩
      · omega
    · intro a b ha he
      rcases (hl.eps a b).1 he with h | h | ⟨h1, h2⟩ | ⟨h0, h1, h2⟩
      · exact absurd (eps_lt h) ha
      · refine ⟨h, ?_⟩
        obtain ⟨a', b', h1, h2, _⟩ := h
        omega
      · exact absurd ho.e (h1 ▸ ha)
      · exact absurd ho.e (h1 ▸ ha)
    · intro a c b ha hs
      rcases (hl.stp a c b).1 hs with h | h
      · exact absurd (stp_lt h) ha
      · refine ⟨h, ?_⟩
        obtain ⟨a', b', h1, h2, _⟩ := h
        omega
  · rintro ⟨u, v, rfl, h⟩
    have m1 : ∀ {p w q}, NPath acc.node p w q → NPath r.node p w q := fun h =>
      h.mono (fun a b h => (hl.eps a b).2 (Or.inl h)) (fun a c b h => (hl.stp a c b).2 (Or.inl h))
    have m2 : ∀ {p w q}, Path (CEps acc.node.length x.node) (CStp acc.node.length x.node) p w q → NPath r.node p w q :=
      fun h => h.mono (fun a b h => (hl.eps a b).2 (Or.inr (Or.inl h))) (fun a c b h => (hl.stp a c b).2 (Or.inr h))
    rcases h with ⟨h1, h2⟩ | ⟨h1, h2⟩
    · exact Path.trans (m1 h1) (.eps ((hl.eps _ _).2 (Or.inr (Or.inr (Or.inl ⟨rfl, rfl⟩)))) (m2 h2))
    · rcases h1 with h1 | ⟨hex, h1⟩
      · exact Path.trans (m1 h1) (m2 h2)
      · exact Path.trans (m1 h1) (.eps ((hl.eps _ _).2 (Or.inr (Or.inr (Or.inr ⟨hex, rfl, rfl⟩)))) (m2 h2))

theorem copy_stuck {off v q} (hF : off + x.node.length ≤ F)
    (h : Path (CEps off x.node) (CStp off x.node) F v q) : v = [] ∧ q = F := by
  refine Path.stuck ?_ ?_ h
  · rintro b ⟨a', b', h1, h2, h3⟩
    have := eps_lt h3
    omega
  · rintro c b ⟨a', b', h1, h2, h3⟩
    have := stp_lt h3
    omega

/-- A copy that does not yet contain the final end. -/
theorem Link.mid (hl : Link acc x r F ex) (ho : Open acc F) (hx : x.WF) (hF : acc.node.length + x.node.length ≤ F) :
    Open r F ∧
    (∀ w, NPath r.node r.b w r.e ↔ ∃ u v, w = u ++ v ∧ NPath acc.node acc.b u acc.e ∧ x.Accepts v) ∧
    (∀ w, NPath r.node r.b w F ↔ NPath acc.node acc.b w F ∨ (ex ∧ NPath acc.node acc.b w acc.e)) := by
  have hxe := hx.e
  have hxb := hx.b
  refine ⟨⟨by rw [hl.len]; exact hF, ?_, ?_, ?_, ?_⟩, ?_, ?_⟩
  · intro p q h
    rw [hl.len]
    rcases (hl.eps p q).1 h with h | ⟨a', b', h1, h2, h3⟩ | ⟨h1, h2⟩ | ⟨h0, h1, h2⟩
    · rcases ho.eps _ _ h with h | h
      · left; omega
      · exact Or.inr h
    · have := hx.eps _ _ h3
      left; omega
    · left; omega
    · exact Or.inr h2
  · intro p c q h
    rw [hl.len]
    rcases (hl.stp p c q).1 h with h | ⟨a', b', h1, h2, h3⟩
    · have := ho.stp _ _ _ h; omega
    · have := hx.stp _ _ _ h3; omega
  · rw [hl.len, hl.b]; have := ho.b; omega
  · rw [hl.len, hl.e]; omega
  · intro w
    rw [hl.b, hl.e, hl.path_iff ho (by omega)]
    constructor
    · rintro ⟨u, v, rfl, ⟨h1, h2⟩ | ⟨_, h2⟩⟩
      · exact ⟨u, v, rfl, h1, copy_path_iff.1 h2⟩
      · have := copy_stuck hF h2
        omega
    · rintro ⟨u, v, rfl, h1, h2⟩
      exact ⟨u, v, rfl, Or.inl ⟨h1, copy_path_iff.2 h2⟩⟩
  · intro w
    rw [hl.b, hl.path_iff ho ho.leF]
    constructor
    · rintro ⟨u, v, rfl, ⟨h1, h2⟩ | ⟨h1, h2⟩⟩
      · obtain ⟨q', h3, h4⟩ := copy_path_inv h2
        have := copy_path_lt hx hx.b h4
        omega
      · have := copy_stuck hF h2
        simpa [this.1] using h1
    · intro h
      exact ⟨w, [], by simp, Or.inr ⟨h, .nil _⟩⟩

/-- The last copy, whose end is the final end. -/
theorem Link.last (hl : Link acc x r F ex) (ho : Open acc F) (hx : x.WF) (hF : F = acc.node.length + x.e) :
    r.WF ∧
    (∀ w, r.Accepts w ↔ ∃ u v, w = u ++ v ∧ ((NPath acc.node acc.b u acc.e ∧ x.Accepts v) ∨
      ((NPath acc.node acc.b u F ∨ (ex ∧ NPath acc.node acc.b u acc.e)) ∧ NPath x.node x.e v x.e))) := by
  have hxe := hx.e
  have hxb := hx.b
  refine ⟨⟨?_, ?_, ?_, ?_⟩, ?_⟩
  · intro p q h
    rw [hl.len]
    rcases (hl.eps p q).1 h with h | ⟨a', b', h1, h2, h3⟩ | ⟨h1, h2⟩ | ⟨h0, h1, h2⟩
    · rcases ho.eps _ _ h with h | h <;> omega
    · have := hx.eps _ _ h3; omega
    · omega
    · omega
  · intro p c q h
    rw [hl.len]
    rcases (hl.stp p c q).1 h with h | ⟨a', b', h1, h2, h3⟩
    · have := ho.stp _ _ _ h; omega
    · have := hx.stp _ _ _ h3; omega
  · rw [hl.len, hl.b]; have := ho.b; omega
  · rw [hl.len, hl.e]; omega
  · intro w
    unfold NFA.Accepts
    rw [hl.b, hl.e, hl.path_iff ho (by omega)]
    subst hF
    simp only [copy_path_iff]

theorem Link.noIn (hl : Link acc x r F ex) (ho : Open acc F) (h : NoIn acc.node acc.b) : NoIn r.node r.b := by
  have hb := ho.b
  have hF := ho.leF
  rw [hl.b]
  constructor
  · intro p hp
    rcases (hl.eps p _).1 hp with h' | ⟨a', b', h1, h2, h3⟩ | ⟨h1, h2⟩ | ⟨h0, h1, h2⟩
    · exact h.1 _ h'
    · omega
    · omega
    · omega
  · intro p c hp
    rcases (hl.stp p c _).1 hp with h' | ⟨a', b', h1, h2, h3⟩
    · exact h.2 _ _ h'
    · omega

theorem Link.noOut (hl : Link acc x r F ex) (ho : Open acc F) (h : NoOut x.node x.e) : NoOut r.node r.e := by
  have he := ho.e
  rw [hl.e]
  constructor
  · intro q hq
    rcases (hl.eps _ q).1 hq with h' | ⟨a', b', h1, h2, h3⟩ | ⟨h1, h2⟩ | ⟨h0, h1, h2⟩
    · have := eps_lt h'; omega
    · obtain rfl : x.e = a' := by omega
      rw [h2, h.1 _ h3]
    · omega
    · omega
  · intro c q hq
    rcases (hl.stp _ c q).1 hq with h' | ⟨a', b', h1, h2, h3⟩
    · have := stp_lt h'; omega
    · obtain rfl : x.e = a' := by omega
      exact h.2 _ _ h3

end

theorem open_of_wf {x : NFA} (h : x.WF) {F} (hF : x.node.length ≤ F) : Open x F where
  leF := hF
  eps p q hq := Or.inl (h.eps p q hq)
  stp := h.stp
  b := h.b
  e := h.e

theorem path_no_F {x : NFA} (h : x.WF) {F} (hF : x.node.length ≤ F) {w} : ¬ NPath x.node x.b w F := by
  intro hp
  have := copy_path_lt h h.b hp
  omega

/-! ### `{n}` -/

theorem iter_succ' {α : Type} (f : α → α) (n : Nat) (a : α) : iter f (n + 1) a = f (iter f n a) := by
  induction n generalizing a with
  | zero => rfl
  | succ n ih => rw [iter, ih]; rfl

structure ChainInv (x acc : NFA) (F k : Nat) : Prop where
  op : Open acc F
  len : acc.node.length = k * x.node.length
  lang : ∀ w, NPath acc.node acc.b w acc.e ↔ Pow x.Accepts k w
  noF : ∀ w, ¬ NPath acc.node acc.b w F
  noIn : NoIn x.node x.b → NoIn acc.node acc.b
  noOut : NoOut x.node x.e → NoOut acc.node acc.e

theorem chain_inv {x : NFA} (hx : x.WF) {F j : Nat} (hF : (j + 1) * x.node.length ≤ F) :
    ChainInv x (iter (linkCopy x) j x) F (j + 1) := by
  induction j with
  | zero =>
    have : x.node.length ≤ F := by omega
    exact ⟨open_of_wf hx this, by simp [iter], fun w => (pow_one (L := x.Accepts)).symm, fun w => path_no_F hx this, id, id⟩
  | succ j ih =>
    have e1 : (j + 1 + 1) * x.node.length = (j + 1) * x.node.length + x.node.length := Nat.succ_mul _ _
    have ih := ih (by omega)
    rw [iter_succ']
    have hl := linkCopy_link (x := x) ih.op.e F
    obtain ⟨h1, h2, h3⟩ := hl.mid ih.op hx (by rw [ih.len]; omega)
    refine ⟨h1, ?_, ?_, ?_, ?_, ?_⟩
    · rw [hl.len, ih.len]; omega
    · intro w
      rw [h2, pow_succ']
      simp only [ih.lang]
    · intro w
      rw [h3]
      simp [ih.noF]
    · intro h
      exact hl.noIn ih.op (ih.noIn h)
    · intro h
      exact hl.noOut ih.op h

theorem wf_of_open {acc : NFA} {F F'} (hne : F ≠ F') (h : Open acc F) (h' : Open acc F') : acc.WF where
  eps p q hq := by
    rcases h.eps p q hq with h1 | h1
    · exact h1
    · rcases h'.eps p q hq with h2 | h2
      · exact h2
      · omega
  stp := h.stp
  b := h.b
  e := h.e

/-- Result of the plain chain of `n ≥ 1` copies. -/
theorem chain_spec {x : NFA} (hx : x.WF) {n : Nat} (hn : 1 ≤ n) :
    (nfaChain x n).WF ∧ (∀ w, (nfaChain x n).Accepts w ↔ Pow x.Accepts n w) ∧
      (NoIn x.node x.b → NoIn (nfaChain x n).node (nfaChain x n).b) ∧
      (NoOut x.node x.e → NoOut (nfaChain x n).node (nfaChain x n).e) := by
  obtain ⟨j, rfl⟩ : ∃ j, n = j + 1 := ⟨n - 1, by omega⟩
  have h1 := chain_inv hx (j := j) (F := (j + 1) * x.node.length) (Nat.le_refl _)
  have h2 := chain_inv hx (j := j) (F := (j + 1) * x.node.length + 1) (by omega)
  exact ⟨wf_of_open (by omega) h1.op h2.op, h1.lang, h1.noIn, h1.noOut⟩

/-! ### `{n,m}` with `1 ≤ n < m` -/

structure BoundInv (x acc : NFA) (F n k : Nat) : Prop where
  op : Open acc F
  len : acc.node.length = k * x.node.length
  lang : ∀ w, NPath acc.node acc.b w acc.e ↔ Pow x.Accepts k w
  langF : ∀ w, NPath acc.node acc.b w F ↔ ∃ i, n ≤ i ∧ i < k ∧ Pow x.Accepts i w
  noIn : NoIn x.node x.b → NoIn acc.node acc.b

theorem bound_inv {x : NFA} (hx : x.WF) {F n j : Nat} (hF : (n + 1 + j) * x.node.length ≤ F) :
    BoundInv x (iter (linkCopyExit x F) j (iter (linkCopy x) n x)) F (n + 1) (n + 1 + j) := by
  induction j with
  | zero =>
    have := chain_inv hx (j := n) (F := F) hF
    refine ⟨this.op, this.len, this.lang, ?_, this.noIn⟩
    intro w
    constructor
    · intro h; exact absurd h (this.noF w)
    · rintro ⟨i, h1, h2, _⟩; omega
  | succ j ih =>
    have e1 : (n + 1 + (j + 1)) * x.node.length = (n + 1 + j) * x.node.length + x.node.length := Nat.succ_mul _ _
    have ih := ih (by omega)
    rw [iter_succ']
    have hl := linkCopyExit_link (x := x) ih.op.e F
    obtain ⟨h1, h2, h3⟩ := hl.mid ih.op hx (by rw [ih.len]; omega)
    refine ⟨h1, ?_, ?_, ?_, ?_⟩
    · rw [hl.len, ih.len]; omega
    · intro w
      rw [h2, ← Nat.add_assoc, pow_succ']
      simp only [ih.lang]
    · intro w
      rw [h3, ih.langF, ih.lang]
      constructor
      · rintro (⟨i, h1, h2, h3⟩ | ⟨_, h⟩)
        · exact ⟨i, h1, by omega, h3⟩
        · exact ⟨n + 1 + j, by omega, by omega, h⟩
      · rintro ⟨i, h1, h2, h3⟩
        by_cases hi : i = n + 1 + j
        · subst hi; exact Or.inr ⟨trivial, h3⟩
        · exact Or.inl ⟨i, h1, by omega, h3⟩
    · intro h
      exact hl.noIn ih.op (ih.noIn h)

/-- Result of the chain with exits. -/
theorem bounded_spec {x : NFA} (hx : x.WF) {n m : Nat} (hn : 1 ≤ n) (hm : n < m) :
    (nfaBounded x n m).WF ∧
      (∀ w, (nfaBounded x n m).Accepts w ↔ ∃ k, n ≤ k ∧ k ≤ m ∧ Pow x.Accepts k w) ∧
      (NoIn x.node x.b → NoIn (nfaBounded x n m).node (nfaBounded x n m).b) ∧
      (NoOut x.node x.e → NoOut (nfaBounded x n m).node (nfaBounded x n m).e) := by
  obtain ⟨n, rfl⟩ : ∃ j, n = j + 1 := ⟨n - 1, by omega⟩
  obtain ⟨j, rfl⟩ : ∃ j, m = n + 1 + j + 1 := ⟨m - n - 2, by omega⟩
  unfold nfaBounded
  simp only [Nat.add_sub_cancel, show n + 1 + j + 1 - (n + 1) = j + 1 by omega]
  have hF : (n + 1 + j) * x.node.length ≤ (n + 1 + j) * x.node.length + x.e := by omega
  have ih := bound_inv hx (n := n) (j := j) hF
  generalize hFF : (n + 1 + j) * x.node.length + x.e = F at *
  rw [iter_succ']
  have hl := linkCopyExit_link (x := x) ih.op.e F
  obtain ⟨h1, h2⟩ := hl.last ih.op hx (by rw [ih.len]; exact hFF.symm)
  refine ⟨h1, ?_, fun h => hl.noIn ih.op (ih.noIn h), fun h => hl.noOut ih.op h⟩
  intro w
  rw [h2]
  simp only [ih.lang, ih.langF, true_and]
  constructor
  · rintro ⟨u, v, rfl, ⟨hu, hv⟩ | ⟨hu, hv⟩⟩
    · exact ⟨n + 1 + j + 1, by omega, by omega, pow_succ'.2 ⟨u, v, rfl, hu, hv⟩⟩
    · have absorb : ∀ i, 1 ≤ i → Pow x.Accepts i u → Pow x.Accepts i (u ++ v) := by
        intro i hi h
        obtain ⟨i, rfl⟩ : ∃ k, i = k + 1 := ⟨i - 1, by omega⟩
        obtain ⟨u1, u2, rfl, h1, h2⟩ := pow_succ'.1 h
        exact pow_succ'.2 ⟨u1, u2 ++ v, by simp, h1, Path.trans h2 hv⟩
      rcases hu with ⟨i, h1, h2, h3⟩ | h
      · exact ⟨i, h1, by omega, absorb i (by omega) h3⟩
      · exact ⟨n + 1 + j, by omega, by omega, absorb _ (by omega) h⟩
  · rintro ⟨k, h1, h2, h3⟩
    by_cases hk : k = n + 1 + j + 1
    · subst hk
      obtain ⟨u, v, rfl, hu, hv⟩ := pow_succ'.1 h3
      exact ⟨u, v, rfl, Or.inl ⟨hu, hv⟩⟩
    · refine ⟨w, [], by simp, Or.inr ⟨?_, .nil _⟩⟩
      by_cases hk' : k = n + 1 + j
      · subst hk'; exact Or.inr h3
      · exact Or.inl ⟨k, h1, by omega, h3⟩

theorem upTo_eq {x : NFA} {m : Nat} : nfaUpTo x m = nfaOpt (nfaBounded x 1 m) := rfl

/-! ### `{n,}` with `n ≥ 1` -/

theorem atLeast_link {x : NFA} (hx : x.WF) {n : Nat} (hn : 1 ≤ n) (F) :
    Link (nfaChain x n) (nfaStar x) (nfaAtLeast x n) F False := by
  have hc := (chain_spec hx hn).1
  have he := hc.e
  have hxe := hx.e
  unfold nfaChain at *
  refine ⟨by simp [nfaAtLeast, nfaStar], rfl, rfl, ?_, ?_⟩
  · intro a b
    simp only [nfaAtLeast, nfaStar, eps_addEps, eps_append, length_addEps, length_appendNodes, CEps, false_and, or_false]
    generalize hoff : (iter (linkCopy x) (n - 1) x).node.length = off at *
    constructor
    · rintro (((h | h) | ⟨h1, h2, _⟩) | ⟨h1, h2, _⟩)
      · exact Or.inl h
      · obtain ⟨a', b', h1, h2, h3⟩ := h
        exact Or.inr (Or.inl ⟨a', b', h1, h2, Or.inl h3⟩)
      · exact Or.inr (Or.inr ⟨h1, h2⟩)
      · exact Or.inr (Or.inl ⟨x.e, x.b, h1, h2, Or.inr ⟨rfl, rfl, hxe⟩⟩)
    · rintro (h | ⟨a', b', h1, h2, h3 | ⟨rfl, rfl, h3⟩⟩ | ⟨h1, h2⟩)
      · exact Or.inl (Or.inl (Or.inl h))
      · exact Or.inl (Or.inl (Or.inr ⟨a', b', h1, h2, h3⟩))
      · exact Or.inr ⟨h1, h2, by omega⟩
      · exact Or.inl (Or.inr ⟨h1, h2, by omega⟩)
  · intro a c b
    simp only [nfaAtLeast, nfaStar, stp_addEps, stp_append, CStp]

theorem atLeast_spec {x : NFA} (hx : x.WF) {n : Nat} (hn : 1 ≤ n) :
    (nfaAtLeast x n).WF ∧
      (∀ w, (nfaAtLeast x n).Accepts w ↔ ∃ u v, w = u ++ v ∧ Pow x.Accepts n u ∧ (nfaStar x).Accepts v) ∧
      (NoIn x.node x.b → NoIn (nfaAtLeast x n).node (nfaAtLeast x n).b) := by
  obtain ⟨hc, hlang, hin, -⟩ := chain_spec hx hn
  have hs := star_wf hx
  have mid : ∀ F, (nfaChain x n).node.length + (nfaStar x).node.length ≤ F → _ := fun F hF =>
    (atLeast_link hx hn F).mid (open_of_wf hc (F := F) (by omega)) hs hF
  generalize hk : (nfaChain x n).node.length + (nfaStar x).node.length = k at mid
  have m1 := mid k (Nat.le_refl _)
  have m2 := mid (k + 1) (by omega)
  refine ⟨wf_of_open (by omega) m1.1 m2.1, ?_, ?_⟩
  · intro w
    unfold NFA.Accepts at *
    rw [m1.2.1]
    simp only [hlang]
  · intro h
    exact (atLeast_link hx hn k).noIn (open_of_wf hc (by omega)) (hin h)

/-! ### Concatenation -/

theorem cat_eps {x acc : NFA} (hx : x.WF) {a b} : Eps (nfaCat x acc).node a b ↔
    Eps acc.node a b ∨ CEps acc.node.length x.node a b ∨ (a = acc.node.length + x.e ∧ b = acc.b) := by
  have := hx.e
  simp only [nfaCat, eps_addEps, eps_append, length_appendNodes, CEps]
  constructor
  · rintro ((h | h) | ⟨h1, h2, _⟩)
    · exact Or.inl h
    · exact Or.inr (Or.inl h)
    · exact Or.inr (Or.inr ⟨h1, h2⟩)
  · rintro (h | h | ⟨h1, h2⟩)
    · exact Or.inl (Or.inl h)
    · exact Or.inl (Or.inr h)
    · exact Or.inr ⟨h1, h2, by omega⟩

theorem cat_stp {x acc : NFA} {a c b} : Stp (nfaCat x acc).node a c b ↔
    Stp acc.node a c b ∨ CStp acc.node.length x.node a c b := by
  simp only [nfaCat, stp_addEps, stp_append, CStp]

theorem cat_spec {x acc : NFA} (hx : x.WF) (hacc : acc.WF) :
    (nfaCat x acc).WF ∧
      (∀ w, (nfaCat x acc).Accepts w ↔ ∃ u v, w = u ++ v ∧ x.Accepts u ∧ acc.Accepts v) ∧
      (NoIn x.node x.b → NoIn (nfaCat x acc).node (nfaCat x acc).b) ∧
      (NoOut acc.node acc.e → NoOut (nfaCat x acc).node (nfaCat x acc).e) := by
  have hxe := hx.e
  have hxb := hx.b
  have hae := hacc.e
  have hab := hacc.b
  have hlen : (nfaCat x acc).node.length = acc.node.length + x.node.length := by simp [nfaCat]
  refine ⟨⟨?_, ?_, ?_, ?_⟩, ?_, ?_, ?_⟩
  · intro p q h
    rw [hlen]
    rcases (cat_eps hx).1 h with h | ⟨a', b', h1, h2, h3⟩ | ⟨h1, h2⟩
    · have := hacc.eps _ _ h; omega
    · have := hx.eps _ _ h3; omega
    · omega
  · intro p c q h
    rw [hlen]
    rcases cat_stp.1 h with h | ⟨a', b', h1, h2, h3⟩
    · have := hacc.stp _ _ _ h; omega
    · have := hx.stp _ _ _ h3; omega
  · rw [hlen]; simp [nfaCat]; omega
  · rw [hlen]; simp [nfaCat]; omega
  · intro w
    have hb : (nfaCat x acc).b = acc.node.length + x.b := rfl
    have he : (nfaCat x acc).e = acc.e := rfl
    unfold NFA.Accepts
    rw [hb, he]
    constructor
    · intro h
      have := h.cross (P := fun a => acc.node.length ≤ a)
        (E1 := CEps acc.node.length x.node) (S1 := CStp acc.node.length x.node)
        (E2 := Eps acc.node) (S2 := Stp acc.node)
        (X := fun a b => a = acc.node.length + x.e ∧ b = acc.b) ?_ ?_ ?_ ?_ (by omega)
      · rcases this with ⟨h1, _⟩ | ⟨_, u, v, a, y, rfl, h1, ⟨rfl, rfl⟩, h3⟩
        · omega
        · exact ⟨u, v, rfl, copy_path_iff.1 h1, h3⟩
      · intro a b ha h
        rcases (cat_eps hx).1 h with h | h | ⟨h1, h2⟩
        · have := eps_lt h; omega
        · refine Or.inl ⟨h, ?_⟩
          obtain ⟨_, _, _, _, _⟩ := h; omega
        · exact Or.inr ⟨⟨h1, h2⟩, by omega⟩
      · intro a c b ha h
        rcases cat_stp.1 h with h | h
        · have := stp_lt h; omega
        · refine ⟨h, ?_⟩
          obtain ⟨_, _, _, _, _⟩ := h; omega
      · intro a b ha h
        rcases (cat_eps hx).1 h with h | h | ⟨h1, h2⟩
        · have := hacc.eps _ _ h
          exact ⟨h, by omega⟩
        · obtain ⟨_, _, _, _, _⟩ := h; omega
        · omega
      · intro a c b ha h
        rcases cat_stp.1 h with h | h
        · have := hacc.stp _ _ _ h
          exact ⟨h, by omega⟩
        · obtain ⟨_, _, _, _, _⟩ := h; omega
    · rintro ⟨u, v, rfl, h1, h2⟩
      refine Path.trans ((copy_path_iff.2 h1).mono (fun a b h => (cat_eps hx).2 (Or.inr (Or.inl h)))
        (fun a c b h => cat_stp.2 (Or.inr h))) (.eps ((cat_eps hx).2 (Or.inr (Or.inr ⟨rfl, rfl⟩))) ?_)
      exact h2.mono (fun a b h => (cat_eps hx).2 (Or.inl h)) (fun a c b h => cat_stp.2 (Or.inl h))
  · intro h
    have hb : (nfaCat x acc).b = acc.node.length + x.b := rfl
    rw [hb]
    constructor
    · intro p hp
      rcases (cat_eps hx).1 hp with h' | ⟨a', b', h1, h2, h3⟩ | ⟨h1, h2⟩
      · have := hacc.eps _ _ h'; omega
      · obtain rfl : x.b = b' := by omega
        rw [h1, h.1 _ h3]
      · omega
    · intro p c hp
      rcases cat_stp.1 hp with h' | ⟨a', b', h1, h2, h3⟩
      · have := hacc.stp _ _ _ h'; omega
      · obtain rfl : x.b = b' := by omega
        exact h.2 _ _ h3
  · intro h
    have he : (nfaCat x acc).e = acc.e := rfl
    rw [he]
    constructor
    · intro q hq
      rcases (cat_eps hx).1 hq with h' | ⟨a', b', h1, h2, h3⟩ | ⟨h1, h2⟩
      · exact h.1 _ h'
      · omega
      · omega
    · intro c q hq
      rcases cat_stp.1 hq with h' | ⟨a', b', h1, h2, h3⟩
      · exact h.2 _ _ h'
      · omega

/-! ### Alternation -/

structure AltInv (ns : List Node) (L : List Nat → Prop) : Prop where
  len : 2 ≤ ns.length
  eps : ∀ p q, Eps ns p q → q < ns.length ∧ q ≠ 0 ∧ p ≠ 1
  stp : ∀ p c q, Stp ns p c q → q < ns.length ∧ q ≠ 0 ∧ p ≠ 1
  lang : ∀ w, NPath ns 0 w 1 ↔ L w

theorem altStep_eps {x : NFA} {ns : List Node} (hx : x.WF) (hl : 2 ≤ ns.length) {a b} :
    Eps (nfaAltStep x ns) a b ↔ Eps ns a b ∨ CEps ns.length x.node a b ∨ (a = 0 ∧ b = ns.length + x.b) ∨
      (a = ns.length + x.e ∧ b = 1) := by
  have := hx.e
  simp only [nfaAltStep, eps_addEps, eps_append, length_appendNodes, length_addEps, CEps]
  constructor
  · rintro (((h | h) | ⟨h1, h2, _⟩) | ⟨h1, h2, _⟩)
    · exact Or.inl h
    · exact Or.inr (Or.inl h)
    · exact Or.inr (Or.inr (Or.inl ⟨h1, h2⟩))
    · exact Or.inr (Or.inr (Or.inr ⟨h1, h2⟩))
  · rintro (h | h | ⟨h1, h2⟩ | ⟨h1, h2⟩)
    · exact Or.inl (Or.inl (Or.inl h))
    · exact Or.inl (Or.inl (Or.inr h))
    · exact Or.inl (Or.inr ⟨h1, h2, by omega⟩)
    · exact Or.inr ⟨h1, h2, by omega⟩

theorem altStep_stp {x : NFA} {ns : List Node} {a c b} :
    Stp (nfaAltStep x ns) a c b ↔ Stp ns a c b ∨ CStp ns.length x.node a c b := by
  simp only [nfaAltStep, stp_addEps, stp_append, CStp]

theorem altStep_spec {x : NFA} {ns : List Node} {L} (hx : x.WF) (h : AltInv ns L) :
    AltInv (nfaAltStep x ns) (fun w => L w ∨ x.Accepts w) := by
  have hxe := hx.e
  have hxb := hx.b
  have hl := h.len
  have hlen : (nfaAltStep x ns).length = ns.length + x.node.length := by simp [nfaAltStep]
  refine ⟨by omega, ?_, ?_, ?_⟩
  · intro p q hq
    rw [hlen]
    rcases (altStep_eps hx hl).1 hq with h' | ⟨a', b', h1, h2, h3⟩ | ⟨h1, h2⟩ | ⟨h1, h2⟩
    · have := h.eps _ _ h'; omega
    · have := hx.eps _ _ h3; omega
    · omega
    · omega
  · intro p c q hq
    rw [hlen]
    rcases altStep_stp.1 hq with h' | ⟨a', b', h1, h2, h3⟩
    · have := h.stp _ _ _ h'; omega
    · have := hx.stp _ _ _ h3; omega
  · intro w
    constructor
    · intro hw
      have key : ∀ {p w q}, NPath (nfaAltStep x ns) p w q → q = 1 →
          (ns.length ≤ p → ∃ p', p = ns.length + p' ∧ NPath x.node p' w x.e) ∧
          (p < ns.length → p ≠ 0 → NPath ns p w 1) ∧
          (p = 0 → NPath ns 0 w 1 ∨ x.Accepts w) := by
        intro p w q hp
        induction hp with
        | nil =>
          rintro rfl
          exact ⟨fun h => by omega, fun _ _ => .nil _, fun h => by omega⟩
        | @eps p p' w q he hp ih =>
          intro hq
          obtain ⟨i1, i2, i3⟩ := ih hq
          rcases (altStep_eps hx hl).1 he with h' | ⟨a', b', h1, h2, h3⟩ | ⟨h1, h2⟩ | ⟨h1, h2⟩
          · have h1 := h.eps _ _ h'
            have h2 := eps_lt h'
            refine ⟨fun h => by omega, fun _ _ => .eps h' (i2 h1.1 h1.2.1), ?_⟩
            rintro rfl
            exact Or.inl (.eps h' (i2 h1.1 h1.2.1))
          · refine ⟨fun _ => ?_, fun h => by omega, fun h => by omega⟩
            obtain ⟨c, hc, h4⟩ := i1 (by omega)
            obtain rfl : c = b' := by omega
            exact ⟨a', h1, .eps h3 h4⟩
          · subst h1
            refine ⟨fun _ => by omega, fun _ h => absurd rfl h, fun _ => ?_⟩
            obtain ⟨c, hc, h4⟩ := i1 (by omega)
            obtain rfl : c = x.b := by omega
            exact Or.inr h4
          · refine ⟨fun _ => ?_, fun h => by omega, fun h => by omega⟩
            subst h2
            have h5 := i2 (by omega) (by omega)
            have := Path.stuck (fun b hb => absurd rfl (h.eps _ _ hb).2.2) (fun c b hb => absurd rfl (h.stp _ _ _ hb).2.2) h5
            exact ⟨x.e, h1, by rw [this.1]; exact .nil _⟩
        | @step p c p' w q hs hp ih =>
          intro hq
          obtain ⟨i1, i2, i3⟩ := ih hq
          rcases altStep_stp.1 hs with h' | ⟨a', b', h1, h2, h3⟩
          · have h1 := h.stp _ _ _ h'
            have h2 := stp_lt h'
            refine ⟨fun h => by omega, fun _ _ => .step h' (i2 h1.1 h1.2.1), ?_⟩
            rintro rfl
            exact Or.inl (.step h' (i2 h1.1 h1.2.1))
          · refine ⟨fun _ => ?_, fun h => by omega, fun h => by omega⟩
            obtain ⟨c, hc, h4⟩ := i1 (by omega)
            obtain rfl : c = b' := by omega
            exact ⟨a', h1, .step h3 h4⟩
      rcases (key hw rfl).2.2 rfl with h' | h'
      · exact Or.inl ((h.lang w).1 h')
      · exact Or.inr h'
    · rintro (h' | h')
      · exact ((h.lang w).2 h').mono (fun a b h => (altStep_eps hx hl).2 (Or.inl h)) (fun a c b h => altStep_stp.2 (Or.inl h))
      · refine .eps ((altStep_eps hx hl).2 (Or.inr (Or.inr (Or.inl ⟨rfl, rfl⟩)))) ?_
        have h1 : NPath (nfaAltStep x ns) (ns.length + x.b) w (ns.length + x.e) :=
          (copy_path_iff.2 h').mono (fun a b h => (altStep_eps hx hl).2 (Or.inr (Or.inl h))) (fun a c b h => altStep_stp.2 (Or.inr h))
        have := Path.trans h1 (.single_eps ((altStep_eps hx hl).2 (Or.inr (Or.inr (Or.inr ⟨rfl, rfl⟩)))))
        simpa using this

end Verif.Tok
