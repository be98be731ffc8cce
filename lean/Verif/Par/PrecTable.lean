import Verif.Par.Prec
import Verif.Par.OpsProof
import Verif.Par.NewProof
import Verif.Par.TreeProof
import Verif.Par.EmbedAug

/-!
# The valid items of grammars with levels of precedence
-/

namespace Verif.Par

/-- What the two sides of a binary operator add to the level. -/
def Fix.sides : Fix → Option (Nat × Nat)
  | .left => some (0, 1)
  | .right => some (1, 0)
  | .non => some (1, 1)
  | _ => none

theorem Fix.sides_pos {f : Fix} {a b : Nat} (h : f.sides = some (a, b)) : f ≠ .pre ∧ f ≠ .post ∧ 1 ≤ a + b ∧ a ≤ 1 ∧ b ≤ 1 := by
  cases f <;> simp [Fix.sides] at h <;> obtain ⟨rfl, rfl⟩ := h <;> simp

/-- The shapes of the rules. -/
inductive PR (P : Prec) : Nat → List Sym → Prop
  | unit (i) : i < P.levels.length → PR P i [.nt (i + 1)]
  | bin (i f t a b) : P.Op i f t → f.sides = some (a, b) → PR P i [.nt (i + a), tk t, .nt (i + b)]
  | pre (i t) : P.Op i .pre t → PR P i [tk t, .nt i]
  | post (i t) : P.Op i .post t → PR P i [.nt i, tk t]
  | atom (t) : t ∈ P.atoms → PR P P.levels.length [tk t]
  | par (t c) : (t, c) ∈ P.pars → PR P P.levels.length [tk t, .nt 0, tk c]

theorem mem_precRules {atoms : List Nat} {pars : List (Nat × Nat)} {r : PRule} : ∀ {Ls : List Level} {i : Nat}, r ∈ precRules atoms pars i Ls ↔
    (∃ j, j < Ls.length ∧ r = ⟨i + j, [.nt (i + j + 1)]⟩) ∨
    (∃ (j : Nat) (L : Level) (t : Nat), Ls[j]? = some L ∧ t ∈ L.ops ∧ r = ⟨i + j, L.fix.rhs (i + j) t⟩) ∨
    (∃ t ∈ atoms, r = ⟨i + Ls.length, [tk t]⟩) ∨ ∃ x ∈ pars, r = ⟨i + Ls.length, [tk x.1, .nt 0, tk x.2]⟩ := by
  intro Ls
  induction Ls with
  | nil => intro i; simp [precRules, eq_comm]
  | cons L Ls ih =>
    intro i
    rw [precRules, List.mem_append, List.mem_cons, List.mem_map, ih]
    constructor
    · rintro ((rfl | ⟨t, ht, rfl⟩) | ⟨j, hj, rfl⟩ | ⟨j, L', t, h1, h2, rfl⟩ | ⟨t, ht, rfl⟩ | ⟨x, hx, rfl⟩)
      · exact .inl ⟨0, by simp, rfl⟩
      · exact .inr (.inl ⟨0, L, t, rfl, ht, rfl⟩)
      · exact .inl ⟨j + 1, by simpa using hj, by rw [show i + (j + 1) = i + 1 + j by omega]⟩
      · exact .inr (.inl ⟨j + 1, L', t, h1, h2, by rw [show i + (j + 1) = i + 1 + j by omega]⟩)
      · exact .inr (.inr (.inl ⟨t, ht, by rw [List.length_cons, show i + (Ls.length + 1) = i + 1 + Ls.length by omega]⟩))
      · exact .inr (.inr (.inr ⟨x, hx, by rw [List.length_cons, show i + (Ls.length + 1) = i + 1 + Ls.length by omega]⟩))
    · rintro (⟨j, hj, rfl⟩ | ⟨j, L', t, h1, h2, rfl⟩ | ⟨t, ht, rfl⟩ | ⟨x, hx, rfl⟩)
      · cases j with
        | zero => exact .inl (.inl rfl)
        | succ j => exact .inr (.inl ⟨j, by simpa using hj, by rw [show i + (j + 1) = i + 1 + j by omega]⟩)
      · cases j with
        | zero => cases h1; exact .inl (.inr ⟨t, h2, rfl⟩)
        | succ j => exact .inr (.inr (.inl ⟨j, L', t, h1, h2, by rw [show i + (j + 1) = i + 1 + j by omega]⟩))
      · exact .inr (.inr (.inr (.inl ⟨t, ht, by rw [List.length_cons, show i + (Ls.length + 1) = i + 1 + Ls.length by omega]⟩)))
      · exact .inr (.inr (.inr (.inr ⟨x, hx, by rw [List.length_cons, show i + (Ls.length + 1) = i + 1 + Ls.length by omega]⟩)))

theorem Prec.mem_rules {P : Prec} {r : PRule} : r ∈ P.rules ↔ PR P r.lhs r.rhs := by
  unfold Prec.rules
  rw [mem_precRules]
  simp only [Nat.zero_add]
  constructor
  · rintro (⟨j, hj, rfl⟩ | ⟨j, L', t, h1, h2, rfl⟩ | ⟨t, ht, rfl⟩ | ⟨x, hx, rfl⟩)
    · exact .unit j hj
    · cases hf : L'.fix with
      | left => exact .bin j .left t 0 1 ⟨L', h1, hf, h2⟩ rfl
      | right => exact .bin j .right t 1 0 ⟨L', h1, hf, h2⟩ rfl
      | non => exact .bin j .non t 1 1 ⟨L', h1, hf, h2⟩ rfl
      | pre => exact .pre j t ⟨L', h1, hf, h2⟩
      | post => exact .post j t ⟨L', h1, hf, h2⟩
    · exact .atom t ht
    · exact .par _ _ hx
  · obtain ⟨l, rhs⟩ := r
    intro h
    simp only at h
    cases h with
    | unit _ h => exact .inl ⟨_, h, rfl⟩
    | bin i f t a b h hs =>
      obtain ⟨L, h1, rfl, h2⟩ := h
      refine .inr (.inl ⟨_, L, t, h1, h2, ?_⟩)
      cases hf : L.fix <;> rw [hf] at hs <;> simp [Fix.sides] at hs <;> obtain ⟨rfl, rfl⟩ := hs <;> rfl
    | pre i t h => obtain ⟨L, h1, hf, h2⟩ := h; exact .inr (.inl ⟨_, L, t, h1, h2, by rw [hf]; rfl⟩)
    | post i t h => obtain ⟨L, h1, hf, h2⟩ := h; exact .inr (.inl ⟨_, L, t, h1, h2, by rw [hf]; rfl⟩)
    | atom t h => exact .inr (.inr (.inl ⟨t, h, rfl⟩))
    | par t c h => exact .inr (.inr (.inr ⟨_, h, rfl⟩))

/-! ## Tokens have one role -/

theorem flatMap_index {α β : Type} {f : α → List β} {l : List α} (h : (l.flatMap f).Nodup) {i j : Nat} {a b : α} {t : β} (ha : l[i]? = some a)
    (hb : l[j]? = some b) (h1 : t ∈ f a) (h2 : t ∈ f b) : i = j := by
  rw [List.Nodup, List.pairwise_flatMap] at h
  have key : ∀ {i j : Nat} {a b : α}, l[i]? = some a → l[j]? = some b → t ∈ f a → t ∈ f b → ¬ i < j := by
    intro i j a b ha hb h1 h2 hlt
    rw [List.getElem?_eq_some_iff] at ha hb
    obtain ⟨hi, rfl⟩ := ha
    obtain ⟨hj, rfl⟩ := hb
    exact List.pairwise_iff_getElem.1 h.2 i j hi hj hlt t h1 t h2 rfl
  have := key ha hb h1 h2
  have := key hb ha h2 h1
  omega

variable {P : Prec}

theorem Prec.Ok.op_unique (hP : P.Ok) {i j : Nat} {f f' : Fix} {t : Nat} (h : P.Op i f t) (h' : P.Op j f' t) (hf : (f = .pre) = (f' = .pre)) :
    i = j ∧ f = f' := by
  obtain ⟨L, h1, rfl, h2⟩ := h
  obtain ⟨L', h1', rfl, h2'⟩ := h'
  have : i = j := by
    by_cases hp : L.fix = .pre
    · have hp' : L'.fix = .pre := hf ▸ hp
      have := (List.nodup_append.1 hP.before).2.1
      exact flatMap_index this h1 h1' (t := t) (by simp [hp, h2]) (by simp [hp', h2'])
    · have hp' : ¬ L'.fix = .pre := hf ▸ hp
      exact flatMap_index hP.after h1 h1' (t := t) (by simp [hp, h2]) (by simp [hp', h2'])
  subst this
  rw [h1] at h1'
  cases h1'
  exact ⟨rfl, rfl⟩

theorem Prec.Op.level {i : Nat} {f f' : Fix} {t t' : Nat} (h : P.Op i f t) (h' : P.Op i f' t') : f = f' := by
  obtain ⟨L, h1, rfl, h2⟩ := h
  obtain ⟨L', h1', rfl, h2'⟩ := h'
  rw [h1] at h1'
  cases h1'
  rfl

theorem Prec.Op.lt {i : Nat} {f : Fix} {t : Nat} (h : P.Op i f t) : i < P.levels.length := by
  obtain ⟨L, h1, _⟩ := h
  exact (List.getElem?_eq_some_iff.1 h1).1

theorem Prec.Op.mem_after {i : Nat} {f : Fix} {t : Nat} (h : P.Op i f t) (hf : f ≠ .pre) : t ∈ P.after := by
  obtain ⟨L, h1, rfl, h2⟩ := h
  exact List.mem_flatMap.2 ⟨L, List.mem_of_getElem? h1, by rw [if_neg hf]; exact h2⟩

theorem Prec.Op.mem_before {i : Nat} {t : Nat} (h : P.Op i .pre t) : t ∈ P.levels.flatMap fun L => if L.fix = .pre then L.ops else [] := by
  obtain ⟨L, h1, hf, h2⟩ := h
  exact List.mem_flatMap.2 ⟨L, List.mem_of_getElem? h1, by rw [if_pos hf]; exact h2⟩

theorem Prec.Ok.atom_pre (hP : P.Ok) {i t : Nat} (h : t ∈ P.atoms) (h' : P.Op i .pre t) : False :=
  (List.nodup_append.1 hP.before).2.2 t (by simp [h]) t h'.mem_before rfl

theorem Prec.Ok.par_pre (hP : P.Ok) {i t c : Nat} (h : (t, c) ∈ P.pars) (h' : P.Op i .pre t) : False :=
  (List.nodup_append.1 hP.before).2.2 t (by simp only [List.mem_append, List.mem_map]; exact .inr ⟨_, h, rfl⟩) t h'.mem_before rfl

theorem Prec.Ok.atom_par (hP : P.Ok) {t c : Nat} (h : t ∈ P.atoms) (h' : (t, c) ∈ P.pars) : False :=
  (List.nodup_append.1 (List.nodup_append.1 hP.before).1).2.2 t h t (List.mem_map.2 ⟨_, h', rfl⟩) rfl

theorem Prec.Ok.par_par (hP : P.Ok) {t c c' : Nat} (h : (t, c) ∈ P.pars) (h' : (t, c') ∈ P.pars) : c = c' := by
  have := (List.nodup_append.1 (List.nodup_append.1 hP.before).1).2.1
  rw [List.Nodup, List.pairwise_map] at this
  obtain ⟨i, hi⟩ := List.getElem?_of_mem h
  obtain ⟨j, hj⟩ := List.getElem?_of_mem h'
  rw [List.getElem?_eq_some_iff] at hi hj
  obtain ⟨hi, ei⟩ := hi
  obtain ⟨hj, ej⟩ := hj
  rcases Nat.lt_trichotomy i j with hlt | rfl | hlt
  · exact absurd (by rw [ei, ej]) (List.pairwise_iff_getElem.1 this i j hi hj hlt)
  · rw [ei] at ej; cases ej; rfl
  · exact absurd (by rw [ei, ej]) (List.pairwise_iff_getElem.1 this j i hj hi hlt)

theorem Prec.Ok.close_op (hP : P.Ok) {i t c : Nat} {f : Fix} (h : (t, c) ∈ P.pars) (h' : P.Op i f c) (hf : f ≠ .pre) : False :=
  hP.close _ h (h'.mem_after hf)

/-! ## Contexts -/

/-- Behind `γ` an operand begins, and it is of level `k` or higher. -/
inductive Cx (P : Prec) : List Sym → Nat → Prop
  | nil : Cx P [] 0
  | par (γ k t c) : Cx P γ k → (t, c) ∈ P.pars → Cx P (γ ++ [tk t]) 0
  | bin (γ i f t a b) : P.Op i f t → f.sides = some (a, b) → Cx P (γ ++ [.nt (i + a), tk t]) (i + b)
  | pre (γ k i t) : Cx P γ k → k ≤ i → P.Op i .pre t → Cx P (γ ++ [tk t]) i

theorem Cx.not_nt {γ : List Sym} {n k : Nat} (h : Cx P (γ ++ [.nt n]) k) : False := by
  generalize hγ : γ ++ [Sym.nt n] = δ at h
  cases h with
  | nil => simp at hγ
  | par γ' _ t c _ _ => have := congrArg List.reverse hγ; simp at this
  | bin γ' i f t a b _ _ => have := congrArg List.reverse hγ; simp at this
  | pre γ' _ i t _ _ _ => have := congrArg List.reverse hγ; simp at this

theorem Cx.not_nt' {γ : List Sym} {k : Nat} (h : Cx P γ k) {γ' : List Sym} {n : Nat} (e : γ = γ' ++ [.nt n]) : False := by
  subst e
  exact h.not_nt

theorem snoc_inj {α : Type} {l l' : List α} {a b : α} : l ++ [a] = l' ++ [b] ↔ l = l' ∧ a = b := by
  constructor
  · intro h
    have := List.append_inj' h rfl
    exact ⟨this.1, by simpa using this.2⟩
  · rintro ⟨rfl, rfl⟩; rfl

theorem append_two {α : Type} (l : List α) (a b : α) : l ++ [a, b] = l ++ [a] ++ [b] := by simp

theorem append_three {α : Type} (l : List α) (a b c : α) : l ++ [a, b, c] = l ++ [a] ++ [b] ++ [c] := by simp

/-- What stands in front of an operand behind a token. -/
theorem Cx.inv {γ : List Sym} {t k : Nat} (h : Cx P (γ ++ [tk t]) k) :
    (∃ k' c, Cx P γ k' ∧ (t, c) ∈ P.pars ∧ k = 0) ∨ (∃ γ' i f a b, γ = γ' ++ [.nt (i + a)] ∧ P.Op i f t ∧ f.sides = some (a, b) ∧ k = i + b) ∨
    ∃ k', Cx P γ k' ∧ k' ≤ k ∧ P.Op k .pre t := by
  generalize hγ : γ ++ [tk t] = δ at h
  cases h with
  | nil => simp at hγ
  | par γ' k' t' c h1 h2 =>
    rw [snoc_inj] at hγ
    obtain ⟨rfl, hγ⟩ := hγ
    cases hγ
    exact .inl ⟨k', c, h1, h2, rfl⟩
  | bin γ' i f t' a b h1 h2 =>
    rw [append_two, snoc_inj] at hγ
    obtain ⟨rfl, hγ⟩ := hγ
    cases hγ
    exact .inr (.inl ⟨γ', i, f, a, b, rfl, h1, h2, rfl⟩)
  | pre γ' k' i t' h1 h2 h3 =>
    rw [snoc_inj] at hγ
    obtain ⟨rfl, hγ⟩ := hγ
    cases hγ
    exact .inr (.inr ⟨k', h1, h2, h3⟩)

theorem Cx.unique (hP : P.Ok) {γ : List Sym} {k k' : Nat} (h : Cx P γ k) (h' : Cx P γ k') : k = k' := by
  cases h with
  | nil =>
    generalize hγ : ([] : List Sym) = δ at h'
    cases h' <;> simp at hγ
    rfl
  | par γ k t c h1 h2 =>
    rcases h'.inv with ⟨_, _, _, _, rfl⟩ | ⟨γ', i, f, a, b, e, _⟩ | ⟨_, _, _, h⟩
    · rfl
    · exact (h1.not_nt' e).elim
    · exact (hP.par_pre h2 h).elim
  | bin γ i f t a b h1 h2 =>
    rw [append_two] at h'
    rcases h'.inv with ⟨_, _, h, _⟩ | ⟨γ', i', f', a', b', e, h3, h4, rfl⟩ | ⟨_, h, _⟩
    · exact h.not_nt.elim
    · obtain ⟨rfl, rfl⟩ := hP.op_unique h1 h3 (by simp [(Fix.sides_pos h2).1, (Fix.sides_pos h4).1])
      rw [h2] at h4
      cases h4
      rfl
    · exact h.not_nt.elim
  | pre γ k i t h1 h2 h3 =>
    rcases h'.inv with ⟨_, _, _, h, _⟩ | ⟨γ', i, f, a, b, e, _⟩ | ⟨_, _, _, h⟩
    · exact (hP.par_pre h h3).elim
    · exact (h1.not_nt' e).elim
    · exact (hP.op_unique h3 h rfl).1

/-- What can stand behind an operand of level `i`. -/
inductive Fo (P : Prec) (i : Nat) : Term → Prop
  | eoi : Fo P i .eoi
  | close (t c) : (t, c) ∈ P.pars → Fo P i (.sym c)
  | bin (j f t a b) : P.Op j f t → f.sides = some (a, b) → j + a ≤ i → Fo P i (.sym t)
  | post (j t) : P.Op j .post t → j ≤ i → Fo P i (.sym t)

theorem Fo.mono {i j : Nat} {a : Term} (h : Fo P i a) (hij : i ≤ j) : Fo P j a := by
  cases h with
  | eoi => exact .eoi
  | close t c h => exact .close t c h
  | bin j' f t a b h1 h2 h3 => exact .bin j' f t a b h1 h2 (by omega)
  | post j' t h1 h2 => exact .post j' t h1 (by omega)

theorem Fo.bin_inv (hP : P.Ok) {i j : Nat} {f : Fix} {t a b : Nat} (h : Fo P i (.sym t)) (h1 : P.Op j f t) (h2 : f.sides = some (a, b)) : j + a ≤ i := by
  generalize hx : Term.sym t = x at h
  cases h with
  | eoi => cases hx
  | close t' c h => cases hx; exact (hP.close_op h h1 (Fix.sides_pos h2).1).elim
  | bin j' f' t' a' b' h1' h2' h3 =>
    cases hx
    obtain ⟨rfl, rfl⟩ := hP.op_unique h1 h1' (by simp [(Fix.sides_pos h2).1, (Fix.sides_pos h2').1])
    rw [h2] at h2'
    cases h2'
    exact h3
  | post j' t' h1' h3 =>
    cases hx
    obtain ⟨rfl, rfl⟩ := hP.op_unique h1 h1' (by simp [(Fix.sides_pos h2).1])
    exact absurd rfl (Fix.sides_pos h2).2.1

theorem Fo.post_inv (hP : P.Ok) {i j : Nat} {t : Nat} (h : Fo P i (.sym t)) (h1 : P.Op j .post t) : j ≤ i := by
  generalize hx : Term.sym t = x at h
  cases h with
  | eoi => cases hx
  | close t' c h => cases hx; exact (hP.close_op h h1 (by simp)).elim
  | bin j' f' t' a' b' h1' h2' h3 =>
    cases hx
    obtain ⟨rfl, rfl⟩ := hP.op_unique h1 h1' (by simp [(Fix.sides_pos h2').1])
    exact absurd rfl (Fix.sides_pos h2').2.1
  | post j' t' h1' h3 =>
    cases hx
    obtain ⟨rfl, _⟩ := hP.op_unique h1 h1' rfl
    exact h3

/-! ## Valid items -/

variable {g : Gram} {fresh : Nat}

/-- All rules are rules of `P`. -/
def PG (P : Prec) (g : Gram) : Prop := g.start = 0 ∧ ∀ r, r ∈ g.rules ↔ PR P r.lhs r.rhs

theorem PG.rule (hg : PG P g) {k : Nat} {rule : PRule} (h : (g.aug fresh)[k]? = some rule) :
    (k = g.rules.length ∧ rule = ⟨fresh, [.nt 0]⟩) ∨ (k ≠ g.rules.length ∧ PR P rule.lhs rule.rhs) := by
  by_cases hk : k = g.rules.length
  · subst hk
    rw [Gram.aug_start] at h
    cases h
    exact .inl ⟨rfl, by rw [hg.1]⟩
  · exact .inr ⟨hk, (hg.2 _).1 (List.mem_of_getElem? (Gram.aug_get' h hk))⟩

theorem derives_head {R : List PRule} {a b : Term} {x ρ : List Sym} (h : Derives R (.tm a :: x) (.tm b :: ρ)) : b = a := by
  generalize hu : Sym.tm a :: x = u at h
  generalize hv : Sym.tm b :: ρ = v at h
  have key : ∃ y, v = .tm a :: y := by
    clear hv
    induction h with
    | refl => exact ⟨_, hu.symm⟩
    | step x' y' r _ _ ih =>
      obtain ⟨y, hy⟩ := ih
      cases x' with
      | nil => simp at hy
      | cons X x' =>
        simp only [List.cons_append, List.cons.injEq] at hy
        exact ⟨x' ++ r.rhs ++ y', by simp [hy.1]⟩
  obtain ⟨y, rfl⟩ := key
  cases hv
  rfl

theorem PG.atom (hg : PG P g) (hP : P.Ok) : ∃ t, (⟨P.levels.length, [tk t]⟩ : PRule) ∈ g.rules := by
  obtain ⟨a, ha⟩ := List.exists_mem_of_ne_nil _ hP.some
  exact ⟨a, (hg.2 _).2 (.atom a ha)⟩

theorem PG.defined (hg : PG P g) (hP : P.Ok) {i : Nat} (hi : i ≤ P.levels.length) : ∃ r ∈ g.rules, r.lhs = i := by
  by_cases h : i = P.levels.length
  · obtain ⟨t, ht⟩ := hg.atom hP
    exact ⟨_, ht, h.symm⟩
  · exact ⟨⟨i, [.nt (i + 1)]⟩, (hg.2 _).2 (.unit i (by omega)), rfl⟩

/-- The item of the start rule comes first only. -/
theorem PG.start_item (hf : ¬ g.Used fresh) {γ : List Sym} {la : Term} (h : Valid (g.aug fresh) g.rules.length γ ⟨g.rules.length, 0, la⟩) :
    γ = [] ∧ la = .eoi := by
  obtain ⟨h1, ⟨_, h2⟩ | ⟨h2, _⟩⟩ := start_items hf h rfl
  · exact ⟨h2, h1⟩
  · cases h2

theorem PG.items (hg : PG P g) (hf : ¬ g.Used fresh) {γ : List Sym} {i : Item} (h : Valid (g.aug fresh) g.rules.length γ i) :
    ∃ γ0 rule, (g.aug fresh)[i.rule]? = some rule ∧ γ = γ0 ++ rule.rhs.take i.pos ∧
      ((i.rule = g.rules.length ∧ γ0 = [] ∧ i.la = .eoi) ∨ (i.rule ≠ g.rules.length ∧ ∃ k, Cx P γ0 k ∧ k ≤ rule.lhs ∧ Fo P rule.lhs i.la)) := by
  induction h with
  | start => exact ⟨[], _, Gram.aug_start, by simp, .inl ⟨rfl, rfl, rfl⟩⟩
  | advance γ i r X _ h1 h2 ih =>
    obtain ⟨γ0, rule, k1, rfl, k2⟩ := ih
    rw [h1] at k1
    cases k1
    exact ⟨γ0, r, h1, by rw [List.append_assoc, List.take_add_one, h2]; rfl, k2⟩
  | expand γ i r B j r' b ρ h1 h2 h3 h4 h5 h6 ih =>
    obtain ⟨γ0, rule, k1, rfl, k2⟩ := ih
    rw [h2] at k1
    cases k1
    refine ⟨γ0 ++ r.rhs.take i.pos, r', h4, by simp, ?_⟩
    by_cases hj : j = g.rules.length
    · subst hj
      have := PG.start_item hf (.expand _ i r B _ r' b ρ h1 h2 h3 h4 h5 h6)
      exact .inl ⟨rfl, this⟩
    refine .inr ⟨hj, ?_⟩
    subst h5
    rcases k2 with ⟨e1, rfl, e3⟩ | ⟨e1, k, c1, c2, c3⟩
    · rcases hg.rule h2 with ⟨_, rfl⟩ | ⟨e, _⟩
      · generalize i.pos = pos at h3 h6 ⊢
        rcases pos with _ | pos
        · rw [e3] at h6
          rw [derives_head h6]
          exact ⟨0, .nil, Nat.zero_le _, .eoi⟩
        · simp at h3
      · exact absurd e1 e
    · rcases hg.rule h2 with ⟨e, _⟩ | ⟨_, hr⟩
      · exact absurd e e1
      · obtain ⟨l, rhs⟩ := r
        simp only at h3 hr h6 c2 c3 ⊢
        generalize i.pos = pos at h3 h6 ⊢
        generalize i.la = la at c3 h6
        generalize r'.lhs = B at h3 ⊢
        cases hr with
        | unit _ _ =>
          rcases pos with _ | pos
          · simp at h3
            subst h3
            rw [derives_head h6]
            exact ⟨k, by simpa using c1, by omega, c3.mono (by omega)⟩
          · simp at h3
        | bin _ f t a b' o1 o2 =>
          rcases pos with _ | _ | _ | pos
          · simp at h3
            subst h3
            rw [derives_head h6]
            exact ⟨k, by simpa using c1, by omega, .bin _ f t a b' o1 o2 (Nat.le_refl _)⟩
          · simp at h3
          · simp at h3
            subst h3
            rw [derives_head h6]
            exact ⟨_, .bin γ0 _ f t a b' o1 o2, Nat.le_refl _, c3.mono (by omega)⟩
          · simp at h3
        | pre _ t o1 =>
          rcases pos with _ | _ | pos
          · simp at h3
          · simp at h3
            subst h3
            rw [derives_head h6]
            exact ⟨_, .pre γ0 k _ t c1 c2 o1, Nat.le_refl _, c3⟩
          · simp at h3
        | post _ t o1 =>
          rcases pos with _ | _ | pos
          · simp at h3
            subst h3
            rw [derives_head h6]
            exact ⟨k, by simpa using c1, c2, .post _ t o1 (Nat.le_refl _)⟩
          · simp at h3
          · simp at h3
        | atom t _ => rcases pos with _ | pos <;> simp at h3
        | par t c o1 =>
          rcases pos with _ | _ | _ | pos
          · simp at h3
          · simp at h3
            subst h3
            rw [derives_head h6]
            exact ⟨0, .par γ0 k t c c1 o1, Nat.le_refl _, .close t c o1⟩
          · simp at h3
          · simp at h3

/-! ## There are no conflicts -/

theorem PG.complete (hg : PG P g) (hf : ¬ g.Used fresh) {γ : List Sym} {r : Nat} {a : Term} (hr : r ≠ g.rules.length)
    (h : Complete (g.aug fresh) g.rules.length γ r a) :
    ∃ γ0 k rule, g.rules[r]? = some rule ∧ γ = γ0 ++ rule.rhs ∧ Cx P γ0 k ∧ k ≤ rule.lhs ∧ PR P rule.lhs rule.rhs ∧ Fo P rule.lhs a := by
  obtain ⟨rule, h1, h2⟩ := h
  obtain ⟨γ0, rule', h3, h4, h5⟩ := hg.items hf h2
  simp only at h3 h4 h5
  rw [h1] at h3
  cases h3
  rcases h5 with ⟨h5, _⟩ | ⟨_, k, h6, h7, h8⟩
  · exact absurd h5 hr
  · have := Gram.aug_get' h1 hr
    exact ⟨γ0, k, rule, this, by simpa using h4, h6, h7, (hg.2 _).1 (List.mem_of_getElem? this), h8⟩

theorem PG.expects (hg : PG P g) (hf : ¬ g.Used fresh) {γ : List Sym} {a : Term} (h : Expects (g.aug fresh) g.rules.length γ (.tm a)) :
    ∃ γ0 k l rhs pos, γ = γ0 ++ rhs.take pos ∧ Cx P γ0 k ∧ k ≤ l ∧ PR P l rhs ∧ rhs[pos]? = some (.tm a) := by
  obtain ⟨i, rule, h1, h2, h3⟩ := h
  obtain ⟨γ0, rule', h4, h5, h6⟩ := hg.items hf h1
  rw [h2] at h4
  cases h4
  rcases hg.rule h2 with ⟨_, rfl⟩ | ⟨h7, h8⟩
  · generalize i.pos = pos at h3
    rcases pos with _ | _ <;> simp at h3
  · rcases h6 with ⟨h6, _⟩ | ⟨_, k, h9, h10, _⟩
    · exact absurd h6 h7
    · exact ⟨γ0, k, _, _, _, h5, h9, h10, h8, h3⟩

theorem no_reduce_reduce (hP : P.Ok) {γ0 γ1 : List Sym} {k k' l l' : Nat} {rhs rhs' : List Sym} (he : γ0 ++ rhs = γ1 ++ rhs') (h0 : Cx P γ0 k) (h1 : Cx P γ1 k')
    (hk : k ≤ l) (hk' : k' ≤ l') (hr : PR P l rhs) (hr' : PR P l' rhs') : l = l' ∧ rhs = rhs' := by
  cases hr <;> cases hr' <;> simp only [append_two, append_three, snoc_inj, reduceCtorEq, and_false, Sym.nt.injEq, Sym.tm.injEq, Term.sym.injEq] at he
  case unit.unit => exact ⟨by omega, by rw [show l = l' by omega]⟩
  case unit.bin f t a b o2 o1 =>
    obtain ⟨rfl, he⟩ := he
    have := h0.unique hP (by rw [← append_two]; exact .bin _ _ f t a b o1 o2)
    omega
  case unit.pre t o1 =>
    obtain ⟨rfl, he⟩ := he
    have := h0.unique hP (.pre _ _ _ t h1 hk' o1)
    omega
  case bin.unit f t a b o2 o1 _ =>
    obtain ⟨rfl, he⟩ := he
    have := h1.unique hP (by rw [← append_two]; exact .bin _ _ f t a b o1 o2)
    omega
  case bin.bin f t a b o2 o1 f' t' a' b' o2' o1' =>
    obtain ⟨⟨⟨rfl, _⟩, rfl⟩, _⟩ := he
    obtain ⟨rfl, rfl⟩ := hP.op_unique o1 o1' (by simp [(Fix.sides_pos o2).1, (Fix.sides_pos o2').1])
    rw [o2] at o2'
    cases o2'
    exact ⟨rfl, rfl⟩
  case bin.pre => exact (h1.not_nt' he.1.1.symm).elim
  case pre.unit t o1 _ =>
    obtain ⟨rfl, he⟩ := he
    have := h1.unique hP (.pre _ _ _ t h0 hk o1)
    omega
  case pre.bin => exact (h0.not_nt' he.1.1).elim
  case pre.pre => obtain ⟨⟨rfl, rfl⟩, rfl⟩ := he; exact ⟨rfl, rfl⟩
  case post.post => obtain ⟨⟨rfl, rfl⟩, rfl⟩ := he; exact ⟨rfl, rfl⟩
  case post.atom => exact (h1.not_nt' he.1.symm).elim
  case post.par t o1 _ c o2 => obtain ⟨_, rfl⟩ := he; exact (hP.close_op o2 o1 (by simp)).elim
  case atom.post => exact (h0.not_nt' he.1).elim
  case atom.atom => obtain ⟨rfl, rfl⟩ := he; exact ⟨rfl, rfl⟩
  case atom.par => exact (h0.not_nt' he.1).elim
  case par.post o2 _ o1 => obtain ⟨_, rfl⟩ := he; exact (hP.close_op o2 o1 (by simp)).elim
  case par.atom => exact (h1.not_nt' he.1.symm).elim
  case par.par => obtain ⟨⟨⟨rfl, rfl⟩, _⟩, rfl⟩ := he; exact ⟨rfl, rfl⟩

/-- Where a token is expected. -/
inductive Want (P : Prec) : List Sym → Term → Prop
  | head (γ k a) : Cx P γ k → Want P γ a
  | bin (γ k i f t a b) : Cx P γ k → k ≤ i → P.Op i f t → f.sides = some (a, b) → Want P (γ ++ [.nt (i + a)]) (.sym t)
  | post (γ k i t) : Cx P γ k → k ≤ i → P.Op i .post t → Want P (γ ++ [.nt i]) (.sym t)
  | par (γ k t c) : Cx P γ k → (t, c) ∈ P.pars → Want P (γ ++ [tk t, .nt 0]) (.sym c)

theorem exp_of {γ0 : List Sym} {k l pos : Nat} {rhs : List Sym} {a : Term} (h0 : Cx P γ0 k) (hk : k ≤ l) (hr : PR P l rhs) (hp : rhs[pos]? = some (.tm a)) :
    Want P (γ0 ++ rhs.take pos) a := by
  cases hr with
  | unit => rcases pos with _ | _ <;> simp at hp
  | bin _ f t a b o1 o2 =>
    rcases pos with _ | _ | _ | _ <;> simp at hp
    subst hp
    exact .bin _ k _ f t a b h0 hk o1 o2
  | pre _ t o1 =>
    rcases pos with _ | _ | _ <;> simp at hp
    simp only [List.take_zero, List.append_nil]
    exact .head _ k _ h0
  | post _ t o1 =>
    rcases pos with _ | _ | _ <;> simp at hp
    subst hp
    exact .post _ k _ t h0 hk o1
  | atom t o1 =>
    rcases pos with _ | _ <;> simp at hp
    simp only [List.take_zero, List.append_nil]
    exact .head _ k _ h0
  | par t c o1 =>
    rcases pos with _ | _ | _ | _ <;> simp at hp
    · simp only [List.take_zero, List.append_nil]
      exact .head _ k _ h0
    · subst hp
      exact .par _ k t c h0 o1

theorem no_shift_reduce (hP : P.Ok) {γ γ1 : List Sym} {k l : Nat} {rhs : List Sym} {a : Term} (he : γ = γ1 ++ rhs) (h1 : Cx P γ1 k) (hk : k ≤ l) (hr : PR P l rhs)
    (hfo : Fo P l a) (hx : Want P γ a) : False := by
  cases hx with
  | head _ k' _ h0 =>
    subst he
    cases hr with
    | unit => exact h0.not_nt
    | bin => rw [append_three] at h0; exact h0.not_nt
    | pre => rw [append_two] at h0; exact h0.not_nt
    | post _ t o1 =>
      rw [append_two] at h0
      rcases h0.inv with ⟨_, _, h, _⟩ | ⟨_, i, f, a, b, _, o2, o3, _⟩ | ⟨_, h, _⟩
      · exact h.not_nt
      · exact (Fix.sides_pos o3).2.1 (hP.op_unique o2 o1 (by simp [(Fix.sides_pos o3).1])).2
      · exact h.not_nt
    | atom t o1 =>
      rcases h0.inv with ⟨_, _, _, h, _⟩ | ⟨_, i, f, a, b, e, _⟩ | ⟨_, _, _, h⟩
      · exact hP.atom_par o1 h
      · exact h1.not_nt' e
      · exact hP.atom_pre o1 h
    | par t c o1 =>
      rw [append_three] at h0
      rcases h0.inv with ⟨_, _, h, _⟩ | ⟨_, i, f, a, b, _, o2, o3, _⟩ | ⟨_, h, _⟩
      · exact h.not_nt
      · exact hP.close_op o1 o2 (Fix.sides_pos o3).1
      · exact h.not_nt
  | bin γ0 k' i f t a b h0 hk' o1 o2 =>
    have hle := hfo.bin_inv hP o1 o2
    cases hr <;> simp only [append_two, append_three, snoc_inj, reduceCtorEq, and_false, Sym.nt.injEq] at he
    case unit => omega
    case bin f' t' a' b' o2' o1' =>
      obtain ⟨rfl, he⟩ := he
      have := h0.unique hP (by rw [← append_two]; exact .bin _ _ f' t' a' b' o1' o2')
      obtain rfl : i = l := by omega
      have := o1.level o1'
      subst this
      rw [o2] at o2'
      cases o2'
      have := (Fix.sides_pos o2).2.2.1
      omega
    case pre t' o1' =>
      obtain ⟨rfl, he⟩ := he
      have := h0.unique hP (.pre _ _ _ t' h1 hk o1')
      obtain rfl : i = l := by omega
      exact (Fix.sides_pos o2).1 (o1.level o1')
  | post γ0 k' i t h0 hk' o1 =>
    have hle := hfo.post_inv hP o1
    cases hr <;> simp only [append_two, append_three, snoc_inj, reduceCtorEq, and_false, Sym.nt.injEq] at he
    case unit => omega
    case bin f' t' a' b' o2' o1' =>
      obtain ⟨rfl, he⟩ := he
      obtain rfl : i = l := by omega
      exact (Fix.sides_pos o2').2.1 (o1'.level o1)
    case pre t' o1' =>
      obtain ⟨rfl, rfl⟩ := he
      cases o1.level o1'
  | par γ0 k' t c h0 o1 =>
    cases hr <;> simp only [append_two, append_three, snoc_inj, reduceCtorEq, and_false, Sym.nt.injEq, Sym.tm.injEq, Term.sym.injEq] at he
    case bin => exact h0.not_nt' he.1.1
    case pre t' o1' =>
      obtain ⟨⟨rfl, rfl⟩, rfl⟩ := he
      exact hP.par_pre o1 o1'

theorem PG.no_clash (hg : PG P g) (hP : P.Ok) (hnd : g.rules.Nodup) (hf : ¬ g.Used fresh) : ¬ Clash (g.aug fresh) g.rules.length := by
  rintro ⟨γ, a, r, hr, hc, h | ⟨r2, hr2, hne, hc2⟩⟩
  · obtain ⟨γ1, k, rule, _, h1, h2, h3, h4, h5⟩ := hg.complete hf hr hc
    obtain ⟨γ0, k', l, rhs, pos, rfl, e2, e3, e4, e5⟩ := hg.expects hf h
    exact no_shift_reduce hP h1 h2 h3 h4 h5 (exp_of e2 e3 e4 e5)
  · obtain ⟨γ1, k, rule, m, h1, h2, h3, h4, h5⟩ := hg.complete hf hr hc
    obtain ⟨γ2, k', rule', m', h1', h2', h3', h4', h5'⟩ := hg.complete hf hr2 hc2
    obtain ⟨e1, e2⟩ := no_reduce_reduce hP (h1.symm.trans h1') h2 h2' h3 h3' h4 h4'
    have : rule = rule' := by cases rule; cases rule'; simp_all
    subst this
    exact hne ((List.getElem?_inj (List.getElem?_eq_some_iff.1 m').1 hnd).1 (m'.trans m.symm))

/-! ## Rules do not repeat -/

theorem precRules_lhs {atoms : List Nat} {pars : List (Nat × Nat)} {Ls : List Level} {i : Nat} {r : PRule} (h : r ∈ precRules atoms pars i Ls) : i ≤ r.lhs := by
  rcases mem_precRules.1 h with ⟨j, _, rfl⟩ | ⟨j, _, _, _, _, rfl⟩ | ⟨_, _, rfl⟩ | ⟨_, _, rfl⟩ <;> simp

theorem Fix.rhs_inj {f : Fix} {i t t' : Nat} (h : f.rhs i t = f.rhs i t') : t = t' := by
  cases f <;> simpa [Fix.rhs] using h

theorem nodup_map_of {α β : Type} {f : α → β} {l : List α} (h : l.Nodup) (hf : ∀ a ∈ l, ∀ b ∈ l, f a = f b → a = b) : (l.map f).Nodup := by
  rw [List.Nodup, List.pairwise_map]
  exact (List.pairwise_iff_forall_sublist.2 fun {a b} hab e => by
    have := List.pairwise_iff_forall_sublist.1 h hab
    exact this (hf a (hab.subset (by simp)) b (hab.subset (by simp)) e))

theorem precRules_nodup {atoms : List Nat} {pars : List (Nat × Nat)} (ha : atoms.Nodup) (hp : pars.Nodup) : ∀ {Ls : List Level} {i : Nat},
    (∀ L ∈ Ls, L.ops.Nodup) → (precRules atoms pars i Ls).Nodup := by
  intro Ls
  induction Ls with
  | nil =>
    intro i _
    rw [precRules, List.nodup_append]
    refine ⟨nodup_map_of ha (by simp), nodup_map_of hp (by rintro ⟨a, b⟩ _ ⟨c, d⟩ _; simp), ?_⟩
    intro a h1 b h2
    obtain ⟨t, _, rfl⟩ := List.mem_map.1 h1
    obtain ⟨x, _, rfl⟩ := List.mem_map.1 h2
    simp
  | cons L Ls ih =>
    intro i h
    rw [precRules, List.nodup_append]
    refine ⟨?_, ih fun L' h' => h L' (List.mem_cons_of_mem _ h'), ?_⟩
    · rw [List.nodup_cons]
      refine ⟨?_, nodup_map_of (h L List.mem_cons_self) fun a _ b _ e => Fix.rhs_inj (by injection e)⟩
      intro hm
      obtain ⟨t, _, e⟩ := List.mem_map.1 hm
      injection e with _ e
      generalize L.fix = f at e
      cases f <;> simp [Fix.rhs] at e
    · intro a h1 b h2 e
      subst e
      have := precRules_lhs h2
      rcases List.mem_cons.1 h1 with rfl | h1
      · simp at this
        omega
      · obtain ⟨t, _, rfl⟩ := List.mem_map.1 h1
        simp at this
        omega

theorem Prec.Ok.nodup (hP : P.Ok) : P.rules.Nodup := by
  have hb := List.nodup_append.1 hP.before
  have hb' := List.nodup_append.1 hb.1
  refine precRules_nodup hb'.1 ?_ ?_
  · have := hb'.2.1
    rw [List.Nodup, List.pairwise_map] at this
    exact this.imp fun h e => h (by rw [e])
  · intro L hL
    by_cases hp : L.fix = .pre
    · have := (List.pairwise_flatMap.1 hb.2.1).1 L hL
      rw [if_pos hp] at this
      exact this
    · have := (List.pairwise_flatMap.1 hP.after).1 L hL
      rw [if_neg hp] at this
      exact this

end Verif.Par
