import Verif.Par.Stmt
import Verif.Par.GramProof
import Verif.Par.RmProof
import Verif.Par.RmGram

/-!
# Valid items of lists of statements
-/

namespace Verif.Par

variable {N T E : Type} {S : Stmts N T E} {fresh : Nat}

/-- The rules for `I`. -/
inductive Stmts.IRule (S : Stmts N T E) : Nat → List Sym → Prop
  | stmt (j : Nat) (b) : S.bodies[j]? = some b → S.IRule (j + 2) ((b.1 ++ [S.sync]).map fun a => .tm (.sym a))
  | bad : S.IRule S.badRule [.tm .err, .tm (.sym S.sync)]

def Stmts.aug (S : Stmts N T E) (fresh : Nat) : List PRule := (gram S.rules 0).aug fresh

theorem Stmts.length_rules (S : Stmts N T E) : S.rules.length = S.bodies.length + 3 := by simp [rules]

theorem Stmts.rules_at (S : Stmts N T E) {k : Nat} {r : Rule N T E} : S.rules[k]? = some r ↔
    (k = 0 ∧ r = ⟨0, [.nt 0, .nt 1], S.more⟩) ∨ (k = 1 ∧ r = ⟨0, [.nt 1], S.first⟩) ∨
    (∃ j b, k = j + 2 ∧ S.bodies[j]? = some b ∧ r = ⟨1, (b.1 ++ [S.sync]).map fun a => .tm (.sym a), b.2⟩) ∨
    (k = S.badRule ∧ r = ⟨1, [.tm .err, .tm (.sym S.sync)], S.bad⟩) := by
  unfold rules badRule
  rcases k with _ | _ | k
  · simp [eq_comm]
  · simp [eq_comm]
  · simp only [List.cons_append, List.getElem?_cons_succ, Nat.add_right_cancel_iff, List.getElem?_append, List.length_map]
    split
    · rename_i h
      constructor
      · intro h'
        rw [List.getElem?_map] at h'
        cases hb : S.bodies[k]? with
        | none => simp [hb] at h'
        | some b => simp only [hb, Option.map_some, Option.some.injEq] at h'; exact .inr (.inr (.inl ⟨k, b, rfl, hb, h'.symm⟩))
      · rintro (⟨h', _⟩ | ⟨h', _⟩ | ⟨j, b, rfl, hb, rfl⟩ | ⟨h', _⟩)
        · omega
        · omega
        · simp [hb]
        · omega
    · rename_i h
      constructor
      · intro h'
        rw [List.getElem?_eq_some_iff] at h'
        obtain ⟨h1, h2⟩ := h'
        simp at h1
        have : k = S.bodies.length := by omega
        subst this
        simp at h2
        exact .inr (.inr (.inr ⟨rfl, h2.symm⟩))
      · rintro (⟨h', _⟩ | ⟨h', _⟩ | ⟨j, b, rfl, hb, rfl⟩ | ⟨rfl, rfl⟩)
        · omega
        · omega
        · have := (List.getElem?_eq_some_iff.1 hb).1
          omega
        · simp

theorem Stmts.aug_at (S : Stmts N T E) {k : Nat} {r : PRule} : (S.aug fresh)[k]? = some r ↔
    (k = 0 ∧ r = ⟨0, [.nt 0, .nt 1]⟩) ∨ (k = 1 ∧ r = ⟨0, [.nt 1]⟩) ∨ (S.IRule k r.rhs ∧ r.lhs = 1) ∨
    (k = S.rules.length ∧ r = ⟨fresh, [.nt 0]⟩) := by
  have hk : (S.aug fresh)[k]? = some r ↔ (∃ q, S.rules[k]? = some q ∧ r = q.plain) ∨ (k = S.rules.length ∧ r = ⟨fresh, [.nt 0]⟩) := by
    unfold aug Gram.aug gram
    simp only [List.getElem?_append, List.length_map]
    split
    · rename_i h
      rw [List.getElem?_map]
      constructor
      · intro h'
        cases hq : S.rules[k]? with
        | none => simp [hq] at h'
        | some q => simp only [hq, Option.map_some, Option.some.injEq] at h'; exact .inl ⟨q, rfl, h'.symm⟩
      · rintro (⟨q, hq, rfl⟩ | ⟨h', _⟩)
        · simp [hq]
        · omega
    · rename_i h
      constructor
      · intro h'
        rw [List.getElem?_eq_some_iff] at h'
        obtain ⟨h1, h2⟩ := h'
        simp at h1
        have : k = S.rules.length := by omega
        subst this
        simp at h2
        exact .inr ⟨rfl, h2.symm⟩
      · rintro (⟨q, hq, rfl⟩ | ⟨rfl, rfl⟩)
        · exact absurd (List.getElem?_eq_some_iff.1 hq).1 h
        · simp
  rw [hk]
  constructor
  · rintro (⟨q, hq, rfl⟩ | h)
    · rcases (S.rules_at).1 hq with ⟨rfl, rfl⟩ | ⟨rfl, rfl⟩ | ⟨j, b, rfl, hb, rfl⟩ | ⟨rfl, rfl⟩
      · exact .inl ⟨rfl, rfl⟩
      · exact .inr (.inl ⟨rfl, rfl⟩)
      · exact .inr (.inr (.inl ⟨.stmt j b hb, rfl⟩))
      · exact .inr (.inr (.inl ⟨.bad, rfl⟩))
    · exact .inr (.inr (.inr h))
  · rintro (⟨rfl, rfl⟩ | ⟨rfl, rfl⟩ | ⟨h, hl⟩ | h)
    · exact .inl ⟨_, (S.rules_at).2 (.inl ⟨rfl, rfl⟩), rfl⟩
    · exact .inl ⟨_, (S.rules_at).2 (.inr (.inl ⟨rfl, rfl⟩)), rfl⟩
    · left
      obtain ⟨l, rhs⟩ := r
      simp only at h hl
      subst hl
      cases h with
      | stmt j b hb => exact ⟨_, (S.rules_at).2 (.inr (.inr (.inl ⟨j, b, rfl, hb, rfl⟩))), rfl⟩
      | bad => exact ⟨_, (S.rules_at).2 (.inr (.inr (.inr ⟨rfl, rfl⟩))), rfl⟩
    · exact .inr h

/-- The look-aheads: the end of input and what can begin a statement. -/
def Stmts.La (S : Stmts N T E) (a : Term) : Prop := a = .eoi ∨ ∃ k rhs, S.IRule k (.tm a :: rhs)

/-- What stands in front of an item. -/
def Front (γ : List Sym) : Prop := γ = [] ∨ γ = [.nt 0]

def NoNt (l : List Sym) : Prop := ∀ n, Sym.nt n ∉ l

theorem Stmts.IRule.noNt {k : Nat} {rhs : List Sym} (h : S.IRule k rhs) : NoNt rhs := by
  intro n hn
  cases h <;> simp at hn

/-- The valid items. -/
def Stmts.Shape (S : Stmts N T E) (γ : List Sym) (i : Item) : Prop :=
  (γ = [] ∧ i = ⟨S.rules.length, 0, .eoi⟩) ∨ (γ = [.nt 0] ∧ i = ⟨S.rules.length, 1, .eoi⟩) ∨ (S.La i.la ∧
    ((i.rule = 0 ∧ i.pos ≤ 2 ∧ γ = [.nt 0, .nt 1].take i.pos) ∨ (i.rule = 1 ∧ i.pos ≤ 1 ∧ γ = [.nt 1].take i.pos) ∨
    ∃ γ0 rhs, Front γ0 ∧ S.IRule i.rule rhs ∧ i.pos ≤ rhs.length ∧ γ = γ0 ++ rhs.take i.pos))

theorem Stmts.IRule.ne {k : Nat} {rhs : List Sym} (h : S.IRule k rhs) : k ≠ 0 ∧ k ≠ 1 ∧ k ≠ S.rules.length := by
  rw [S.length_rules]
  cases h with
  | stmt j b hb =>
    have := (List.getElem?_eq_some_iff.1 hb).1
    omega
  | bad => unfold badRule; omega

/-- What begins an item. -/
theorem Stmts.first_item {b : Term} {l ρ : List Sym} (hf : fresh ≠ 1) (h : Derives (S.aug fresh) (.nt 1 :: l) (.tm b :: ρ)) :
    ∃ k rhs, S.IRule k (.tm b :: rhs) := by
  obtain ⟨u, v, h1, h2, h3⟩ := (gen_iff.2 h).split_cons
  rcases gen_single h2 with rfl | ⟨r, hr, hx, hg⟩
  · simp at h1
  · obtain ⟨k, hk⟩ := List.getElem?_of_mem hr
    simp only [Sym.nt.injEq] at hx
    rcases S.aug_at.1 hk with ⟨_, rfl⟩ | ⟨_, rfl⟩ | ⟨h4, _⟩ | ⟨_, rfl⟩
    · cases hx
    · cases hx
    · obtain ⟨l, rhs⟩ := r
      simp only at h4 hg
      have : ∃ t rhs', rhs = .tm t :: rhs' := by
        cases h4 with
        | stmt j b hb => cases hb : b.1 <;> simp
        | bad => exact ⟨_, _, rfl⟩
      obtain ⟨t, rhs', rfl⟩ := this
      obtain ⟨v', rfl, _⟩ := hg.terminal
      simp at h1
      rw [h1.1]
      exact ⟨k, rhs', h4⟩
    · exact absurd hx.symm hf

theorem derives_tm {R : List PRule} {a b : Term} {ρ : List Sym} (h : Derives R [.tm a] (.tm b :: ρ)) : b = a := by
  obtain ⟨v, h1, _⟩ := (gen_iff.2 h).terminal
  simp at h1
  exact h1.1

theorem Stmts.shape_of_valid (hf : fresh ≠ 0 ∧ fresh ≠ 1) {γ : List Sym} {i : Item} (h : Valid (S.aug fresh) S.rules.length γ i) : S.Shape γ i := by
  have hlen := S.length_rules
  induction h with
  | start => exact .inl ⟨rfl, rfl⟩
  | advance γ i r X _ h1 h2 ih =>
    rcases ih with ⟨rfl, rfl⟩ | ⟨rfl, rfl⟩ | ⟨hla, h⟩
    · rcases S.aug_at.1 h1 with ⟨h3, _⟩ | ⟨h3, _⟩ | ⟨h3, _⟩ | ⟨_, rfl⟩
      · simp only at h3; omega
      · simp only at h3; omega
      · exact absurd rfl h3.ne.2.2
      · simp at h2
        subst h2
        exact .inr (.inl ⟨rfl, rfl⟩)
    · rcases S.aug_at.1 h1 with ⟨h3, _⟩ | ⟨h3, _⟩ | ⟨h3, _⟩ | ⟨_, rfl⟩
      · simp only at h3; omega
      · simp only at h3; omega
      · exact absurd rfl h3.ne.2.2
      · simp at h2
    · refine .inr (.inr ⟨hla, ?_⟩)
      rcases h with ⟨h3, h4, rfl⟩ | ⟨h3, h4, rfl⟩ | ⟨γ0, rhs, hγ, h3, h4, rfl⟩
      · left
        rcases S.aug_at.1 h1 with ⟨_, rfl⟩ | ⟨h5, _⟩ | ⟨h5, _⟩ | ⟨h5, rfl⟩
        · have hlt := (List.getElem?_eq_some_iff.1 h2).1
          simp only at h2 hlt
          refine ⟨h3, hlt, ?_⟩
          rw [List.take_add_one, h2]
          rfl
        · omega
        · exact absurd h3 h5.ne.1
        · omega
      · right; left
        rcases S.aug_at.1 h1 with ⟨h5, _⟩ | ⟨_, rfl⟩ | ⟨h5, _⟩ | ⟨h5, rfl⟩
        · omega
        · have hlt := (List.getElem?_eq_some_iff.1 h2).1
          simp only at h2 hlt
          refine ⟨h3, hlt, ?_⟩
          rw [List.take_add_one, h2]
          rfl
        · exact absurd h3 h5.ne.2.1
        · omega
      · right; right
        rcases S.aug_at.1 h1 with ⟨h5, _⟩ | ⟨h5, _⟩ | ⟨h5, h6⟩ | ⟨h5, _⟩
        · exact absurd h5 h3.ne.1
        · exact absurd h5 h3.ne.2.1
        · have hlt := (List.getElem?_eq_some_iff.1 h2).1
          have : rhs = r.rhs := by
            have e := (S.aug_at (fresh := fresh) (r := ⟨1, rhs⟩)).2 (.inr (.inr (.inl ⟨h3, rfl⟩)))
            rw [h1] at e
            cases e
            rfl
          subst this
          refine ⟨γ0, _, hγ, h3, hlt, ?_⟩
          rw [List.take_add_one, h2, List.append_assoc]
          rfl
        · exact absurd h5 h3.ne.2.2
  | expand γ i r B j r' b ρ _ h1 h2 h3 h4 h5 ih =>
    have hB : ∀ rhs, S.IRule i.rule rhs → False := by
      intro rhs hI
      rcases S.aug_at.1 h1 with ⟨h6, _⟩ | ⟨h6, _⟩ | ⟨h6, _⟩ | ⟨h6, _⟩
      · exact absurd h6 hI.ne.1
      · exact absurd h6 hI.ne.2.1
      · exact h6.noNt B (List.mem_of_getElem? h2)
      · exact absurd h6 hI.ne.2.2
    rcases ih with ⟨rfl, rfl⟩ | ⟨rfl, rfl⟩ | ⟨hla, h⟩
    · rcases S.aug_at.1 h1 with ⟨h6, _⟩ | ⟨h6, _⟩ | ⟨h6, _⟩ | ⟨_, rfl⟩
      · simp only at h6; omega
      · simp only at h6; omega
      · exact absurd rfl h6.ne.2.2
      · simp at h2
        subst h2
        have hb : b = .eoi := derives_tm (by simpa using h5)
        subst hb
        refine .inr (.inr ⟨.inl rfl, ?_⟩)
        rcases S.aug_at.1 h3 with ⟨rfl, _⟩ | ⟨rfl, _⟩ | ⟨_, h7⟩ | ⟨_, rfl⟩
        · exact .inl ⟨rfl, Nat.zero_le _, rfl⟩
        · exact .inr (.inl ⟨rfl, Nat.zero_le _, rfl⟩)
        · omega
        · exact absurd h4 hf.1
    · rcases S.aug_at.1 h1 with ⟨h6, _⟩ | ⟨h6, _⟩ | ⟨h6, _⟩ | ⟨_, rfl⟩
      · simp only at h6; omega
      · simp only at h6; omega
      · exact absurd rfl h6.ne.2.2
      · simp at h2
    · have hone : r'.lhs = 1 → ∀ γ0, Front γ0 → S.La b → S.Shape γ0 ⟨j, 0, b⟩ := by
        intro hl γ0 hγ hb
        refine .inr (.inr ⟨hb, .inr (.inr ⟨γ0, r'.rhs, hγ, ?_, Nat.zero_le _, by simp⟩)⟩)
        rcases S.aug_at.1 h3 with ⟨_, rfl⟩ | ⟨_, rfl⟩ | ⟨h7, _⟩ | ⟨_, rfl⟩
        · cases hl
        · cases hl
        · exact h7
        · exact absurd hl hf.2
      rcases h with ⟨h6, h7, rfl⟩ | ⟨h6, h7, rfl⟩ | ⟨γ0, rhs, hγ, h6, h7, rfl⟩
      · rcases S.aug_at.1 h1 with ⟨_, rfl⟩ | ⟨h8, _⟩ | ⟨h8, _⟩ | ⟨h8, _⟩
        · have : i.pos = 0 ∨ i.pos = 1 := by
            have := (List.getElem?_eq_some_iff.1 h2).1
            simp at this
            omega
          rcases this with hp | hp
          · rw [hp] at h2 h5 ⊢
            simp at h2
            subst h2
            obtain ⟨k, rhs, hI⟩ := S.first_item hf.2 (l := [.tm i.la]) (by simpa using h5)
            refine .inr (.inr ⟨.inr ⟨k, rhs, hI⟩, ?_⟩)
            rcases S.aug_at.1 h3 with ⟨rfl, _⟩ | ⟨rfl, _⟩ | ⟨_, h9⟩ | ⟨_, rfl⟩
            · exact .inl ⟨rfl, Nat.zero_le _, rfl⟩
            · exact .inr (.inl ⟨rfl, Nat.zero_le _, rfl⟩)
            · omega
            · exact absurd h4 hf.1
          · rw [hp] at h2 h5 ⊢
            simp at h2
            subst h2
            have hb : b = i.la := derives_tm (by simpa using h5)
            subst hb
            exact hone h4 _ (.inr rfl) hla
        · omega
        · exact absurd h6 h8.ne.1
        · omega
      · rcases S.aug_at.1 h1 with ⟨h8, _⟩ | ⟨_, rfl⟩ | ⟨h8, _⟩ | ⟨h8, _⟩
        · omega
        · have hp : i.pos = 0 := by
            have := (List.getElem?_eq_some_iff.1 h2).1
            simp at this
            omega
          rw [hp] at h2 h5 ⊢
          simp at h2
          subst h2
          have hb : b = i.la := derives_tm (by simpa using h5)
          subst hb
          exact hone h4 _ (.inl rfl) hla
        · exact absurd h6 h8.ne.2.1
        · omega
      · exact absurd h6 (hB rhs)

theorem Stmts.valid_of_shape {γ : List Sym} {i : Item} (h : S.Shape γ i) : Valid (S.aug fresh) S.rules.length γ i := by
  have r0 : (S.aug fresh)[0]? = some ⟨0, [.nt 0, .nt 1]⟩ := S.aug_at.2 (.inl ⟨rfl, rfl⟩)
  have r1 : (S.aug fresh)[1]? = some ⟨0, [.nt 1]⟩ := S.aug_at.2 (.inr (.inl ⟨rfl, rfl⟩))
  have rs : (S.aug fresh)[S.rules.length]? = some ⟨fresh, [.nt 0]⟩ := S.aug_at.2 (.inr (.inr (.inr ⟨rfl, rfl⟩)))
  have e0 : Valid (S.aug fresh) S.rules.length [] ⟨0, 0, .eoi⟩ :=
    .expand [] _ _ 0 0 _ .eoi [] .start rs rfl r0 rfl (.refl _)
  have e1 : Valid (S.aug fresh) S.rules.length [] ⟨1, 0, .eoi⟩ :=
    .expand [] _ _ 0 1 _ .eoi [] .start rs rfl r1 rfl (.refl _)
  have hI : ∀ k rhs, S.IRule k rhs → (S.aug fresh)[k]? = some ⟨1, rhs⟩ := fun k rhs h => S.aug_at.2 (.inr (.inr (.inl ⟨h, rfl⟩)))
  have l0 : ∀ a, S.La a → Valid (S.aug fresh) S.rules.length [] ⟨0, 0, a⟩ ∧ Valid (S.aug fresh) S.rules.length [] ⟨1, 0, a⟩ := by
    rintro a (rfl | ⟨k, rhs, h⟩)
    · exact ⟨e0, e1⟩
    · have hd : Derives (S.aug fresh) [.nt 1, .tm .eoi] (.tm a :: (rhs ++ [.tm .eoi])) :=
        Derives.step _ [] [.tm .eoi] ⟨1, .tm a :: rhs⟩ (.refl _) (List.mem_of_getElem? (hI _ _ h))
      exact ⟨.expand [] _ _ 0 0 _ a _ e0 r0 rfl r0 rfl hd, .expand [] _ _ 0 1 _ a _ e0 r0 rfl r1 rfl hd⟩
  rcases h with ⟨rfl, rfl⟩ | ⟨rfl, rfl⟩ | ⟨hla, h⟩
  · exact .start
  · exact Valid.advance [] ⟨S.rules.length, 0, .eoi⟩ _ (.nt 0) .start rs rfl
  · obtain ⟨q, pos, a⟩ := i
    simp only at hla h
    rcases h with ⟨rfl, h4, rfl⟩ | ⟨rfl, h4, rfl⟩ | ⟨γ0, rhs, hγ, h3, h4, rfl⟩
    · exact (l0 a hla).1.advance_to r0 pos h4
    · exact (l0 a hla).2.advance_to r1 pos h4
    · refine Valid.advance_to ?_ (hI _ _ h3) pos h4
      rcases hγ with rfl | rfl
      · exact .expand [] _ _ 1 q _ a [] (l0 a hla).2 r1 rfl (hI _ _ h3) rfl (.refl _)
      · exact .expand [.nt 0] ⟨0, 1, a⟩ _ 1 q _ a [] ((l0 a hla).1.advance_to r0 1 (by simp)) r0 rfl (hI _ _ h3) rfl (.refl _)

theorem front_inj {γ0 γ0' y y' : List Sym} (h : Front γ0) (h' : Front γ0') (hy : NoNt y) (hy' : NoNt y') (he : γ0 ++ y = γ0' ++ y') :
    γ0 = γ0' ∧ y = y' := by
  rcases h with rfl | rfl <;> rcases h' with rfl | rfl
  · exact ⟨rfl, he⟩
  · exact absurd (show Sym.nt 0 ∈ y by simp at he; simp [he]) (hy 0)
  · exact absurd (show Sym.nt 0 ∈ y' by simp at he; simp [← he]) (hy' 0)
  · exact ⟨rfl, by simpa using he⟩

theorem NoNt.take {l : List Sym} (h : NoNt l) (n : Nat) : NoNt (l.take n) := fun m hm => h m (List.mem_of_mem_take hm)

section facts

variable (hf : fresh ≠ 0 ∧ fresh ≠ 1)
include hf

theorem Stmts.expects_iff {γ0 y : List Sym} {a : Term} (hγ : Front γ0) (hy : NoNt y) :
    Expects (S.aug fresh) S.rules.length (γ0 ++ y) (.tm a) ↔ ∃ k rhs, S.IRule k rhs ∧ y ++ [.tm a] <+: rhs := by
  constructor
  · rintro ⟨i, rule, h1, h2, h3⟩
    have hI : S.IRule i.rule rule.rhs := by
      rcases S.aug_at.1 h2 with ⟨_, rfl⟩ | ⟨_, rfl⟩ | ⟨h4, _⟩ | ⟨_, rfl⟩
      · have := List.mem_of_getElem? h3
        simp at this
      · have := List.mem_of_getElem? h3
        simp at this
      · exact h4
      · have := List.mem_of_getElem? h3
        simp at this
    refine ⟨_, _, hI, ?_⟩
    rcases S.shape_of_valid hf h1 with ⟨_, rfl⟩ | ⟨_, rfl⟩ | ⟨_, ⟨h4, _⟩ | ⟨h4, _⟩ | ⟨γ0', rhs, h4, h5, h6, h7⟩⟩
    · exact absurd rfl hI.ne.2.2
    · exact absurd rfl hI.ne.2.2
    · exact absurd h4 hI.ne.1
    · exact absurd h4 hI.ne.2.1
    · have e := (S.aug_at (fresh := fresh) (r := ⟨1, rhs⟩)).2 (.inr (.inr (.inl ⟨h5, rfl⟩)))
      rw [h2] at e
      cases e
      obtain ⟨_, rfl⟩ := front_inj hγ h4 hy (hI.noNt.take _) h7
      refine ⟨rhs.drop (i.pos + 1), ?_⟩
      have := List.take_add_one (l := rhs) (i := i.pos)
      rw [h3] at this
      simp only [Option.toList_some] at this
      rw [← this, List.take_append_drop]
  · rintro ⟨k, rhs, hI, z, rfl⟩
    refine ⟨⟨k, y.length, .eoi⟩, ⟨1, y ++ [.tm a] ++ z⟩, S.valid_of_shape (.inr (.inr ⟨.inl rfl, .inr (.inr ⟨γ0, _, hγ, hI, ?_, ?_⟩)⟩)),
      S.aug_at.2 (.inr (.inr (.inl ⟨hI, rfl⟩))), ?_⟩ <;> simp

theorem Stmts.complete_iff {γ0 y : List Sym} {a : Term} {r : Nat} (hγ : Front γ0) (hy : NoNt y) (hr : r ≠ S.rules.length) :
    Complete (S.aug fresh) S.rules.length (γ0 ++ y) r a ↔ S.IRule r y ∧ S.La a := by
  constructor
  · rintro ⟨rule, h1, h2⟩
    rcases S.shape_of_valid hf h2 with ⟨_, h3⟩ | ⟨_, h3⟩ | ⟨hla, ⟨h4, _, h6⟩ | ⟨h4, _, h6⟩ | ⟨γ0', rhs, h4, h5, h6, h7⟩⟩
    · exact absurd (congrArg Item.rule h3) hr
    · exact absurd (congrArg Item.rule h3) hr
    · simp only at h4 h6
      subst h4
      rcases S.aug_at.1 h1 with ⟨_, rfl⟩ | ⟨h, _⟩ | ⟨h, _⟩ | ⟨h, _⟩
      · simp at h6
        rcases hγ with rfl | rfl
        · simp at h6
          exact absurd (show Sym.nt 0 ∈ y by simp [h6]) (hy 0)
        · simp at h6
          exact absurd (show Sym.nt 1 ∈ y by simp [h6]) (hy 1)
      · omega
      · exact absurd rfl h.ne.1
      · omega
    · simp only at h4 h6
      subst h4
      rcases S.aug_at.1 h1 with ⟨h, _⟩ | ⟨_, rfl⟩ | ⟨h, _⟩ | ⟨h, _⟩
      · omega
      · simp at h6
        rcases hγ with rfl | rfl
        · simp at h6
          exact absurd (show Sym.nt 1 ∈ y by simp [h6]) (hy 1)
        · simp at h6
      · exact absurd rfl h.ne.2.1
      · omega
    · have e := (S.aug_at (fresh := fresh) (r := ⟨1, rhs⟩)).2 (.inr (.inr (.inl ⟨h5, rfl⟩)))
      rw [h1] at e
      cases e
      simp only [List.take_length] at h7
      obtain ⟨_, rfl⟩ := front_inj hγ h4 hy h5.noNt h7
      exact ⟨h5, hla⟩
  · rintro ⟨h1, h2⟩
    exact ⟨⟨1, y⟩, S.aug_at.2 (.inr (.inr (.inl ⟨h1, rfl⟩))), S.valid_of_shape (.inr (.inr ⟨h2, .inr (.inr ⟨γ0, y, hγ, h1, Nat.le_refl _, by simp⟩)⟩))⟩

theorem Stmts.errRule_iff {γ : List Sym} {r : Nat} : ErrRule (S.aug fresh) S.rules.length γ r ↔ Front γ ∧ r = S.badRule := by
  constructor
  · rintro ⟨i, rule, h1, rfl, h2, h3⟩
    have hm := List.mem_of_getElem? h3
    have hI : S.IRule i.rule rule.rhs := by
      rcases S.aug_at.1 h2 with ⟨_, rfl⟩ | ⟨_, rfl⟩ | ⟨h4, _⟩ | ⟨_, rfl⟩
      · simp at hm
      · simp at hm
      · exact h4
      · simp at hm
    have hb : i.rule = S.badRule ∧ rule.rhs = [.tm .err, .tm (.sym S.sync)] := by
      generalize i.rule = k at hI
      generalize rule.rhs = rhs at hI hm
      cases hI with
      | stmt j b hb => simp at hm
      | bad => exact ⟨rfl, rfl⟩
    refine ⟨?_, hb.1⟩
    have hp : i.pos = 0 := by
      rw [hb.2] at h3
      match i.pos, h3 with
      | 0, _ => rfl
      | 1, h3 => simp at h3
      | n + 2, h3 => simp at h3
    rcases S.shape_of_valid hf h1 with ⟨_, rfl⟩ | ⟨_, rfl⟩ | ⟨_, ⟨h4, _⟩ | ⟨h4, _⟩ | ⟨γ0', rhs, h4, h5, h6, h7⟩⟩
    · exact absurd rfl hI.ne.2.2
    · exact absurd rfl hI.ne.2.2
    · exact absurd h4 hI.ne.1
    · exact absurd h4 hI.ne.2.1
    · rw [h7, hp]
      simpa using h4
  · rintro ⟨h, rfl⟩
    exact ⟨⟨S.badRule, 0, .eoi⟩, ⟨1, [.tm .err, .tm (.sym S.sync)]⟩, S.valid_of_shape (.inr (.inr ⟨.inl rfl, .inr (.inr ⟨γ, _, h, .bad, Nat.zero_le _, by simp⟩)⟩)),
      rfl, S.aug_at.2 (.inr (.inr (.inl ⟨.bad, rfl⟩))), rfl⟩

/-- An item has been read. -/
theorem Stmts.item_read {γ0 : List Sym} (hγ : Front γ0) :
    (∀ a, ¬ Expects (S.aug fresh) S.rules.length (γ0 ++ [.nt 1]) (.tm a)) ∧
    ∀ r a, r ≠ S.rules.length → (Complete (S.aug fresh) S.rules.length (γ0 ++ [.nt 1]) r a ↔ r = (if γ0 = [] then 1 else 0) ∧ S.La a) := by
  have hno : ∀ i rhs γ0', S.IRule i rhs → Front γ0' → ∀ n, γ0 ++ [Sym.nt 1] = γ0' ++ rhs.take n → False := by
    intro i rhs γ0' h1 h2 n h3
    have : Sym.nt 1 ∈ γ0' ++ rhs.take n := by rw [← h3]; simp
    rcases List.mem_append.1 this with h | h
    · rcases h2 with rfl | rfl <;> simp at h
    · exact h1.noNt.take n 1 h
  constructor
  · rintro a ⟨i, rule, h1, h2, h3⟩
    have hm := List.mem_of_getElem? h3
    have hI : S.IRule i.rule rule.rhs := by
      rcases S.aug_at.1 h2 with ⟨_, rfl⟩ | ⟨_, rfl⟩ | ⟨h4, _⟩ | ⟨_, rfl⟩
      · simp at hm
      · simp at hm
      · exact h4
      · simp at hm
    rcases S.shape_of_valid hf h1 with ⟨_, rfl⟩ | ⟨_, rfl⟩ | ⟨_, ⟨h4, _⟩ | ⟨h4, _⟩ | ⟨γ0', rhs, h4, h5, h6, h7⟩⟩
    · exact absurd rfl hI.ne.2.2
    · exact absurd rfl hI.ne.2.2
    · exact absurd h4 hI.ne.1
    · exact absurd h4 hI.ne.2.1
    · exact hno _ _ _ h5 h4 _ h7
  · intro r a hr
    constructor
    · rintro ⟨rule, h1, h2⟩
      rcases S.shape_of_valid hf h2 with ⟨_, h3⟩ | ⟨_, h3⟩ | ⟨hla, ⟨h4, _, h6⟩ | ⟨h4, _, h6⟩ | ⟨γ0', rhs, h4, h5, h6, h7⟩⟩
      · exact absurd (congrArg Item.rule h3) hr
      · exact absurd (congrArg Item.rule h3) hr
      · simp only at h4 h6
        subst h4
        rcases S.aug_at.1 h1 with ⟨_, rfl⟩ | ⟨h, _⟩ | ⟨h, _⟩ | ⟨h, _⟩
        · simp at h6
          refine ⟨?_, hla⟩
          rcases hγ with rfl | rfl
          · simp at h6
          · simp
        · omega
        · exact absurd rfl h.ne.1
        · omega
      · simp only at h4 h6
        subst h4
        rcases S.aug_at.1 h1 with ⟨h, _⟩ | ⟨_, rfl⟩ | ⟨h, _⟩ | ⟨h, _⟩
        · omega
        · simp at h6
          exact ⟨by simp [h6], hla⟩
        · exact absurd rfl h.ne.2.1
        · omega
      · exact absurd h7 (hno _ _ _ h5 h4 _)
    · rintro ⟨rfl, hla⟩
      rcases hγ with rfl | rfl
      · exact ⟨⟨0, [.nt 1]⟩, S.aug_at.2 (.inr (.inl ⟨rfl, rfl⟩)), S.valid_of_shape (.inr (.inr ⟨hla, .inr (.inl ⟨rfl, Nat.le_refl _, rfl⟩)⟩))⟩
      · exact ⟨⟨0, [.nt 0, .nt 1]⟩, S.aug_at.2 (.inl ⟨rfl, rfl⟩), S.valid_of_shape (.inr (.inr ⟨hla, .inl ⟨rfl, Nat.le_refl _, rfl⟩⟩))⟩

end facts

end Verif.Par
