import Verif.Par.OpsProof

/-!
# What the valid items of operator grammars are
-/

namespace Verif.Par

variable {o : Ops} {s : Nat}

/-- The begins of rules. -/
inductive Tau (o : Ops) (s : Nat) : List Sym → Prop
  | e : Tau o s [.nt s]
  | t (t) : Tau o s [tk t]
  | te (t) : Tau o s [tk t, .nt s]
  | et (t) : t ∈ o.posts ∨ t ∈ o.bins → Tau o s [.nt s, tk t]
  | ete (t) : t ∈ o.bins → Tau o s [.nt s, tk t, .nt s]
  | tec (t c) : (t, c) ∈ o.pars ∨ (t, c) ∈ o.ites → Tau o s [tk t, .nt s, tk c]
  | tece (t c) : (t, c) ∈ o.ites → Tau o s [tk t, .nt s, tk c, .nt s]

theorem OpRule.tau {rhs : List Sym} (h : OpRule o s rhs) (k : Nat) : Tau o s (rhs.take (k + 1)) := by
  cases h with
  | atom t h => simpa using (show Tau o s _ from .t t)
  | pre t h => rcases k with _ | k; exact .t t; simpa using (show Tau o s _ from .te t)
  | post t h => rcases k with _ | k; exact .e; simpa using (show Tau o s _ from .et t (.inl h))
  | bin t h => rcases k with _ | _ | k; exact .e; exact .et t (.inr h); simpa using (show Tau o s _ from .ete t h)
  | par t c h => rcases k with _ | _ | k; exact .t t; exact .te t; simpa using (show Tau o s _ from .tec t c (.inl h))
  | cond t e h => rcases k with _ | k; exact .t t; simpa using (show Tau o s _ from .te t)
  | ite t c h => rcases k with _ | _ | _ | k; exact .t t; exact .te t; exact .tec t c (.inr h); simpa using (show Tau o s _ from .tece t c h)

/-- The last symbol is the non-terminal. -/
def EndsE (s : Nat) (γ : List Sym) : Prop := ∃ x, γ = x ++ [.nt s]

theorem not_endsE {γ z : List Sym} (h : ¬ EndsE s γ) (he : γ.reverse = .nt s :: z) : False :=
  h ⟨z.reverse, by rw [← List.reverse_reverse γ, he]; simp⟩

theorem tau_eq (ha : o.Apart) {l l' x y : List Sym} (h : Tau o s l) (h' : Tau o s l') (hx : ¬ EndsE s x) (hy : ¬ EndsE s y) (he : x ++ l = y ++ l') :
    l = l' ∨ (l = [.nt s] ∧ EndsE s l') ∨ (l' = [.nt s] ∧ EndsE s l) := by
  have hq : ∀ t c, (t, c) ∈ o.pars ∨ (t, c) ∈ o.ites → c ∉ o.posts ∧ c ∉ o.bins := by
    rintro t c (h | h)
    · exact ⟨ha.cq _ _ h, ha.cb _ _ h⟩
    · exact ⟨ha.eq _ _ h, ha.eb _ _ h⟩
  have hr := congrArg List.reverse he
  have ee : ∀ {l0 : List Sym}, EndsE s (l0 ++ [.nt s]) := ⟨_, rfl⟩
  cases h <;> cases h' <;> simp only [List.reverse_append, List.reverse_cons, List.reverse_nil, List.nil_append, List.cons_append,
    List.cons.injEq, reduceCtorEq, false_and, and_false, true_and, Sym.tm.injEq, Term.sym.injEq] at hr
  case e.e => exact .inl rfl
  case e.te t => exact .inr (.inl ⟨rfl, [tk t], rfl⟩)
  case e.ete t _ => exact .inr (.inl ⟨rfl, [.nt s, tk t], rfl⟩)
  case e.tece t c _ => exact .inr (.inl ⟨rfl, [tk t, .nt s, tk c], rfl⟩)
  case te.e t => exact .inr (.inr ⟨rfl, [tk t], rfl⟩)
  case ete.e t _ => exact .inr (.inr ⟨rfl, [.nt s, tk t], rfl⟩)
  case tece.e t c _ => exact .inr (.inr ⟨rfl, [tk t, .nt s, tk c], rfl⟩)
  all_goals first
    | (exfalso; exact not_endsE hx hr.2)
    | (exfalso; exact not_endsE hy hr.2.symm)
    | skip
  case t.t => exact .inl (by rw [hr.1])
  case te.te => exact .inl (by rw [hr.1])
  case et.et => exact .inl (by rw [hr.1])
  case ete.ete => exact .inl (by rw [hr.1])
  case tec.tec => exact .inl (by rw [hr.1, hr.2.1])
  case tece.tece => exact .inl (by rw [hr.1, hr.2.1])
  case et.tec h1 _ _ h2 =>
    obtain ⟨rfl, _⟩ := hr
    rcases h1 with h1 | h1
    · exact absurd h1 (hq _ _ h2).1
    · exact absurd h1 (hq _ _ h2).2
  case tec.et h2 _ h1 =>
    obtain ⟨rfl, _⟩ := hr
    rcases h1 with h1 | h1
    · exact absurd h1 (hq _ _ h2).1
    · exact absurd h1 (hq _ _ h2).2
  case ete.tece h1 _ _ h2 =>
    obtain ⟨rfl, _⟩ := hr
    exact absurd h1 (ha.eb _ _ h2)
  case tece.ete h2 _ h1 =>
    obtain ⟨rfl, _⟩ := hr
    exact absurd h1 (ha.eb _ _ h2)

/-- A non-terminal inside of a rule stands behind a token. -/
theorem OpRule.before_nt {rhs : List Sym} (h : OpRule o s rhs) {k : Nat} {B : Nat} (hk : rhs[k + 1]? = some (.nt B)) :
    ∃ l t, rhs.take (k + 1) = l ++ [tk t] := by
  cases h with
  | atom t h => simp at hk
  | pre t h =>
    rcases k with _ | k
    · exact ⟨[], t, rfl⟩
    · simp at hk
  | post t h => rcases k with _ | k <;> simp at hk
  | bin t h =>
    rcases k with _ | _ | k
    · simp at hk
    · exact ⟨[.nt s], t, rfl⟩
    · simp at hk
  | par t c h =>
    rcases k with _ | _ | k
    · exact ⟨[], t, rfl⟩
    · simp at hk
    · simp at hk
  | cond t e h =>
    rcases k with _ | k
    · exact ⟨[], t, rfl⟩
    · simp at hk
  | ite t e h =>
    rcases k with _ | _ | _ | k
    · exact ⟨[], t, rfl⟩
    · simp at hk
    · exact ⟨[tk t, .nt s], e, rfl⟩
    · simp at hk

theorem OpRule.not_nt {rhs : List Sym} (h : OpRule o s rhs) : rhs ≠ [.nt s] ∧ rhs ≠ [] := by cases h <;> simp

theorem not_endsE_tk {l : List Sym} {t : Nat} : ¬ EndsE s (l ++ [tk t]) := by
  rintro ⟨x, h⟩
  have := congrArg List.reverse h
  simp at this

variable {g : Gram} {fresh : Nat}

/-- All rules are rules for operators. -/
def OpGram (o : Ops) (g : Gram) : Prop := ∀ r, r ∈ g.rules ↔ r.lhs = g.start ∧ OpRule o g.start r.rhs

theorem OpGram.rule (hg : OpGram o g) {k : Nat} {rule : PRule} (h : (g.aug fresh)[k]? = some rule) :
    (k = g.rules.length ∧ rule = ⟨fresh, [.nt g.start]⟩) ∨ (k ≠ g.rules.length ∧ rule ∈ g.rules ∧ OpRule o g.start rule.rhs) := by
  by_cases hk : k = g.rules.length
  · subst hk
    rw [Gram.aug_start] at h
    cases h
    exact .inl ⟨rfl, rfl⟩
  · have hm := List.mem_of_getElem? (Gram.aug_get' h hk)
    exact .inr ⟨hk, hm, ((hg _).1 hm).2⟩

theorem OpGram.origin (hg : OpGram o g) {γ : List Sym} {i : Item} (h : Valid (g.aug fresh) g.rules.length γ i) (hi : i.pos = 0) :
    γ = [] ∨ ∃ j rule k, Valid (g.aug fresh) g.rules.length γ j ∧ j.rule ≠ g.rules.length ∧ (g.aug fresh)[j.rule]? = some rule ∧
      j.pos = k + 1 ∧ rule.rhs[k + 1]? = some (.nt g.start) := by
  induction h with
  | start => exact .inl rfl
  | advance => cases hi
  | expand γ i r B j r' b ρ h1 h2 h3 h4 h5 h6 ih =>
    cases hp : i.pos with
    | zero => exact ih hp
    | succ k =>
      right
      rw [hp] at h3
      rcases hg.rule h2 with ⟨k1, rfl⟩ | ⟨k1, k2, k3⟩
      · simp at h3
      · refine ⟨i, r, k, h1, k1, h2, hp, ?_⟩
        have : B = g.start := by
          generalize r.rhs = rhs at h3 k3
          cases k3 <;> rcases k with _ | _ | _ | k <;> simp at h3 <;> exact h3.symm
        rw [← this]
        exact h3

/-- A rule does not begin behind the non-terminal. -/
theorem OpGram.begin (hg : OpGram o g) {γ : List Sym} {i : Item} (h : Valid (g.aug fresh) g.rules.length γ i) (hi : i.pos = 0) : ¬ EndsE g.start γ := by
  rcases hg.origin h hi with rfl | ⟨j, rule, k, h1, h2, h3, h4, h5⟩
  · rintro ⟨x, h⟩; simp at h
  · obtain ⟨γ0, rule', k1, k2, _⟩ := h1.split ⟨_, Gram.aug_start⟩
    rw [h3] at k1
    cases k1
    rcases hg.rule h3 with ⟨m1, _⟩ | ⟨_, _, m1⟩
    · exact absurd m1 h2
    · obtain ⟨l, t, m2⟩ := m1.before_nt h5
      rw [k2, h4, m2, ← List.append_assoc]
      exact not_endsE_tk

/-- Two items behind the same symbols, neither at its begin. -/
theorem OpGram.meet (hg : OpGram o g) (ha : o.Apart) {γ : List Sym} {i j : Item} {rule rule' : PRule} {k k' : Nat} (h : Valid (g.aug fresh) g.rules.length γ i)
    (h' : Valid (g.aug fresh) g.rules.length γ j) (hi : i.rule ≠ g.rules.length) (hj : j.rule ≠ g.rules.length)
    (hr : (g.aug fresh)[i.rule]? = some rule) (hr' : (g.aug fresh)[j.rule]? = some rule') (hk : i.pos = k + 1) (hk' : j.pos = k' + 1) :
    OpRule o g.start rule.rhs ∧ OpRule o g.start rule'.rhs ∧
    (rule.rhs.take (k + 1) = rule'.rhs.take (k' + 1) ∨ (rule.rhs.take (k + 1) = [.nt g.start] ∧ EndsE g.start (rule'.rhs.take (k' + 1))) ∨
      (rule'.rhs.take (k' + 1) = [.nt g.start] ∧ EndsE g.start (rule.rhs.take (k + 1)))) := by
  obtain ⟨γ0, r0, k1, k2, k3, _⟩ := h.split ⟨_, Gram.aug_start⟩
  obtain ⟨γ1, r1, m1, m2, m3, _⟩ := h'.split ⟨_, Gram.aug_start⟩
  rw [hr] at k1; cases k1
  rw [hr'] at m1; cases m1
  rw [hk] at k2
  rw [hk'] at m2
  obtain ⟨_, _, n1⟩ := (hg.rule hr).resolve_left fun h => hi h.1
  obtain ⟨_, _, n2⟩ := (hg.rule hr').resolve_left fun h => hj h.1
  exact ⟨n1, n2, tau_eq ha (n1.tau k) (n2.tau k') (hg.begin k3 rfl) (hg.begin m3 rfl) (by rw [← k2, m2])⟩

/-- At most one rule can be reduced. -/
theorem OpGram.complete_unique (hg : OpGram o g) (ha : o.Apart) (hnd : g.rules.Nodup) {γ : List Sym} {r r' : Nat} {a b : Term} (hr : r ≠ g.rules.length)
    (hr' : r' ≠ g.rules.length) (h : Complete (g.aug fresh) g.rules.length γ r a) (h' : Complete (g.aug fresh) g.rules.length γ r' b) : r = r' := by
  obtain ⟨rule, h1, h2⟩ := h
  obtain ⟨rule', h1', h2'⟩ := h'
  obtain ⟨_, m1, n1⟩ := (hg.rule h1).resolve_left fun h => hr h.1
  obtain ⟨_, m1', n1'⟩ := (hg.rule h1').resolve_left fun h => hr' h.1
  obtain ⟨k, hk⟩ : ∃ k, rule.rhs.length = k + 1 := ⟨rule.rhs.length - 1, by have := List.length_pos_iff.2 n1.not_nt.2; omega⟩
  obtain ⟨k', hk'⟩ : ∃ k, rule'.rhs.length = k + 1 := ⟨rule'.rhs.length - 1, by have := List.length_pos_iff.2 n1'.not_nt.2; omega⟩
  have := (hg.meet ha h2 h2' hr hr' h1 h1' hk hk').2.2
  rw [← hk, ← hk', List.take_length, List.take_length] at this
  rcases this with this | ⟨this, _⟩ | ⟨this, _⟩
  · have he : rule = rule' := by
      have e1 := ((hg _).1 m1).1
      have e2 := ((hg _).1 m1').1
      obtain ⟨l, rhs⟩ := rule
      obtain ⟨l', rhs'⟩ := rule'
      simp only at this e1 e2
      rw [e1, e2, this]
    subst he
    have g1 := Gram.aug_get' h1 hr
    have g2 := Gram.aug_get' h1' hr'
    rw [List.getElem?_eq_some_iff] at g1 g2
    obtain ⟨l1, g1⟩ := g1
    obtain ⟨l2, g2⟩ := g2
    exact (List.getElem_inj hnd).1 (g1.trans g2.symm)
  · exact absurd this n1.not_nt.1
  · exact absurd this n1'.not_nt.1

/-- When something can be shifted where a rule can be reduced. -/
theorem OpGram.expects (hg : OpGram o g) (ha : o.Apart) {γ : List Sym} {r : Nat} {a b : Term} {rule : PRule} (hr : r ≠ g.rules.length)
    (h1 : (g.aug fresh)[r]? = some rule)
    (h : Complete (g.aug fresh) g.rules.length γ r a) (he : Expects (g.aug fresh) g.rules.length γ (.tm b)) :
    (EndsE g.start rule.rhs ∧ ∃ t, b = .sym t ∧ (t ∈ o.posts ∨ t ∈ o.bins)) ∨ ∃ t e, rule.rhs = [tk t, .nt g.start] ∧ (t, e) ∈ o.ites ∧ b = .sym e := by
  obtain ⟨rule0, h0, h2⟩ := h
  rw [h1] at h0
  cases h0
  obtain ⟨j, rule', h3, h4, h5⟩ := he
  obtain ⟨_, m1, n1⟩ := (hg.rule h1).resolve_left fun h => hr h.1
  obtain ⟨k, hk⟩ : ∃ k, rule.rhs.length = k + 1 := ⟨rule.rhs.length - 1, by have := List.length_pos_iff.2 n1.not_nt.2; omega⟩
  have hjs : j.rule ≠ g.rules.length := by
    intro hj
    rw [hj, Gram.aug_start] at h4
    cases h4
    cases hp : j.pos <;> rw [hp] at h5 <;> simp at h5
  cases hp : j.pos with
  | zero =>
    exfalso
    rcases hg.origin h3 hp with rfl | ⟨j', rule2, k2, q1, q2, q3, q4, q5⟩
    · obtain ⟨γ0, r0, k1, k2, _⟩ := h2.split ⟨_, Gram.aug_start⟩
      simp only [h1, Option.some.injEq] at k1
      subst k1
      simp at k2
      exact n1.not_nt.2 k2.2
    · obtain ⟨_, n2, this⟩ := hg.meet ha h2 q1 hr q2 h1 q3 hk q4
      rw [← hk, List.take_length] at this
      obtain ⟨l, t, hl⟩ := n2.before_nt q5
      rcases this with this | ⟨this, _⟩ | ⟨this, _⟩
      · generalize rule.rhs = rhs at this n1
        generalize rule2.rhs = rhs2 at this n2 q5
        cases n1 <;> cases n2 <;> rcases k2 with _ | _ | _ | k2 <;> simp at this q5
        case atom.pre.zero h1 _ h2 => subst this; exact ha.ap _ h1 h2
        case atom.par.zero h1 _ _ h2 => subst this; exact ha.aq _ _ h1 h2
        case atom.cond.zero h1 _ _ h2 => subst this; exact ha.ai _ _ h1 h2
        case atom.ite.zero h1 _ _ h2 => subst this; exact ha.ai _ _ h1 h2
        case post.bin.succ.zero h1 _ h2 => subst this; exact ha.bq _ h1 h2
        case par.ite.succ.succ.zero h1 _ _ h2 => obtain ⟨rfl, rfl⟩ := this; exact ha.ci _ _ _ h1 h2
      · exact n1.not_nt.1 this
      · rw [this] at hl
        have := congrArg List.reverse hl
        simp at this
  | succ k2 =>
    obtain ⟨_, n2, this⟩ := hg.meet ha h2 h3 hr hjs h1 h4 hk hp
    rw [hp] at h5
    rw [← hk, List.take_length] at this
    generalize rule.rhs = rhs at this n1 ⊢
    generalize rule'.rhs = rhs2 at this n2 h5
    rcases this with this | ⟨this, _⟩ | ⟨this, this2⟩
    · cases n1 <;> cases n2 <;> rcases k2 with _ | _ | _ | k2 <;> simp at this h5
      case pre.par.succ.zero h1 _ _ h2 => subst this; exact absurd h2 (ha.pq _ _ h1)
      case pre.ite.succ.zero h1 _ _ h2 => subst this; exact absurd h2 (ha.pi _ _ h1)
      case cond.par.succ.zero h1 _ _ h2 => subst this; exact absurd h1 (ha.qi _ _ _ h2)
      case cond.ite.succ.zero h1 _ _ h2 => subst this; exact .inr ⟨_, _, rfl, h2, h5.symm⟩
    · exact absurd this n1.not_nt.1
    · left
      refine ⟨this2, ?_⟩
      cases n2 <;> rcases k2 with _ | _ | _ | k2 <;> simp at this h5
      case post.zero h1 => exact ⟨_, h5.symm, .inl h1⟩
      case bin.zero h1 => exact ⟨_, h5.symm, .inr h1⟩

end Verif.Par
