import Verif.Tok.NfaSem

/-! # Helper lemmas about NFA construction -/

namespace Verif.Tok

namespace Path
variable {E E' : Nat → Nat → Prop} {S S' : Nat → Nat → Nat → Prop}

theorem trans {p u q v r} (h1 : Path E S p u q) (h2 : Path E S q v r) : Path E S p (u ++ v) r := by
  induction h1 with
  | nil => simpa
  | eps he _ ih => exact .eps he (ih h2)
  | step hs _ ih => exact .step hs (ih h2)

theorem single_eps {p q} (h : E p q) : Path E S p [] q := .eps h (.nil q)

theorem map {p w q} (f : Nat → Nat) (hE : ∀ a b, E a b → E' (f a) (f b)) (hS : ∀ a c b, S a c b → S' (f a) c (f b))
    (h : Path E S p w q) : Path E' S' (f p) w (f q) := by
  induction h with
  | nil => exact .nil _
  | eps he _ ih => exact .eps (hE _ _ he) ih
  | step hs _ ih => exact .step (hS _ _ _ hs) ih

theorem mono {p w q} (hE : ∀ a b, E a b → E' a b) (hS : ∀ a c b, S a c b → S' a c b)
    (h : Path E S p w q) : Path E' S' p w q := map id hE hS h

/-- A path with an additional ε edge `x → y`: either it does not use the edge, or it goes to `x` without it. -/
theorem addEdge {x y p w q} (hE : ∀ a b, E' a b → E a b ∨ (a = x ∧ b = y))
    (h : Path E' S p w q) :
    Path E S p w q ∨ ∃ u v, w = u ++ v ∧ Path E S p u x ∧ Path E' S y v q := by
  induction h with
  | nil => exact Or.inl (.nil _)
  | @eps p q w r he hp ih =>
    rcases hE _ _ he with h | ⟨rfl, rfl⟩
    · rcases ih with ih | ⟨u, v, rfl, h1, h2⟩
      · exact Or.inl (.eps h ih)
      · exact Or.inr ⟨u, v, rfl, .eps h h1, h2⟩
    · exact Or.inr ⟨[], w, rfl, .nil _, hp⟩
  | step hs hp ih =>
    rcases ih with ih | ⟨u, v, rfl, h1, h2⟩
    · exact Or.inl (.step hs ih)
    · exact Or.inr ⟨_ :: u, v, rfl, .step hs h1, h2⟩

/-- A region that is never left. -/
theorem inside {P : Nat → Prop} {p w q} (hE : ∀ a b, P a → E a b → E' a b ∧ P b)
    (hS : ∀ a c b, P a → S a c b → S' a c b ∧ P b) (h : Path E S p w q) (hp : P p) : Path E' S' p w q ∧ P q := by
  induction h with
  | nil => exact ⟨.nil _, hp⟩
  | eps he _ ih => have := hE _ _ hp he; exact ⟨.eps this.1 (ih this.2).1, (ih this.2).2⟩
  | step hs _ ih => have := hS _ _ _ hp hs; exact ⟨.step this.1 (ih this.2).1, (ih this.2).2⟩

/-- Path from a region `P` (edges `E1`, `S1`) that can be left only by the ε edges `X` into a region that is never
left. -/
theorem cross {P : Nat → Prop} {E1 E2 X : Nat → Nat → Prop} {S1 S2 : Nat → Nat → Nat → Prop} {p w q}
    (hE : ∀ a b, P a → E a b → (E1 a b ∧ P b) ∨ (X a b ∧ ¬ P b))
    (hS : ∀ a c b, P a → S a c b → S1 a c b ∧ P b)
    (hE2 : ∀ a b, ¬ P a → E a b → E2 a b ∧ ¬ P b)
    (hS2 : ∀ a c b, ¬ P a → S a c b → S2 a c b ∧ ¬ P b)
    (h : Path E S p w q) (hp : P p) :
    (P q ∧ Path E1 S1 p w q) ∨
      (¬ P q ∧ ∃ u v x y, w = u ++ v ∧ Path E1 S1 p u x ∧ X x y ∧ Path E2 S2 y v q) := by
  induction h with
  | nil => exact Or.inl ⟨hp, .nil _⟩
  | @eps p p' w q he hpath ih =>
    rcases hE _ _ hp he with ⟨h1, h2⟩ | ⟨h1, h2⟩
    · rcases ih h2 with ⟨hq, h⟩ | ⟨hq, u, v, x, y, rfl, h3, h4, h5⟩
      · exact Or.inl ⟨hq, .eps h1 h⟩
      · exact Or.inr ⟨hq, u, v, x, y, rfl, .eps h1 h3, h4, h5⟩
    · have := inside (P := fun a => ¬ P a) hE2 hS2 hpath h2
      exact Or.inr ⟨this.2, [], w, p, p', rfl, .nil _, h1, this.1⟩
  | step hs _ ih =>
    have h1 := hS _ _ _ hp hs
    rcases ih h1.2 with ⟨hq, h⟩ | ⟨hq, u, v, x, y, rfl, h3, h4, h5⟩
    · exact Or.inl ⟨hq, .step h1.1 h⟩
    · exact Or.inr ⟨hq, _ :: u, v, x, y, rfl, .step h1.1 h3, h4, h5⟩

/-- From a node without outgoing edges other than an ε loop. -/
theorem stuck {p w q} (hE : ∀ b, E p b → b = p) (hS : ∀ c b, ¬ S p c b) (h : Path E S p w q) : w = [] ∧ q = p := by
  have : ∀ {a w q}, Path E S a w q → a = p → w = [] ∧ q = p := by
    intro a w q h
    induction h with
    | nil => intro h; exact ⟨rfl, h⟩
    | eps he _ ih => intro h; subst h; exact ih (hE _ he)
    | step hs _ _ => intro h; subst h; exact absurd hs (hS _ _)
  exact this h rfl

/-- To a node without incoming edges other than an ε loop. -/
theorem unreached {p w q} (hE : ∀ a, E a q → a = q) (hS : ∀ a c, ¬ S a c q) (h : Path E S p w q) : w = [] ∧ p = q := by
  induction h with
  | nil => exact ⟨rfl, rfl⟩
  | eps he _ ih =>
    obtain ⟨h1, h2⟩ := ih hE hS
    subst h2
    exact ⟨h1, hE _ he⟩
  | step hs _ ih =>
    obtain ⟨h1, h2⟩ := ih hE hS
    subst h2
    exact absurd hs (hS _ _)

end Path

/-! ## Edges after the elementary operations -/

theorem eps_lt {ns p q} (h : Eps ns p q) : p < ns.length := by
  obtain ⟨n, h, _⟩ := h
  exact (List.getElem?_eq_some_iff.1 h).1

theorem stp_lt {ns p c q} (h : Stp ns p c q) : p < ns.length := by
  obtain ⟨n, h, _⟩ := h
  exact (List.getElem?_eq_some_iff.1 h).1

@[simp] theorem length_addEps {ns p q} : (addEps ns p q).length = ns.length := by simp [addEps]

@[simp] theorem length_appendNodes {ns ms} : (appendNodes ns ms).length = ns.length + ms.length := by
  simp [appendNodes]

theorem eps_addEps {ns p q a b} : Eps (addEps ns p q) a b ↔ Eps ns a b ∨ (a = p ∧ b = q ∧ p < ns.length) := by
  unfold Eps addEps
  rw [List.getElem?_modify]
  by_cases hp : p = a
  · subst hp
    by_cases hl : p < ns.length
    · simp [hl]
      exact or_comm
    · simp [hl]
  · simp [hp]
    intro h
    exact absurd h.symm hp

theorem stp_addEps {ns p q a c b} : Stp (addEps ns p q) a c b ↔ Stp ns a c b := by
  unfold Stp addEps
  rw [List.getElem?_modify]
  by_cases hp : p = a
  · subst hp
    simp only [if_true]
    cases ns[p]? <;> simp
  · simp [hp]

theorem eps_append {ns ms a b} : Eps (appendNodes ns ms) a b ↔
    Eps ns a b ∨ (∃ a' b', a = ns.length + a' ∧ b = ns.length + b' ∧ Eps ms a' b') := by
  unfold appendNodes
  constructor
  · rintro ⟨n, h, hq⟩
    rw [List.getElem?_append] at h
    split at h
    · exact Or.inl ⟨n, h, hq⟩
    · rename_i hl
      rw [List.getElem?_map] at h
      cases hm : ms[a - ns.length]? with
      | none => simp [hm] at h
      | some m =>
        simp [hm] at h
        subst h
        simp [Node.shift] at hq
        obtain ⟨b', hb, rfl⟩ := hq
        exact Or.inr ⟨a - ns.length, b', by omega, by omega, m, hm, hb⟩
  · rintro (⟨n, h, hq⟩ | ⟨a', b', rfl, rfl, m, hm, hb⟩)
    · refine ⟨n, ?_, hq⟩
      rw [List.getElem?_append_left (List.getElem?_eq_some_iff.1 h).1]
      exact h
    · refine ⟨m.shift ns.length, ?_, ?_⟩
      · rw [List.getElem?_append_right (by omega)]
        simp [hm]
      · simp [Node.shift]
        exact ⟨b', hb, by omega⟩

theorem stp_append {ns ms a c b} : Stp (appendNodes ns ms) a c b ↔
    Stp ns a c b ∨ (∃ a' b', a = ns.length + a' ∧ b = ns.length + b' ∧ Stp ms a' c b') := by
  unfold appendNodes
  constructor
  · rintro ⟨n, h, r, t, hr, h1, h2, hq⟩
    rw [List.getElem?_append] at h
    split at h
    · exact Or.inl ⟨n, h, r, t, hr, h1, h2, hq⟩
    · rename_i hl
      rw [List.getElem?_map] at h
      cases hm : ms[a - ns.length]? with
      | none => simp [hm] at h
      | some m =>
        simp [hm] at h
        subst h
        simp only [Node.shift, List.mem_map] at hr
        obtain ⟨⟨r', t'⟩, hr', he⟩ := hr
        simp only [Prod.mk.injEq] at he
        obtain ⟨rfl, rfl⟩ := he
        simp at hq
        obtain ⟨b', hb, rfl⟩ := hq
        exact Or.inr ⟨a - ns.length, b', by omega, by omega, m, hm, r', t', hr', h1, h2, hb⟩
  · rintro (⟨n, h, hq⟩ | ⟨a', b', rfl, rfl, m, hm, r, t, hr, h1, h2, hb⟩)
    · refine ⟨n, ?_, hq⟩
      rw [List.getElem?_append_left (List.getElem?_eq_some_iff.1 h).1]
      exact h
    · refine ⟨m.shift ns.length, ?_, ?_⟩
      · rw [List.getElem?_append_right (by omega)]
        simp [hm]
      · refine ⟨r, t.map (· + ns.length), ?_, h1, h2, ?_⟩
        · simp only [Node.shift, List.mem_map]
          exact ⟨(r, t), hr, rfl⟩
        · simp
          exact ⟨b', hb, by omega⟩

/-! ## Well-formed automata -/

/-- All edges end inside, begin and end are nodes. -/
structure NFA.WF (x : NFA) : Prop where
  eps : ∀ p q, Eps x.node p q → q < x.node.length
  stp : ∀ p c q, Stp x.node p c q → q < x.node.length
  b : x.b < x.node.length
  e : x.e < x.node.length

/-- No edge into `b` except an ε loop. -/
def NoIn (ns : List Node) (b : Nat) : Prop := (∀ p, Eps ns p b → p = b) ∧ ∀ p c, ¬ Stp ns p c b

/-- No edge out of `e` except an ε loop. -/
def NoOut (ns : List Node) (e : Nat) : Prop := (∀ q, Eps ns e q → q = e) ∧ ∀ c q, ¬ Stp ns e c q

/-! ### `?`, `*`, `+` -/

theorem opt_wf {x : NFA} (h : x.WF) : (nfaOpt x).WF where
  eps p q hq := by
    rcases eps_addEps.1 hq with hq | ⟨_, rfl, _⟩
    · simpa [nfaOpt] using h.eps p q hq
    · simpa [nfaOpt] using h.e
  stp p c q hq := by simpa [nfaOpt] using h.stp p c q (stp_addEps.1 hq)
  b := by simpa [nfaOpt] using h.b
  e := by simpa [nfaOpt] using h.e

theorem plus_wf {x : NFA} (h : x.WF) : (nfaPlus x).WF where
  eps p q hq := by
    rcases eps_addEps.1 hq with hq | ⟨_, rfl, _⟩
    · simpa [nfaPlus] using h.eps p q hq
    · simpa [nfaPlus] using h.b
  stp p c q hq := by simpa [nfaPlus] using h.stp p c q (stp_addEps.1 hq)
  b := by simpa [nfaPlus] using h.b
  e := by simpa [nfaPlus] using h.e

theorem star_wf {x : NFA} (h : x.WF) : (nfaStar x).WF where
  eps p q hq := by
    rcases eps_addEps.1 hq with hq | ⟨_, rfl, _⟩
    · simpa [nfaStar] using h.eps p q hq
    · simpa [nfaStar] using h.b
  stp p c q hq := by simpa [nfaStar] using h.stp p c q (stp_addEps.1 hq)
  b := by simpa [nfaStar] using h.b
  e := by simpa [nfaStar] using h.b

theorem path_addEps {ns p q a w b} (h : NPath ns a w b) : NPath (addEps ns p q) a w b :=
  h.mono (fun _ _ h => eps_addEps.2 (Or.inl h)) (fun _ _ _ h => stp_addEps.2 h)

theorem path_addEps_cases {ns x y a w b} (h : NPath (addEps ns x y) a w b) :
    NPath ns a w b ∨ ∃ u v, w = u ++ v ∧ NPath ns a u x ∧ NPath (addEps ns x y) y v b := by
  have h' : Path (Eps (addEps ns x y)) (Stp ns) a w b := h.mono (fun _ _ h => h) (fun _ _ _ h => stp_addEps.1 h)
  have hE : ∀ a b, Eps (addEps ns x y) a b → Eps ns a b ∨ (a = x ∧ b = y) := by
    intro a b h
    rcases eps_addEps.1 h with h | ⟨h1, h2, _⟩
    · exact Or.inl h
    · exact Or.inr ⟨h1, h2⟩
  rcases h'.addEdge hE with h | ⟨u, v, rfl, h1, h2⟩
  · exact Or.inl h
  · exact Or.inr ⟨u, v, rfl, h1, h2.mono (fun _ _ h => h) (fun _ _ _ h => stp_addEps.2 h)⟩

theorem opt_superset_nil {x : NFA} (h : x.WF) : (nfaOpt x).Accepts [] :=
  .single_eps (eps_addEps.2 (Or.inr ⟨rfl, rfl, h.b⟩))

theorem opt_superset {x : NFA} {w} (hw : x.Accepts w) : (nfaOpt x).Accepts w := path_addEps hw

theorem opt_exact {x : NFA} (hx : x.Accepts [] ∨ (NoIn x.node x.b ∧ NoOut x.node x.e)) {w}
    (hw : (nfaOpt x).Accepts w) : w = [] ∨ x.Accepts w := by
  rcases hx with hx | ⟨hb, he⟩
  · right
    have key : ∀ {p w q}, NPath (addEps x.node x.b x.e) p w q → NPath x.node p w q := by
      intro p w q h
      induction h with
      | nil => exact .nil _
      | eps he _ ih =>
        rcases eps_addEps.1 he with h | ⟨rfl, rfl, _⟩
        · exact .eps h ih
        · exact Path.trans hx ih
      | step hs _ ih => exact .step (stp_addEps.1 hs) ih
    exact key hw
  · rcases path_addEps_cases hw with h | ⟨u, v, rfl, h1, h2⟩
    · exact Or.inr h
    · left
      have h3 := Path.unreached hb.1 hb.2 h1
      have h4 : v = [] ∧ x.e = x.e := by
        refine Path.stuck ?_ ?_ h2
        · intro q hq
          rcases eps_addEps.1 hq with h | ⟨_, h, _⟩
          · exact he.1 _ h
          · exact h
        · intro c q hq
          exact he.2 _ _ (stp_addEps.1 hq)
      simp [h3.1, h4.1]

theorem opt_noIn {x : NFA} (h : NoIn x.node x.b) : NoIn (nfaOpt x).node (nfaOpt x).b := by
  refine ⟨fun p hp => ?_, fun p c hp => h.2 p c (stp_addEps.1 hp)⟩
  rcases eps_addEps.1 hp with h' | ⟨h', _, _⟩
  · exact h.1 _ h'
  · exact h'

theorem opt_noOut {x : NFA} (h : NoOut x.node x.e) : NoOut (nfaOpt x).node (nfaOpt x).e := by
  refine ⟨fun p hp => ?_, fun p c hp => h.2 p c (stp_addEps.1 hp)⟩
  rcases eps_addEps.1 hp with h' | ⟨_, h', _⟩
  · exact h.1 _ h'
  · exact h'

theorem pow_one {L : List Nat → Prop} {w} : Pow L 1 w ↔ L w := by
  simp [Pow]

theorem pow_add {L : List Nat → Prop} {m n w} : Pow L (m + n) w ↔ ∃ u v, w = u ++ v ∧ Pow L m u ∧ Pow L n v := by
  induction m generalizing w with
  | zero =>
    rw [Nat.zero_add]
    constructor
    · intro h; exact ⟨[], w, rfl, rfl, h⟩
    · rintro ⟨u, v, rfl, rfl, h⟩; exact h
  | succ m ih =>
    rw [Nat.succ_add]
    simp only [Pow]
    constructor
    · rintro ⟨u, v, rfl, hu, hv⟩
      obtain ⟨v1, v2, rfl, h1, h2⟩ := ih.1 hv
      exact ⟨u ++ v1, v2, by simp, ⟨u, v1, rfl, hu, h1⟩, h2⟩
    · rintro ⟨u, v, rfl, ⟨u1, u2, rfl, h1, h2⟩, hv⟩
      exact ⟨u1, u2 ++ v, by simp, h1, ih.2 ⟨u2, v, rfl, h2, hv⟩⟩

theorem pow_succ' {L : List Nat → Prop} {n w} : Pow L (n + 1) w ↔ ∃ u v, w = u ++ v ∧ Pow L n u ∧ L v := by
  rw [pow_add]; simp only [pow_one]

theorem pow_congr {L M : List Nat → Prop} (h : ∀ w, L w → M w) {n w} : Pow L n w → Pow M n w := by
  induction n generalizing w with
  | zero => exact id
  | succ n ih => rintro ⟨u, v, rfl, hu, hv⟩; exact ⟨u, v, rfl, h _ hu, ih hv⟩

/-- Words read along the loop of `*` and `+`, starting at the begin node. -/
theorem loop_paths {x : NFA} {w q} (h : NPath (addEps x.node x.e x.b) x.b w q) :
    ∃ n u v, w = u ++ v ∧ Pow x.Accepts n u ∧ NPath x.node x.b v q := by
  have main : ∀ {p w q}, NPath (addEps x.node x.e x.b) p w q →
      ∃ u v, w = u ++ v ∧ ((u = [] ∧ NPath x.node p v q) ∨
        (NPath x.node p u x.e ∧ ∃ n v1 v2, v = v1 ++ v2 ∧ Pow x.Accepts n v1 ∧ NPath x.node x.b v2 q)) := by
    intro p w q h
    induction h with
    | nil => exact ⟨[], [], rfl, Or.inl ⟨rfl, .nil _⟩⟩
    | eps he _ ih =>
      obtain ⟨u, v, rfl, h⟩ := ih
      rcases eps_addEps.1 he with he | ⟨rfl, rfl, _⟩
      · rcases h with ⟨rfl, h⟩ | ⟨h, h2⟩
        · exact ⟨[], v, rfl, Or.inl ⟨rfl, .eps he h⟩⟩
        · exact ⟨u, v, rfl, Or.inr ⟨.eps he h, h2⟩⟩
      · rcases h with ⟨rfl, h⟩ | ⟨h, n, v1, v2, rfl, h2, h3⟩
        · exact ⟨[], v, rfl, Or.inr ⟨.nil _, 0, [], v, rfl, rfl, h⟩⟩
        · exact ⟨[], u ++ (v1 ++ v2), rfl, Or.inr ⟨.nil _, n + 1, u ++ v1, v2, by simp, ⟨u, v1, rfl, h, h2⟩, h3⟩⟩
    | step hs _ ih =>
      obtain ⟨u, v, rfl, h⟩ := ih
      have hs := stp_addEps.1 hs
      rcases h with ⟨rfl, h⟩ | ⟨h, h2⟩
      · exact ⟨[], _, rfl, Or.inl ⟨rfl, .step hs h⟩⟩
      · exact ⟨_ :: u, v, rfl, Or.inr ⟨.step hs h, h2⟩⟩
  obtain ⟨u, v, hw, h'⟩ := main h
  clear h
  subst hw
  rcases h' with ⟨rfl, h⟩ | ⟨h, n, v1, v2, rfl, h2, h3⟩
  · exact ⟨0, [], v, rfl, rfl, h⟩
  · exact ⟨n + 1, u ++ v1, v2, by simp, ⟨u, v1, rfl, h, h2⟩, h3⟩

theorem loop_pow {x : NFA} (hx : x.WF) {n w} (h : Pow x.Accepts n w) : NPath (addEps x.node x.e x.b) x.b w x.b := by
  induction n generalizing w with
  | zero => obtain rfl : w = [] := h; exact .nil _
  | succ n ih =>
    obtain ⟨u, v, rfl, hu, hv⟩ := h
    refine Path.trans (path_addEps hu) (.eps (eps_addEps.2 (Or.inr ⟨rfl, rfl, hx.e⟩)) (ih hv))

theorem star_superset {x : NFA} (hx : x.WF) {n w} (h : Pow x.Accepts n w) : (nfaStar x).Accepts w := loop_pow hx h

theorem star_exact {x : NFA} (hx : x.Accepts [] ∨ NoIn x.node x.b) {w} (h : (nfaStar x).Accepts w) :
    ∃ n, Pow x.Accepts n w := by
  obtain ⟨n, u, v, rfl, h1, h2⟩ := loop_paths h
  rcases hx with hx | hx
  · refine ⟨n + 1, pow_succ'.2 ⟨u, v, rfl, h1, ?_⟩⟩
    have := Path.trans h2 hx
    rw [List.append_nil] at this
    exact this
  · have := Path.unreached hx.1 hx.2 h2
    exact ⟨n, by simpa [this.1] using h1⟩

theorem plus_exact {x : NFA} (hx : x.WF) {w} : (nfaPlus x).Accepts w ↔ ∃ n, 1 ≤ n ∧ Pow x.Accepts n w := by
  constructor
  · intro h
    obtain ⟨n, u, v, rfl, h1, h2⟩ := loop_paths h
    exact ⟨n + 1, by omega, pow_succ'.2 ⟨u, v, rfl, h1, h2⟩⟩
  · rintro ⟨n, hn, h⟩
    obtain ⟨n, rfl⟩ : ∃ k, n = k + 1 := ⟨n - 1, by omega⟩
    obtain ⟨u, v, rfl, h1, h2⟩ := pow_succ'.1 h
    exact Path.trans (loop_pow hx h1) (path_addEps h2)

end Verif.Tok
