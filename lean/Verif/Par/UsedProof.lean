import Verif.Par.Used
import Verif.Par.TermProof

/-!
# Every entry of the tables is needed for some sentence
-/

namespace Verif.Par

variable {N T E : Type} {p : Parser N T E} {rules : List (Rule N T E)} {idx : T → Nat} {input : List T} {start fresh : Nat}

/-! ## Getting to a state -/

theorem Built.unfailing {us fs} (hc : Unfailing rules) (h : Built (rules.map Rule.plain) idx input us fs) : ∃ lg as, Evals rules fs lg (.ok as) := by
  induction h with
  | nil => exact ⟨_, _, .nil⟩
  | leaf i t us fs _ _ ih =>
    obtain ⟨lg, as, h1⟩ := ih
    exact ⟨_, _, .leaf _ _ _ _ _ h1⟩
  | err lo l us fs _ _ _ ih =>
    obtain ⟨lg, as, h1⟩ := ih
    exact ⟨_, _, .err _ _ _ _ _ h1⟩
  | node r rule cs us fs h _ _ ih1 ih2 =>
    obtain ⟨lg1, as1, h1⟩ := ih1
    obtain ⟨lg2, as2, h3⟩ := ih2
    rw [List.getElem?_map, Option.map_eq_some_iff] at h
    obtain ⟨rl, h, _⟩ := h
    obtain ⟨v, hv⟩ := hc rl (List.mem_of_getElem? h) as1
    exact ⟨_, _, .node _ _ _ _ _ _ _ _ _ h h1 hv h3⟩

/-- The rest of the rule of a valid item derives tokens. -/
theorem Ctx.rest (hx : Ctx p rules start fresh) (hne : fresh ≠ start) (hn : (gram rules start).NoError)
    (hp : (gram rules start).Productive) {γ : List Sym} {i : Item} (hv : Valid ((gram rules start).aug fresh) rules.length γ i)
    {rule : PRule} (hr : ((gram rules start).aug fresh)[i.rule]? = some rule) :
    ∃ w, Gen (rules.map Rule.plain) (rule.rhs.drop i.pos) (toks w) := by
  obtain ⟨rule', ω, h1, h2⟩ := hv.sentential' Ctx.start_rule
  obtain rfl := Option.some.inj (hr.symm.trans h1)
  obtain ⟨u', v, k1, k2, k3⟩ := h2.split
  obtain ⟨v', rfl, k4⟩ := k3.terminal
  have := k4.nil_left
  subst this
  obtain ⟨ω', z, hω⟩ : ∃ ω' z, Sym.tm i.la :: ω = ω' ++ [z] := by
    rcases List.eq_nil_or_concat (Sym.tm i.la :: ω) with h | ⟨l, z, h⟩
    · cases h
    · exact ⟨l, z, by simpa using h⟩
  rw [hω, ← List.append_assoc] at k1
  obtain ⟨k5, _⟩ := List.append_inj' k1 rfl
  have k6 : Gen (rules.map Rule.plain) [.nt start] u' := by
    refine Gen.drop_rule (r0 := ⟨fresh, [.nt start]⟩) ?_ k2 (by simpa using hne) (by simpa using hne)
    intro r hr hm
    exact hx.unused ⟨r, hr, Or.inr hm⟩
  obtain ⟨w, hw⟩ := Gram.complete hx.ok hn hp k6 γ (rule.rhs.drop i.pos ++ ω') (by rw [← k5]; simp)
  obtain ⟨a, b, m1, m2, _⟩ := hw.split
  rw [toks, List.map_eq_append_iff] at m1
  obtain ⟨w1, w2, rfl, m3, _⟩ := m1
  exact ⟨w1, by rw [toks, m3]; exact m2⟩

theorem Ahead.mk {u z : List Nat} {b : Term} (h : input.map idx = u ++ z) (hb : b = (z.head?.map Term.sym).getD .eoi) :
    Ahead idx input u.length b := by
  have hl := congrArg List.length h
  simp at hl
  cases z with
  | nil =>
    right
    simp at hl
    exact ⟨by simpa using hb, hl.symm⟩
  | cons t z =>
    left
    have hlt : u.length < input.length := by simp at hl; omega
    refine ⟨input[u.length], ?_, List.getElem?_eq_getElem hlt⟩
    have := congrArg (fun l => l[u.length]?) h
    simp [List.getElem?_eq_getElem hlt] at this
    simp [hb, this]

/-- Some tokens lead to the state of a viable prefix, with every continuation that is possible there. -/
theorem reach_viable (hx : Ctx p rules start fresh) (hnw : NoConflict p rules start fresh) (hn : (gram rules start).NoError)
    (hp : (gram rules start).Productive) (hcy : ¬ (gram rules start).Cyclic) (hc : Unfailing rules) {γ : List Sym} {i : Item}
    (hv : Valid ((gram rules start).aug fresh) rules.length γ i) :
    ∃ u, Gen (rules.map Rule.plain) γ (toks u) ∧ ∀ (input : List T) z b ρ rule, input.map idx = u ++ z → Ahead idx input u.length b →
      ((gram rules start).aug fresh)[i.rule]? = some rule →
      Gen ((gram rules start).aug fresh) (rule.rhs.drop i.pos ++ [.tm i.la]) (.tm b :: ρ) →
      ∃ n c fs lg as, run idx p n (Cfg.init p input) = .more c ∧ Inv p rules idx input c u.length γ fs lg as ∧ errs fs = [] := by
  have hne := hx.fresh_ne' hp
  have hmono : ∀ r ∈ rules.map Rule.plain, r ∈ (gram rules start).aug fresh := fun r h => List.mem_append_left _ h
  induction hv with
  | start =>
    refine ⟨[], .nil, ?_⟩
    intro input z b ρ rule _ _ _ _
    exact ⟨0, _, _, _, _, rfl, .init, rfl⟩
  | advance γ i r X h1 h2 h3 ih =>
    obtain ⟨u, hu, ih⟩ := ih
    have hlt : i.pos < r.rhs.length := by rw [List.getElem?_eq_some_iff] at h3; exact h3.1
    have hd : r.rhs.drop i.pos = [X] ++ r.rhs.drop (i.pos + 1) := by
      rw [List.drop_eq_getElem_cons hlt]
      rw [List.getElem?_eq_getElem hlt] at h3
      rw [Option.some.inj h3]
      rfl
    obtain ⟨w, hw⟩ := hx.rest hne hn hp h1 h2
    rw [hd] at hw
    obtain ⟨a, b, m1, m2, _⟩ := hw.split
    rw [toks, List.map_eq_append_iff] at m1
    obtain ⟨x, _, rfl, m3, _⟩ := m1
    have hX : Gen (rules.map Rule.plain) [X] (toks x) := by rw [toks, m3]; exact m2
    refine ⟨u ++ x, by simpa [toks] using Gen.append hu hX, ?_⟩
    intro input z b ρ rule hin hb hr hg
    simp only at hr hg
    obtain rfl := Option.some.inj (h2.symm.trans hr)
    obtain ⟨b', hb'⟩ : ∃ b', b' = ((x ++ z).head?.map Term.sym).getD .eoi := ⟨_, rfl⟩
    have hin' : input.map idx = u ++ (x ++ z) := by rw [hin]; simp
    have hah := Ahead.mk hin' hb'
    have hg' : ∃ ρ', Gen ((gram rules start).aug fresh) (r.rhs.drop i.pos ++ [.tm i.la]) (.tm b' :: ρ') := by
      rw [hd, List.append_assoc]
      have hga := Gen.append (hX.mono hmono) hg
      cases x with
      | nil =>
        have : b = b' := hb.unique (by simpa using hah)
        rw [← this]
        exact ⟨ρ, by simpa [toks] using hga⟩
      | cons t x =>
        simp at hb'
        rw [hb']
        exact ⟨_, by simpa [toks] using hga⟩
    obtain ⟨ρ', hg'⟩ := hg'
    obtain ⟨n, c, fs, lg, as, k1, k2, k3⟩ := ih input (x ++ z) b' ρ' r hin' hah h2 hg'
    have hsplit : ∃ iu ix iz, input = iu ++ ix ++ iz ∧ iu.map idx = u ∧ ix.map idx = x := by
      rw [List.map_eq_append_iff] at hin'
      obtain ⟨iu, i2, e1, e2, e3⟩ := hin'
      rw [List.map_eq_append_iff] at e3
      obtain ⟨ix, iz, rfl, e4, _⟩ := e3
      exact ⟨iu, ix, iz, by rw [e1]; simp, e2, e4⟩
    obtain ⟨iu, ix, iz, e1, rfl, rfl⟩ := hsplit
    obtain ⟨fX, b1, b2, b3⟩ := Built.of_gen (idx := idx) (input := input) hX iu ix iz e1 (by simp [toks])
    obtain ⟨lgX, asX, hev⟩ := b1.unfailing hc
    have hs := sim (N := N) (Cy := False) (Q := fun _ _ _ => True) hx (fun γ q r a h1 h2 h3 _ => hnw γ q r a h1 h2 h3)
      (fun r hr hc _ => hcy (hx.cyclic hne hr hc)) b1 b2 (c := c) (j := iu.length) (m := iu.length + ix.length) (vs := r.rhs.drop (i.pos + 1)) (b := b) (ρ := ρ)
      (b1.along_true b2 _ _) (by simpa using k2) k3 h1 h2 hd (by omega) (by rw [e1]; simp) (by
        rw [b3, e1, List.take_append_of_le_length (by simp), List.take_of_length_le (by simp)]
        simp) (by simpa using hb) hg hev
    cases hs with
    | ok as' n' c' q1 q2 =>
      exact ⟨n + n', c', _, _, _, by rw [run_add, k1]; exact q1, by simpa using q2, by rw [errs_append, k3, b2]; rfl⟩
    | early x n' v c' f lg' q1 _ _ _ => exact q1.elim
  | expand γ i r B j r' b0 ρ0 h1 h2 h3 h4 h5 h6 ih =>
    obtain ⟨u, hu, ih⟩ := ih
    refine ⟨u, hu, ?_⟩
    intro input z b ρ rule hin hb hr hg
    simp only at hr hg
    obtain rfl := Option.some.inj (h4.symm.trans hr)
    subst h5
    have hlt : i.pos < r.rhs.length := by rw [List.getElem?_eq_some_iff] at h3; exact h3.1
    refine ih input z b (ρ ++ ρ0) r hin hb h2 ?_
    rw [List.drop_eq_getElem_cons hlt]
    rw [List.getElem?_eq_getElem hlt] at h3
    rw [Option.some.inj h3]
    have g1 := Gen.append (Gen.rule (List.mem_of_getElem? h4)) (gen_iff.2 h6)
    have g2 := Gen.append hg (Gen.refl (R := (gram rules start).aug fresh) ρ0)
    have g3 : Gen ((gram rules start).aug fresh) (Sym.nt r'.lhs :: r.rhs.drop (i.pos + 1) ++ [Sym.tm i.la]) (r'.rhs ++ Sym.tm b0 :: ρ0) := by
      simpa using g1
    exact g3.trans (by simpa using g2)

theorem Gen.syms {R : List PRule} {X : Sym} {u v : List Sym} (h : Gen R u v) (hX : X ∈ v) : X ∈ u ∨ ∃ r ∈ R, X ∈ r.rhs := by
  induction h with
  | nil => exact Or.inl hX
  | keep Y l w _ ih =>
    rcases List.mem_cons.1 hX with hX | hX
    · exact Or.inl (by rw [hX]; exact List.mem_cons_self)
    · rcases ih hX with h | h
      · exact Or.inl (List.mem_cons_of_mem _ h)
      · exact Or.inr h
  | expand r l u v hr _ _ ih1 ih2 =>
    rcases List.mem_append.1 hX with hX | hX
    · rcases ih1 hX with h | h
      · exact Or.inr ⟨r, hr, h⟩
      · exact Or.inr h
    · rcases ih2 hX with h | h
      · exact Or.inl (List.mem_cons_of_mem _ h)
      · exact Or.inr h

theorem Typed.text {g : Gram} (ht : Typed idx g) {w : List Nat} (hw : g.Sentence w) : ∃ input : List T, input.map idx = w := by
  have : ∀ t ∈ w, ∃ x, idx x = t := by
    intro t htw
    rcases (gen_iff.2 hw).syms (X := .tm (.sym t)) (by simpa using htw) with h | ⟨r, hr, h⟩
    · simp at h
    · exact ht r hr t h
  clear hw
  induction w with
  | nil => exact ⟨[], rfl⟩
  | cons t w ih =>
    obtain ⟨l, hl⟩ := ih fun t h => this t (List.mem_cons_of_mem _ h)
    obtain ⟨x, hx⟩ := this t List.mem_cons_self
    exact ⟨x :: l, by simp [hx, hl]⟩

/-- A sentence whose parse comes to a viable prefix, with a given terminal next. -/
theorem visit (hx : Ctx p rules start fresh) (hnw : NoConflict p rules start fresh) (hn : (gram rules start).NoError)
    (hp : (gram rules start).Productive) (hcy : ¬ (gram rules start).Cyclic) (hc : Unfailing rules) (ht : Typed idx (gram rules start))
    {γ : List Sym} {i : Item} (hv : Valid ((gram rules start).aug fresh) rules.length γ i) {rule : PRule} {b : Term} {ρ : List Sym}
    (hr : ((gram rules start).aug fresh)[i.rule]? = some rule)
    (hg : Gen ((gram rules start).aug fresh) (rule.rhs.drop i.pos ++ [.tm i.la]) (.tm b :: ρ)) :
    ∃ input : List T, (gram rules start).Sentence (input.map idx) ∧
      ∃ n c j fs lg as, run idx p n (Cfg.init p input) = .more c ∧ Inv p rules idx input c j γ fs lg as ∧ errs fs = [] ∧ Ahead idx input j b := by
  have hne := hx.fresh_ne' hp
  obtain ⟨u, hu, h⟩ := reach_viable (idx := idx) hx hnw hn hp hcy hc hv
  have : ∃ z, (gram rules start).Sentence (u ++ z) ∧ b = (z.head?.map Term.sym).getD .eoi := by
    rcases (hx.follows hne hn hp hv hu).2 rule b ρ hr hg with ⟨rfl, h1⟩ | ⟨t, w, rfl, h1⟩
    · exact ⟨[], by simpa using h1, rfl⟩
    · exact ⟨t :: w, h1, rfl⟩
  obtain ⟨z, hz, hb⟩ := this
  obtain ⟨input, hin⟩ := ht.text hz
  have ha := Ahead.mk hin hb
  obtain ⟨n, c, fs, lg, as, k1, k2, k3⟩ := h input z b ρ rule hin ha hr hg
  exact ⟨input, by rw [hin]; exact hz, n, c, _, fs, lg, as, k1, k2, k3, ha⟩

/-- Every state is visited. -/
theorem visit_state (hx : Ctx p rules start fresh) (hnw : NoConflict p rules start fresh) (hn : (gram rules start).NoError)
    (hp : (gram rules start).Productive) (hcy : ¬ (gram rules start).Cyclic) (hc : Unfailing rules) (ht : Typed idx (gram rules start))
    {γ : List Sym} {i : Item} (hv : Valid ((gram rules start).aug fresh) rules.length γ i) :
    ∃ input : List T, (gram rules start).Sentence (input.map idx) ∧
      ∃ n c j fs lg as, run idx p n (Cfg.init p input) = .more c ∧ Inv p rules idx input c j γ fs lg as ∧ errs fs = [] := by
  have hne := hx.fresh_ne' hp
  obtain ⟨rule, hr, _⟩ := hv.rule Ctx.start_rule
  obtain ⟨w, hw⟩ := hx.rest hne hn hp hv hr
  have hw' := Gen.append (hw.mono (R' := (gram rules start).aug fresh) fun r h => List.mem_append_left _ h) (Gen.refl [.tm i.la])
  have : ∃ b ρ, Gen ((gram rules start).aug fresh) (rule.rhs.drop i.pos ++ [.tm i.la]) (.tm b :: ρ) := by
    cases w with
    | nil => exact ⟨i.la, [], by simpa [toks] using hw'⟩
    | cons t w => exact ⟨.sym t, _, by simpa [toks] using hw'⟩
  obtain ⟨b, ρ, hg⟩ := this
  obtain ⟨input, h1, n, c, j, fs, lg, as, h2, h3, h4, _⟩ := visit hx hnw hn hp hcy hc ht hv hr hg
  exact ⟨input, h1, n, c, j, fs, lg, as, h2, h3, h4⟩

/-! ## Leaving out an entry -/

theorem get_map {α β γ : Type} [DecidableEq α] (f : α → β → γ) (k : α) (l : List (α × β)) :
    get k (l.map fun x => (x.1, f x.1 x.2)) = (get k l).map (f k) := by
  induction l with
  | nil => rfl
  | cons x l ih =>
    obtain ⟨k', v⟩ := x
    simp only [List.map_cons, get]
    split
    · rename_i h; rw [h]; rfl
    · exact ih

theorem get_filter {α β : Type} [DecidableEq α] (a k : α) (l : List (α × β)) :
    get k (l.filter fun y => decide (y.1 ≠ a)) = if k = a then none else get k l := by
  induction l with
  | nil => split <;> rfl
  | cons x l ih =>
    obtain ⟨k', v⟩ := x
    rw [List.filter_cons]
    split
    · rename_i h
      simp only [get]
      split
      · rename_i h'
        subst h'
        rw [if_neg (by simpa using h)]
      · exact ih
    · rename_i h
      have h : k' = a := by simpa using h
      subst h
      rw [ih]
      simp only [get]
      split
      · rfl
      · rename_i h'
        rw [if_neg fun h => h' h.symm]

theorem dropAction_row {t : Tables} {q q' : Nat} {a : Term} {row : List (Term × Action Nat)} (h : get q' t.action = some row) :
    ∃ row', get q' (t.dropAction q a).action = some row' ∧ ∀ b, get b row' = if q' = q ∧ b = a then none else get b row := by
  refine ⟨if q' = q then row.filter fun y => decide (y.1 ≠ a) else row, ?_, ?_⟩
  · have := get_map (fun (k : Nat) (v : List (Term × Action Nat)) => if k = q then v.filter fun y => decide (y.1 ≠ a) else v) q' t.action
    simp only [Tables.dropAction]
    rw [this, h]
    rfl
  · intro b
    by_cases hq : q' = q
    · simp only [hq, if_true, true_and]
      exact get_filter a b row
    · simp [hq]

theorem dropGoto_get {t : Tables} {q q' n n' : Nat} :
    (get q' (t.dropGoto q n).goto).bind (get n') = if q' = q ∧ n' = n then none else (get q' t.goto).bind (get n') := by
  have := get_map (fun (k : Nat) (v : List (Nat × Nat)) => if k = q then v.filter fun y => decide (y.1 ≠ n) else v) q' t.goto
  simp only [Tables.dropGoto]
  rw [this]
  cases h : get q' t.goto with
  | none => simp
  | some row =>
    by_cases hq : q' = q
    · simp only [hq, if_true, true_and, Option.map_some, Option.bind_some]
      exact get_filter n n' row
    · simp [hq]

/-- The entry the next round looks up. -/
def Cfg.looksUp (idx : T → Nat) (c : Cfg N T) (q : Nat) (a : Term) : Prop := c.state = q ∧ ∃ i rest, (fill idx c).buffer = (a, i) :: rest

theorem Inv.ahead {c : Cfg N T} {j γ fs lg as} (h : Inv p rules idx input c j γ fs lg as) {a : Term} (ha : Ahead idx input j a) :
    ∃ i rest, (Par.fill idx c).buffer = (a, i) :: rest ∧ (i = j ∨ a = .eoi) := by
  rcases h.fill with ⟨hf, ⟨t, h1, h2⟩ | ⟨h1, h2, h3, h4⟩⟩
  · have hlt : j < (Par.fill idx c).read.length := by rw [List.getElem?_eq_some_iff] at h2; exact h2.1
    have hin : input[j]? = some t := by rw [← hf.read, List.getElem?_append_left hlt]; exact h2
    have := ha.unique (Or.inl ⟨t, rfl, hin⟩)
    subst this
    exact ⟨_, _, h1, Or.inl rfl⟩
  · have := ha.unique (Or.inr ⟨rfl, h3⟩)
    subst this
    exact ⟨_, _, h1, Or.inr rfl⟩

/-- A round that ends without an error. -/
theorem step_drop {q : Nat} {a : Term} {c : Cfg N T} {b : Term} {i : Nat} {rest : List (Term × Nat)} (hb : (fill idx c).buffer = (b, i) :: rest)
    (hne : ¬ (c.state = q ∧ b = a)) {act : Action Nat} (hact : p.tab.act c.state b = some act) :
    step idx (p.dropAction q a) c = step idx p c := by
  simp only [Tables.act, Option.bind_eq_some_iff] at hact
  obtain ⟨row, h1, h2⟩ := hact
  obtain ⟨row', h3, h4⟩ := dropAction_row (q := q) (a := a) h1
  have h5 := h4 b
  rw [if_neg hne, h2] at h5
  have hs := fill_state (idx := idx) c
  have h3' : get c.state (p.dropAction q a).tab.action = some row' := h3
  simp only [step, hb, hs, h1, h2, h3', h5]
  cases act <;> rfl

/-- The round at the missing entry. -/
theorem step_missing {q : Nat} {a : Term} {c : Cfg N T} {i : Nat} {rest : List (Term × Nat)} (hb : (fill idx c).buffer = (a, i) :: rest)
    (hq : c.state = q) {act : Action Nat} (hact : p.tab.act q a = some act) :
    step idx (p.dropAction q a) c = onError idx (p.dropAction q a) (fill idx c) a i := by
  simp only [Tables.act, Option.bind_eq_some_iff] at hact
  obtain ⟨row, h1, h2⟩ := hact
  obtain ⟨row', h3, h4⟩ := dropAction_row (q := q) (a := a) h1
  have h5 := h4 a
  rw [if_pos ⟨rfl, rfl⟩] at h5
  have hs := fill_state (idx := idx) c
  have h3' : get q (p.dropAction q a).tab.action = some row' := h3
  simp only [step, hb, hs, hq, h3', h5]

theorem Inv.no_recover (hx : Ctx p rules start fresh) (hn : (gram rules start).NoError) {c : Cfg N T} {j γ fs lg as}
    (h : Inv p rules idx input c j γ fs lg as) (isEoi : Bool) (recov : List Nat) (i : Nat) (hi : i = j ∨ isEoi = true) :
    recover p.tab.errors isEoi recov c.stack c.state i i false = none := by
  cases hr : recover p.tab.errors isEoi recov c.stack c.state i i false with
  | none => rfl
  | some x =>
    exfalso
    obtain ⟨state', stack', recov', head', errHead', back'⟩ := x
    have hle : isEoi = false → ∀ m ∈ marks fs, m ≤ i := by
      intro h0 m hm
      rcases hi with rfl | h1
      · exact h.le m hm
      · rw [h0] at h1; cases h1
    obtain ⟨γ', fs', lg', as', fs'', lg'', h1, _, _, _, ⟨es, h2⟩, _⟩ := recover_spec h.seg i hle hle (fun _ => Nat.le_refl _) hr
    have h3 := hx.canon.errors_ne _ _ h2
    obtain ⟨r, hr⟩ := List.exists_mem_of_ne_nil _ h3
    obtain ⟨it, rule, k1, k2, k3, k4⟩ := (hx.canon.errors γ' state' r h1.walk).1 (by rw [h2]; exact hr)
    exact no_err_expected (fresh := fresh) hn ⟨γ', it, rule, k1, by rw [k2]; exact k3, k4⟩

/-- What is known in a run without error rules. -/
theorem run_inv (hx : Ctx p rules start fresh) (hn : (gram rules start).NoError) {n : Nat} {c : Cfg N T}
    (hr : run idx p n (Cfg.init p input) = .more c) : ∃ j γ fs lg as, Inv p rules idx input c j γ fs lg as ∧ errs fs = [] := by
  rcases Reach.run (idx := idx) hx (Reach.init (input := input)) n with ⟨c', h1, h2⟩ | h1
  · rw [hr] at h1
    cases h1
    obtain ⟨j, γ, fs, lg, as, hi, he⟩ := h2
    exact ⟨j, γ, fs, lg, as, hi, Classical.byContradiction fun h => no_err_expected (fresh := fresh) hn (he h)⟩
  · rw [hr] at h1
    cases h1

theorem run_succ_more {n : Nat} {c0 c : Cfg N T} (h : run idx p (n + 1) c0 = .more c) : ∃ c1, run idx p n c0 = .more c1 ∧ step idx p c1 = .more c := by
  rw [run_add] at h
  cases h1 : run idx p n c0 with
  | more c1 =>
    rw [h1] at h
    simp only [run] at h
    refine ⟨c1, rfl, ?_⟩
    cases h2 : step idx p c1 with
    | more c2 => rw [h2] at h; exact h
    | done r c2 => rw [h2] at h; cases h
    | panic => rw [h2] at h; cases h
  | done r c2 => rw [h1] at h; cases h
  | panic => rw [h1] at h; cases h

theorem run_snoc {n : Nat} {c0 c1 : Cfg N T} (h : run idx p n c0 = .more c1) : run idx p (n + 1) c0 = step idx p c1 := by
  rw [run_add, h]
  simp only [run]
  cases step idx p c1 <;> rfl

/-- A round in a run without error rules that is followed by another one looks up an entry that is there. -/
theorem step_act (hx : Ctx p rules start fresh) (hn : (gram rules start).NoError) {c c2 : Cfg N T} {j γ fs lg as}
    (h : Inv p rules idx input c j γ fs lg as) (hs : step idx p c = .more c2) :
    ∃ b i rest act, (fill idx c).buffer = (b, i) :: rest ∧ p.tab.act c.state b = some act := by
  obtain ⟨a, m1, m2, m3, m4⟩ := step_cases hx h
  obtain ⟨i, rest, hb, _⟩ := h.ahead m1
  rcases m4 with ⟨t, s, _, _, n3, _⟩ | ⟨r, n1, _⟩ | ⟨v, n1, _⟩ | ⟨n1, n2 | ⟨c', j', γ', fs', lg', as', _, _, _, _, _, _, _, n9, _⟩⟩
  · exact ⟨a, i, rest, _, hb, n3⟩
  · exact ⟨a, i, rest, _, hb, n1⟩
  · exact ⟨a, i, rest, _, hb, n1⟩
  · rw [hs] at n2; cases n2
  · exact absurd n9 (no_err_expected (fresh := fresh) hn)

theorem missing_rejects (hx : Ctx p rules start fresh) (hn : (gram rules start).NoError) {q : Nat} {a : Term} {act : Action Nat}
    (hact : p.tab.act q a = some act) {n : Nat} {c : Cfg N T} (hr : run idx (p.dropAction q a) n (Cfg.init p input) = .more c) {j γ fs lg as}
    (m2 : Inv p rules idx input (fill idx c) j γ fs lg as) {i : Nat} {rest : List (Term × Nat)} (hb : (fill idx c).buffer = (a, i) :: rest)
    (hi : i = j ∨ a = .eoi) (hq : c.state = q) : ∃ c', ParsesTo idx (p.dropAction q a) input (.error .noRecovery) c' := by
  have hnr := m2.no_recover hx hn (a == .eoi) (fill idx c).recov i (by
    rcases hi with h | h
    · exact Or.inl h
    · right; rw [h]; rfl)
  refine ⟨{ fill idx c with stack := [] }, n + 1, ?_⟩
  rw [show Cfg.init (p.dropAction q a) input = Cfg.init p input from rfl, run_snoc hr, step_missing hb hq hact]
  unfold onError
  rw [show (p.dropAction q a).tab.errors = p.tab.errors from rfl, hnr]

/-- Without an entry that the parse looks up, the parse ends there. -/
theorem drop_rejects (hx : Ctx p rules start fresh) (hn : (gram rules start).NoError) {q : Nat} {a : Term} {act : Action Nat}
    (hact : p.tab.act q a = some act) {n : Nat} {c : Cfg N T} (hr : run idx p n (Cfg.init p input) = .more c) (hl : c.looksUp idx q a) :
    ∃ c', ParsesTo idx (p.dropAction q a) input (.error .noRecovery) c' := by
  have hinit : Cfg.init (p.dropAction q a) input = Cfg.init p input := rfl
  -- the first time it is looked up
  have key : ∀ n c, run idx p n (Cfg.init p input) = .more c → (∃ c', ParsesTo idx (p.dropAction q a) input (.error .noRecovery) c') ∨
      run idx (p.dropAction q a) n (Cfg.init p input) = .more c := by
    intro n
    induction n with
    | zero => intro c h; exact Or.inr h
    | succ n ih =>
      intro c h
      obtain ⟨c1, h1, h2⟩ := run_succ_more h
      rcases ih c1 h1 with h3 | h3
      · exact Or.inl h3
      · obtain ⟨j, γ, fs, lg, as, hi, he⟩ := run_inv hx hn h1
        obtain ⟨b, i, rest, act', hb, ha⟩ := step_act hx hn hi h2
        by_cases hlk : c1.state = q ∧ b = a
        · left
          obtain ⟨hq, rfl⟩ := hlk
          obtain ⟨a', m1, m2, _, _⟩ := step_cases hx hi
          obtain ⟨i', rest', hb', hi'⟩ := hi.ahead m1
          rw [hb] at hb'
          cases hb'
          exact missing_rejects hx hn hact h3 m2 hb hi' hq
        · right
          rw [run_snoc h3, step_drop hb hlk ha]
          exact h2
  rcases key n c hr with h | h
  · exact h
  · obtain ⟨hq, i, rest, hb⟩ := hl
    obtain ⟨j, γ, fs, lg, as, hi, he⟩ := run_inv hx hn hr
    obtain ⟨a', m1, m2, _, _⟩ := step_cases hx hi
    obtain ⟨i', rest', hb', hi'⟩ := hi.ahead m1
    rw [hb] at hb'
    cases hb'
    exact missing_rejects hx hn hact h m2 hb hi' hq

/-! ## Gotos -/

theorem Valid.last {R : List PRule} {s : Nat} {γ : List Sym} {i : Item} (h : Valid R s γ i) (hi : 0 < i.pos) :
    ∃ γ' X rule, γ = γ' ++ [X] ∧ R[i.rule]? = some rule ∧ rule.rhs[i.pos - 1]? = some X := by
  cases h with
  | start => simp at hi
  | advance γ i r X h1 h2 h3 => exact ⟨γ, X, r, rfl, h2, by simpa using h3⟩
  | expand => simp at hi

/-- A state is reached by only one symbol. -/
theorem Ctx.goes_inj (hx : Ctx p rules start fresh) {γ : List Sym} {q q' : Nat} (hw : p.tab.walk γ = some q) {X Y : Sym}
    (h1 : p.tab.goes q X = some q') (h2 : p.tab.goes q Y = some q') : X = Y := by
  obtain ⟨i, rule, k1, k2, k3⟩ := (hx.canon.goes γ q X hw).1 ⟨q', h1⟩
  have hv := Valid.advance γ i rule X k1 k2 k3
  have w1 : p.tab.walk (γ ++ [X]) = some q' := by rw [walk_snoc, hw]; exact h1
  have w2 : p.tab.walk (γ ++ [Y]) = some q' := by rw [walk_snoc, hw]; exact h2
  have hv' := ((hx.canon.same _ _ _ _ w1 w2).1 rfl _).1 hv
  obtain ⟨γ', Z, rule', e1, e2, e3⟩ := hv'.last (by simp)
  simp only at e2 e3
  rw [k2] at e2
  cases e2
  simp only [Nat.add_sub_cancel] at e3
  rw [k3] at e3
  cases e3
  have := (List.append_inj' e1 rfl).2
  simpa using this.symm

theorem onReduce_drop {q m : Nat} {c c2 : Cfg N T} {r : Nat} (h : onReduce p c r = .more c2) :
    onReduce (p.dropGoto q m) c r = .panic ∨
    (onReduce (p.dropGoto q m) c r = .more c2 ∧ ∃ rule q0 v i st, p.rules[r]? = some rule ∧ c2.stack = (q0, .nt v i) :: st ∧
      (get q0 p.tab.goto).bind (get rule.lhs) = some c2.state ∧ ¬ (q0 = q ∧ rule.lhs = m)) := by
  unfold onReduce at h ⊢
  rw [show (p.dropGoto q m).rules = p.rules from rfl]
  cases hr : p.rules[r]? with
  | none => rw [hr] at h; cases h
  | some rule =>
    rw [hr] at h
    simp only at h ⊢
    split at h
    · cases h
    · rename_i hlen
      rw [if_neg hlen]
      split at h
      · cases h
      · rename_i args hargs
        split at h
        · cases h
        · rename_i v hv
          split at h
          · cases h
          · rename_i s hs
            cases h
            rw [show (p.dropGoto q m).tab = p.tab.dropGoto q m from rfl, dropGoto_get]
            by_cases hd : (Option.map Prod.fst (List.take rule.rhs.length c.stack).reverse.head?).getD c.state = q ∧ rule.lhs = m
            · rw [if_pos hd]
              exact Or.inl rfl
            · rw [if_neg hd, hs]
              exact Or.inr ⟨rfl, rule, _, _, _, _, rfl, rfl, hs, hd⟩

/-- A round with a goto left out. -/
theorem step_dropGoto (hx : Ctx p rules start fresh) (hn : (gram rules start).NoError) {q m : Nat} {c c2 : Cfg N T} {j γ fs lg as}
    (h : Inv p rules idx input c j γ fs lg as) (hs : step idx p c = .more c2) :
    step idx (p.dropGoto q m) c = .panic ∨
    (step idx (p.dropGoto q m) c = .more c2 ∧ ∀ q0 v i st, c2.stack = (q0, .nt v i) :: st →
      ∃ n, p.tab.goes q0 (.nt n) = some c2.state ∧ ¬ (q0 = q ∧ n = m)) := by
  obtain ⟨b, i, rest, act, hb, ha⟩ := step_act hx hn h hs
  simp only [Tables.act, Option.bind_eq_some_iff] at ha
  obtain ⟨row, h1, h2⟩ := ha
  have hst := fill_state (idx := idx) c
  have h1' : get c.state (p.dropGoto q m).tab.action = some row := h1
  simp only [step, hb, hst, h1, h2] at hs
  simp only [step, hb, hst, h1', h2]
  cases act with
  | shift s =>
    right
    simp only at hs ⊢
    refine ⟨hs, ?_⟩
    intro q0 v i' st he
    cases b with
    | sym t => cases hs; simp at he
    | err => cases hs
    | eoi => cases hs; simp at he
  | reduce r =>
    simp only at hs ⊢
    rcases onReduce_drop (q := q) (m := m) hs with h3 | ⟨h3, rule, q0, v, i', st, _, h5, h6, h7⟩
    · exact Or.inl h3
    · refine Or.inr ⟨h3, ?_⟩
      intro q1 v1 i1 st1 he
      rw [h5] at he
      cases he
      exact ⟨rule.lhs, h6, h7⟩
  | accept =>
    simp only at hs
    split at hs <;> cases hs

/-- Without a goto that the parse looks up, the parse panics. -/
theorem dropGoto_panics (hx : Ctx p rules start fresh) (hn : (gram rules start).NoError) {q q' m : Nat}
    (hg : p.tab.goes q (.nt m) = some q') {γ : List Sym} (hw : p.tab.walk γ = some q) {n : Nat} {c : Cfg N T} {v : N} {i : Nat} {st : List (Nat × SSym N)}
    (hr : run idx p n (Cfg.init p input) = .more c) (hst : c.stack = (q, .nt v i) :: st) (hq : c.state = q') :
    ParsePanics idx (p.dropGoto q m) input := by
  have hinit : Cfg.init (p.dropGoto q m) input = Cfg.init p input := rfl
  have key : ∀ n c, run idx p n (Cfg.init p input) = .more c → ParsePanics idx (p.dropGoto q m) input ∨
      run idx (p.dropGoto q m) n (Cfg.init p input) = .more c := by
    intro n
    induction n with
    | zero => intro c h; exact Or.inr h
    | succ n ih =>
      intro c h
      obtain ⟨c1, h1, h2⟩ := run_succ_more h
      rcases ih c1 h1 with h3 | h3
      · exact Or.inl h3
      · obtain ⟨j, γ, fs, lg, as, hi, he⟩ := run_inv hx hn h1
        rcases step_dropGoto (q := q) (m := m) hx hn hi h2 with h4 | ⟨h4, _⟩
        · exact Or.inl ⟨n + 1, by rw [hinit, run_snoc h3]; exact h4⟩
        · exact Or.inr (by rw [run_snoc h3]; exact h4)
  cases n with
  | zero => cases hr; cases hst
  | succ n =>
    obtain ⟨c1, h1, h2⟩ := run_succ_more hr
    rcases key n c1 h1 with h3 | h3
    · exact h3
    · obtain ⟨j, γ', fs, lg, as, hi, he⟩ := run_inv hx hn h1
      rcases step_dropGoto (q := q) (m := m) hx hn hi h2 with h4 | ⟨_, h4⟩
      · exact ⟨n + 1, by rw [hinit, run_snoc h3]; exact h4⟩
      · exfalso
        obtain ⟨k, k1, k2⟩ := h4 q v i st hst
        rw [hq] at k1
        have := hx.goes_inj hw k1 hg
        exact k2 ⟨rfl, by simpa using this⟩

/-! ## All of it -/

theorem sentence_parses (hx : Ctx p rules start fresh) (hnw : NoConflict p rules start fresh) (hc : Unfailing rules)
    (hs : (gram rules start).Sentence (input.map idx)) : ∃ v c, ParsesTo idx p input (.ok v) c := by
  obtain ⟨f, hf⟩ := sentence_iff.1 hs
  obtain ⟨lg, as, hev⟩ := hf.1.unfailing hc
  rcases follow hx hnw hf hev with ⟨v, c, _, h, _⟩ | ⟨e, c, h, _⟩ | ⟨_, v, c, _, h, _⟩
  · exact ⟨v, c, h⟩
  · cases h
  · exact ⟨v, c, h⟩

theorem action_needed (hx : Ctx p rules start fresh) (hnw : NoConflict p rules start fresh) (hn : (gram rules start).NoError)
    (hp : (gram rules start).Productive) (hcy : ¬ (gram rules start).Cyclic) (hc : Unfailing rules) (ht : Typed idx (gram rules start))
    {γ : List Sym} {q : Nat} {a : Term} {act : Action Nat} (hw : p.tab.walk γ = some q) (hact : p.tab.act q a = some act) :
    ∃ input : List T, (gram rules start).Sentence (input.map idx) ∧ ∃ c', ParsesTo idx (p.dropAction q a) input (.error .noRecovery) c' := by
  have key : ∃ i rule ρ, Valid ((gram rules start).aug fresh) rules.length γ i ∧ ((gram rules start).aug fresh)[i.rule]? = some rule ∧
      Gen ((gram rules start).aug fresh) (rule.rhs.drop i.pos ++ [.tm i.la]) (.tm a :: ρ) := by
    cases act with
    | shift s =>
      obtain ⟨i, rule, k1, k2, k3⟩ := (hx.canon.goes γ q (.tm a) hw).1 ⟨s, goes_of_shift hact⟩
      refine ⟨i, rule, rule.rhs.drop (i.pos + 1) ++ [.tm i.la], k1, k2, ?_⟩
      have hlt : i.pos < rule.rhs.length := by rw [List.getElem?_eq_some_iff] at k3; exact k3.1
      rw [List.drop_eq_getElem_cons hlt]
      rw [List.getElem?_eq_getElem hlt] at k3
      rw [Option.some.inj k3]
      exact Gen.refl _
    | reduce r =>
      obtain ⟨_, ⟨rule, k1, k2⟩, _⟩ := (hx.canon.reduce γ q a r hw).1 hact
      exact ⟨_, rule, [], k2, k1, by simp only [List.drop_length, List.nil_append]; exact Gen.refl _⟩
    | accept =>
      obtain ⟨rfl, b, rule, k1, k2⟩ := (hx.canon.accept γ q a hw).1 hact
      have hlen : (gram rules start).rules.length = rules.length := by simp [gram]
      have k2' : Valid ((gram rules start).aug fresh) (gram rules start).rules.length γ ⟨(gram rules start).rules.length, rule.rhs.length, b⟩ := by
        rw [hlen]; exact k2
      have hb := (start_items hx.unused k2' rfl).1
      simp only at hb
      subst hb
      exact ⟨_, rule, [], k2, k1, by simp only [List.drop_length, List.nil_append]; exact Gen.refl _⟩
  obtain ⟨i, rule, ρ, k1, k2, k3⟩ := key
  obtain ⟨input, h1, n, c, j, fs, lg, as, h2, h3, h4, h5⟩ := visit (idx := idx) hx hnw hn hp hcy hc ht k1 k2 k3
  obtain ⟨i', rest, hb, _⟩ := h3.ahead h5
  have hst : c.state = q := Option.some.inj (h3.seg.walk.symm.trans hw)
  exact ⟨input, h1, drop_rejects hx hn hact h2 ⟨hst, i', rest, hb⟩⟩

theorem goto_needed (hx : Ctx p rules start fresh) (hnw : NoConflict p rules start fresh) (hn : (gram rules start).NoError)
    (hp : (gram rules start).Productive) (hcy : ¬ (gram rules start).Cyclic) (hc : Unfailing rules) (ht : Typed idx (gram rules start))
    {γ : List Sym} {q q' m : Nat} (hw : p.tab.walk γ = some q) (hg : p.tab.goes q (.nt m) = some q') :
    ∃ input : List T, (gram rules start).Sentence (input.map idx) ∧ ParsePanics idx (p.dropGoto q m) input := by
  obtain ⟨i, rule, k1, k2, k3⟩ := (hx.canon.goes γ q (.nt m) hw).1 ⟨q', hg⟩
  obtain ⟨input, h1, n, c, j, fs, lg, as, h2, h3, h4⟩ := visit_state (idx := idx) hx hnw hn hp hcy hc ht (Valid.advance γ i rule _ k1 k2 k3)
  have hst : c.state = q' := by
    have : p.tab.walk (γ ++ [.nt m]) = some q' := by rw [walk_snoc, hw]; exact hg
    exact Option.some.inj (h3.seg.walk.symm.trans this)
  have hstack : ∃ v i st, c.stack = (q, .nt v i) :: st := by
    have hseg := h3.seg
    generalize hγ : γ ++ [Sym.nt m] = γ' at hseg
    generalize c.stack = st, c.state = s at hseg ⊢
    cases hseg with
    | nil => simp at hγ
    | push st q1 us fs lg as X q' y f l a e1 e2 e3 e4 =>
      obtain ⟨rfl, he⟩ := List.append_inj' hγ rfl
      cases he
      have : q1 = q := Option.some.inj (e1.walk.symm.trans hw)
      subst this
      cases e3
      exact ⟨_, _, _, rfl⟩
  obtain ⟨v, i', st, hstack⟩ := hstack
  exact ⟨input, h1, dropGoto_panics hx hn hg hw h2 hstack hst⟩

end Verif.Par
