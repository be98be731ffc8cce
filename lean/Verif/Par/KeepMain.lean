import Verif.Par.KeepProof
import Verif.Par.UsedProof
import Verif.Par.FullProof

/-!
# What error recovery keeps: up to the phrase, and from there on
-/

namespace Verif.Par

variable {N T E : Type} {p : Parser N T E} {rules : List (Rule N T E)} {idx : T → Nat} {input : List T} {start fresh : Nat}

/-- Inside of the input, the end of input is never ahead. -/
theorem Built.along_inner {us fs} (h : Built (rules.map Rule.plain) idx input us fs) (he : errs fs = []) (γ : List Sym) (j : Nat)
    (hj : j + (leaves fs).length < input.length) : Along (rules.map Rule.plain) (fun _ _ a => a ≠ .eoi) idx input γ j fs := by
  induction h generalizing γ j with
  | nil => exact .nil _ _
  | leaf i t us fs _ _ ih =>
    simp only [leaves, Tree.leaves, List.length_append, List.length_singleton] at hj
    exact .leaf _ _ _ _ _ (ih (by simpa [errs, Tree.errs] using he) _ _ (by omega))
  | err => simp [errs, Tree.errs] at he
  | node r rule cs us fs h _ _ ih1 ih2 =>
    simp only [errs, Tree.errs, List.append_eq_nil_iff] at he
    simp only [leaves, Tree.leaves, List.length_append] at hj
    refine .node _ _ _ rule _ _ h (ih1 he.1 _ _ (by omega)) ?_ (ih2 he.2 _ _ (by omega))
    rw [nextTerm, List.getElem?_eq_getElem (by omega)]
    simp

/-- An item that has just been advanced. -/
theorem Valid.retreat {R : List PRule} {s : Nat} {ζ : List Sym} {i : Item} (h : Valid R s ζ i) {γ : List Sym} {X : Sym} (hz : ζ = γ ++ [X]) {k : Nat}
    (hk : i.pos = k + 1) : Valid R s γ ⟨i.rule, k, i.la⟩ := by
  cases h with
  | start => cases hk
  | advance γ0 i r X' h1 h2 h3 =>
    obtain ⟨rfl, _⟩ := List.append_inj' hz rfl
    simp only [Nat.add_right_cancel_iff] at hk
    subst hk
    exact h1
  | expand => cases hk

/-- The parse of a phrase at the beginning, in front of a token that can follow. -/
theorem keep_reach (hx : Ctx p rules start fresh) (hnw : NoConflict p rules start fresh) (hfr : (gram rules start).Fruitful) {u w : List T} {t : T}
    (hin : input = u ++ t :: w) {X : Nat} (ht : (gram rules start).Next X (idx t)) {f : Tree T} (hf : Built (rules.map Rule.plain) idx input [.nt X] [f])
    (he : errs [f] = []) (hl : leaves [f] = u.zipIdx) {lg x} (hev : Evals rules [f] lg x) :
    SimOut False p rules idx input start (Cfg.init p input) u.length [.nt X] [f] lg [] x := by
  have hlen : (gram rules start).rules.length = rules.length := by simp [gram]
  have hex : Expects ((gram rules start).aug fresh) rules.length [.nt X] (.tm (.sym (idx t))) := by
    rw [← hlen, Gram.expects_iff hfr hx.unused]; exact ht
  obtain ⟨i, r1, k1, k2, k3⟩ := hex
  obtain ⟨i2, r2, q0, q1, α, β, ρ, q2, q4, q3⟩ := k1.kernel [] (.nt X) r1 _ rfl k2 k3
  have hv := q0.retreat (γ := []) (X := .nt X) rfl q4
  have hleft : (leaves [f]).length = u.length := by rw [hl]; simp
  have hlt : u.length < input.length := by rw [hin]; simp
  have := sim (N := N) (Q := fun _ _ a => a ≠ .eoi) (Cy := False) hx (fun γ q r a h1 h2 h3 _ => hnw γ q r a h1 h2 h3) (fun _ _ _ h => h rfl) hf he
    (c := Cfg.init p input) (j := 0) (m := u.length) (vs := β) (b := .sym (idx t)) (ρ := ρ ++ [.tm i2.la]) (rule := r2)
    (hf.along_inner he [] 0 (by omega)) .init rfl hv q1
    (by simp only [q2]; rw [List.drop_left]; rfl) (Nat.zero_le _) (Nat.le_of_lt hlt) (by rw [hl, hin]; simp)
    (Or.inl ⟨t, rfl, by rw [hin]; simp⟩) (q3.append (.refl _)) hev
  simpa using this

theorem pos_eq {read : List T} {j k : Nat} (h : bufOf idx read j = bufOf idx read k) (hj : j ≤ read.length) (hk : k ≤ read.length) : j = k := by
  have := congrArg List.length h
  simp [bufOf] at this
  omega

theorem KInv.begin (hx : Ctx p rules start fresh) (hfr : (gram rules start).Fruitful) {u w : List T} {t : T} (hin : input = u ++ t :: w) {X : Nat}
    (ht : (gram rules start).Next X (idx t)) {f : Tree T} {lg : List (Call N T)} {as : List (Arg N T)} {c : Cfg N T} {m : Mach N T}
    (hi : Inv p rules idx input c u.length [.nt X] [f] lg as) (hs : MachSim p rules idx input start fresh c m) :
    ∃ es, KInv (gram rules start) X f rules ((gram rules start).aug fresh) rules.length start idx input m es := by
  have hlen : (gram rules start).rules.length = rules.length := by simp [gram]
  have hlt : u.length < input.length := by rw [hin]; simp
  have hpos : m.pos = u.length := by
    rcases hi.buf with h1 | ⟨h1, h2, h3⟩
    · rcases hs.buf with ⟨h4, _⟩ | ⟨h4, _⟩
      · exact pos_eq (h4.symm.trans h1) hs.ple hi.jle
      · exact absurd (h1.symm.trans h4) bufOf_ne_eoi
    · exfalso
      have := congrArg List.length hi.read
      rw [h2] at this
      simp at this
      omega
  obtain ⟨v, i, hp, hb, hev⟩ : ∃ v i, m.pieces = [.nt X v i] ∧ Built (rules.map Rule.plain) idx input [.nt X] [f] ∧ Evals rules [f] lg (.ok [.nt v]) := by
    have hseg := hi.seg
    have hps := hs.seg
    generalize hst : c.stack = st at hseg hps
    generalize hq : c.state = q at hseg hps
    generalize hus : [Sym.nt X] = us at hseg
    generalize hfs : [f] = fs at hseg
    cases hseg with
    | nil => cases hus
    | push st q' us fs lg as X' q'' y f' l a h1 h2 h3 h4 =>
      obtain ⟨rfl, hX⟩ := List.append_inj' (s₁ := []) hus rfl
      obtain ⟨rfl, hF⟩ := List.append_inj' (s₁ := []) hfs rfl
      cases hX
      cases hF
      generalize hus : ([] : List Sym) = us0 at h1
      generalize hfs : ([] : List (Tree T)) = fs0 at h1
      cases h1 with
      | push => simp at hus
      | nil =>
        generalize hpp : m.pieces = ps at hps
        generalize hst' : [(p.tab.start, y)] = st' at hps
        cases hps with
        | nil => cases hst'
        | push st q1 ps q2 P g1 g2 g3 =>
          cases hst'
          cases g1
          have e := hx.goes_inj (γ := []) rfl h2 g2
          cases P with
          | nt X' v i =>
            cases e
            generalize hy : Piece.ssym idx (.nt X v i : Piece N T) = y at h3
            cases h3 with
            | nt n v' i' f lg b1 b2 =>
              cases hy
              exact ⟨v, i, rfl, b1, by simpa using b2⟩
          | tok t i => cases e
          | err lo hi => cases e
  refine ⟨[(.nt X v i, f, lg)], hp, by omega, ?_, ?_, hi.inc, ?_, ?_, ?_, ⟨X, v, i, f, lg, [], rfl, .self, .self⟩⟩
  · intro e he
    cases List.mem_singleton.1 he
    exact ⟨hb, hev⟩
  · rw [hs.calls]
    simpa [madeBy] using hi.sub
  · intro y hy
    rw [hpos]
    exact hi.le y hy
  · intro l e k hk i' _ x hx'
    cases l with
    | nil => simp [trees, marks, leaves, errs] at hx'
    | cons _ l => simp at hk
  · intro ps X' v' i' hps hno
    apply hno.1
    have ha : m.ahead idx input = .sym (idx t) := by rw [Mach.ahead, hpos, hin]; simp
    have hr : m.read idx = [.nt X] := by rw [Mach.read, hp]; rfl
    rw [ha, hr, ← hlen, Gram.expects_iff hfr hx.unused]
    exact ht

theorem kept_run (hx : Ctx p rules start fresh) (hfr : (gram rules start).Fruitful) {X : Nat} (hk : (gram rules start).Keeps X) {f0 : Tree T} (hne : input ≠ [])
    (n : Nat) : ∀ {c c' : Cfg N T} {m : Mach N T} {es : List (Entry N T)} {v : N}, MachSim p rules idx input start fresh c m →
      KInv (gram rules start) X f0 rules ((gram rules start).aug fresh) rules.length start idx input m es → run idx p n c = .done (.ok v) c' →
      ∃ f calls, Built (rules.map Rule.plain) idx input [.nt start] [f] ∧ Evals rules [f] calls (.ok [.nt v]) ∧
        calls.Sublist c'.log.reverse ∧ ((leaves [f]).Pairwise fun x y => x.2 < y.2) ∧ AtLeft f0 f := by
  have hlen : (gram rules start).rules.length = rules.length := by simp [gram]
  have hk' : ∀ Z Y r, (gram rules start).Corner X Z → Expects ((gram rules start).aug fresh) rules.length [.nt Z] Y →
      ErrRule ((gram rules start).aug fresh) rules.length [] r → ErrRule ((gram rules start).aug fresh) rules.length [.nt Z] r ∨
        ErrRule ((gram rules start).aug fresh) rules.length [.nt Z, Y] r := by
    intro Z Y r h1 h2 h3
    rw [← hlen] at h2 h3 ⊢
    rw [Gram.expects_iff hfr hx.unused] at h2
    rw [Gram.errRule_iff hfr hx.unused] at h3
    simp only [Gram.errRule_iff hfr hx.unused]
    exact hk Z Y r h1 h2 h3
  induction n with
  | zero => intro c c' m es v _ _ h; cases h
  | succ n ih =>
    intro c c' m es v hs hi h
    obtain ⟨o, ho⟩ := hs.progress hx
    have hsim := hs.step hx ho
    simp only [run] at h
    cases hst : step idx p c with
    | panic => rw [hst] at h; cases h
    | more c1 =>
      rw [hst] at h hsim
      cases o with
      | done x m' => exact absurd hsim id
      | panic => exact absurd hsim id
      | more m' =>
        obtain ⟨es', hi'⟩ := hi.step (hx.tree hfr) hk' hne ((hx.canon.walk_iff _).1 ⟨_, hs.seg.walk⟩) ho
        exact ih hsim hi' h
    | done x c1 =>
      rw [hst] at h hsim
      cases h
      cases o with
      | more m' => exact absurd hsim id
      | panic => exact absurd hsim id
      | done x m' =>
        obtain ⟨rfl, hlog, _⟩ := hsim
        cases ho with
        | accept v i h1 h2 =>
          have hp := hi.pieces
          rw [h2] at hp
          obtain ⟨e, es', rfl, he, hes⟩ := List.map_eq_cons_iff.1 hp.symm
          cases List.map_eq_nil_iff.1 hes
          obtain ⟨P, f, lg⟩ := e
          simp only at he
          subst he
          obtain ⟨k1, k2⟩ := hi.stand _ List.mem_cons_self
          obtain ⟨Z, v', i', f', lg', rest, e, k3, _⟩ := hi.bottom
          cases e
          refine ⟨f, lg, k1, k2, ?_, hi.inc, k3⟩
          rw [hlog]
          simpa [madeBy, Mach.look] using hi.calls

/-- Calls are never undone. -/
theorem MStep.prefix {R : List PRule} {s : Nat} {m : Mach N T} {o : MOut N T E} (h : MStep rules R s start idx input m o) :
    ∀ m', o = .more m' ∨ (∃ x, o = .done x m') → m.calls <+: m'.calls := by
  intro m' hm
  cases h <;> rcases hm with e | ⟨x, e⟩ <;> cases e <;> simp [Mach.look]

theorem calls_prefix (hx : Ctx p rules start fresh) (n : Nat) : ∀ {c c' : Cfg N T} {m : Mach N T} {x : Except (PErr E) N},
    MachSim p rules idx input start fresh c m → run idx p n c = .done x c' → m.calls <+: c'.log.reverse := by
  induction n with
  | zero => intro c c' m x _ h; cases h
  | succ n ih =>
    intro c c' m x hs h
    obtain ⟨o, ho⟩ := hs.progress hx
    have hsim := hs.step hx ho
    simp only [run] at h
    cases hst : step idx p c with
    | panic => rw [hst] at h; cases h
    | more c1 =>
      rw [hst] at h hsim
      cases o with
      | done x m' => exact absurd hsim id
      | panic => exact absurd hsim id
      | more m' => exact (ho.prefix m' (.inl rfl)).trans (ih hsim h)
    | done x c1 =>
      rw [hst] at h hsim
      cases h
      cases o with
      | more m' => exact absurd hsim id
      | panic => exact absurd hsim id
      | done x m' =>
        obtain ⟨rfl, hlog, _⟩ := hsim
        rw [hlog]
        exact ho.prefix m' (.inr ⟨_, rfl⟩)

theorem machSim_more (hx : Ctx p rules start fresh) {n : Nat} {c : Cfg N T} (h : run idx p n (Cfg.init p input) = .more c) :
    ∃ m : Mach N T, MachSim p rules idx input start fresh c m := by
  obtain ⟨⟨o, ho⟩, hall⟩ := MachSim.init.run hx (idx := idx) (input := input) n
  have := hall o ho
  rw [h] at this
  cases o with
  | more m => exact ⟨m, this⟩
  | done x m => exact this.elim
  | panic => exact this.elim

/-! ## The check -/

theorem keeps_keeps {g : Gram} {X K : Nat} {up : List Nat} (h : g.keeps X K up = true) {fresh : Nat} (hf : ¬ g.Used fresh) (hfr : g.Fruitful) : g.Keeps X := by
  simp only [Gram.keeps, Bool.and_eq_true] at h
  obtain ⟨⟨ke, hX⟩, hall⟩ := h
  have hrule : ∀ r ∈ g.rules, ∀ n l, r.rhs = .nt n :: l → up.contains n = true → up.contains r.lhs = true ∧ (l = [] ∨ g.keepsAt K n l = true) := by
    intro r hr n l e hn
    have := List.all_eq_true.1 hall r hr
    rw [e] at this
    simp only [hn, Bool.not_true, Bool.false_or, Bool.and_eq_true, Bool.or_eq_true, List.isEmpty_iff] at this
    exact this
  have hup : ∀ {Z}, g.Corner X Z → up.contains Z = true := by
    intro Z hc
    induction hc with
    | self => exact hX
    | up r n β hr e _ ih => exact (hrule r hr n β e ih).1
  intro Z Y r hc h1 h2
  have hZ := hup hc
  have h1' : Expects (g.aug fresh) g.rules.length [.nt Z] Y := (Gram.expects_iff hfr hf).2 h1
  obtain ⟨i, r1, k1, k2, k3⟩ := h1'
  obtain ⟨i2, r2, q0, q1', α, β, ρ, q2, q4, q3⟩ := k1.kernel [] (.nt Z) r1 Y rfl k2 k3
  have q1 := List.mem_of_getElem? q1'
  have hβ : β ≠ [] := by
    rintro rfl
    cases q3.nil_left
  have hα : α = [] := by
    have hv := q0.retreat (γ := []) (X := .nt Z) rfl q4
    cases α with
    | nil => rfl
    | cons Z α =>
      obtain ⟨γ', Z', _, e, _⟩ := hv.last (by simp)
      simp at e
  subst hα
  simp only [List.nil_append] at q2
  have herr : ∀ ζ, Expects (g.aug fresh) g.rules.length ζ (.nt K) → g.ErrorAt r ζ := by
    intro ζ hex
    obtain ⟨rule, x, v, α', β', e1, e2, e3, e4⟩ := h2
    obtain ⟨e5, β2, e6⟩ := errorsOf_rule ke (List.mem_of_getElem? e1) (by rw [e3]; simp)
    have e7 : (g.aug fresh)[r]? = some rule := by
      rw [Gram.aug, List.getElem?_append_left (by rw [List.getElem?_eq_some_iff] at e1; exact e1.1)]
      exact e1
    subst e5
    obtain ⟨a', hv'⟩ := hex.item (r0 := ⟨fresh, [.nt g.start]⟩) Gram.aug_start (hfr.aug hf) e7
    exact (Gram.errRule_iff hfr hf).1 ⟨_, rule, hv', rfl, e7, by rw [e6]; rfl⟩
  rcases List.mem_append.1 q1 with q1 | q1
  · rcases (hrule r2 q1 Z β q2 hZ).2 with k | k
    · exact absurd k hβ
    · simp only [Gram.keepsAt, Bool.or_eq_true] at k
      rcases k with k | k
      · left
        obtain ⟨r', hr', k⟩ := List.any_eq_true.1 k
        simp only [Bool.and_eq_true, beq_iff_eq, List.isPrefixOf_iff_prefix] at k
        obtain ⟨rfl, δ, hδ⟩ := k
        have hR : r' ∈ g.aug fresh := List.mem_append_left _ hr'
        have hex : Expects (g.aug fresh) g.rules.length [] (.nt r'.lhs) := k1.expects_prefix [] _ [] rfl
        obtain ⟨j, hj⟩ := List.getElem?_of_mem hR
        obtain ⟨a, hv⟩ := hex.item (r0 := ⟨fresh, [.nt g.start]⟩) Gram.aug_start (hfr.aug hf) hj
        have hadv := Valid.advance [] ⟨j, 0, a⟩ r' (.nt r'.lhs) hv hj (by rw [← hδ]; rfl)
        exact herr _ ⟨_, r', hadv, hj, by rw [← hδ]; rfl⟩
      · split at k
        · rename_i m l'
          left
          refine herr _ (leads_expects hfr hf _ k ⟨i2, r2, q0, q1', ?_⟩)
          rw [q2, q4]; rfl
        · rename_i t m l'
          right
          have hY : Y = .tm t := by
            obtain ⟨v, e, _⟩ := q3.terminal
            cases e
            rfl
          subst hY
          have hadv := Valid.advance _ i2 r2 (.tm t) q0 q1' (by rw [q2, q4]; rfl)
          exact herr _ (leads_expects hfr hf _ k ⟨_, r2, hadv, q1', by simp only; rw [q2, q4]; rfl⟩)
        · cases k
  · exfalso
    cases List.mem_singleton.1 q1
    simp only [List.cons.injEq] at q2
    exact hβ q2.2.symm

end Verif.Par
