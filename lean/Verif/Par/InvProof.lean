import Verif.Par.StackProof

/-!
# The invariant holds in every round of the parse loop
-/

namespace Verif.Par

variable {N T E : Type}

/-- What is known about a parser made by `new`. -/
structure Ctx (p : Parser N T E) (rules : List (Rule N T E)) (start fresh : Nat) : Prop where
  ok : (gram rules start).Ok
  unused : ¬ (gram rules start).Used fresh
  canon : Canonical ((gram rules start).aug fresh) rules.length p.tab
  prules : ∃ d, p.rules = rules ++ [d]

/-- The tokens from number `j` on, as they stand in the buffer. -/
def bufOf (idx : T → Nat) (read : List T) (j : Nat) : List (Term × Nat) :=
  ((read.drop j).zipIdx j).map fun x => (Term.sym (idx x.1), x.2)

/-- A call of a callback is for a derivation forest. -/
def CallOk (rules : List (Rule N T E)) (idx : T → Nat) (input : List T) (x : Call N T) : Prop :=
  ∃ rule cs lg, rules[x.1]? = some rule ∧ Built (rules.map Rule.plain) idx input rule.rhs cs ∧ Evals rules cs lg (.ok x.2) ∧
    (leaves cs).Pairwise fun x y => x.2 < y.2

/-- The invariant: `γ` and `fs` are the symbols and trees on the stack, `j` the number of the next token. -/
structure Inv (p : Parser N T E) (rules : List (Rule N T E)) (idx : T → Nat) (input : List T) (c : Cfg N T) (j : Nat)
    (γ : List Sym) (fs : List (Tree T)) (lg : List (Call N T)) (as : List (Arg N T)) : Prop where
  seg : Seg p rules idx input p.tab.start [] c.stack c.state γ fs lg as
  read : c.read ++ c.src = input
  buf : c.buffer = bufOf idx c.read j ∨ (c.buffer = [(.eoi, 0)] ∧ c.src = [] ∧ j = c.read.length)
  jle : j ≤ c.read.length
  le : ∀ m ∈ marks fs, m ≤ j
  inc : (leaves fs).Pairwise fun x y => x.2 < y.2
  hi : ∀ q lo hi, (q, SSym.err lo hi) ∈ c.stack → hi < c.read.length ∨ input = []
  sub : lg.Sublist c.log.reverse
  clean : errs fs = [] → leaves fs = (input.take j).zipIdx ∧ lg = c.log.reverse ∧ c.recov = [] ∧ c.read.length ≤ j + 1
  calls : ∀ x ∈ c.log, CallOk rules idx input x
  good : ∀ x ∈ c.log, ∃ rule v, rules[x.1]? = some rule ∧ rule.gen x.2 = .ok v
  pulls : c.pulls = c.read.length + (if c.buffer = [(.eoi, 0)] then 1 else 0)

/-- After a reduction. -/
def Cfg.reduced (c : Cfg N T) (r : Nat) (args : List (Arg N T)) (v : N) (q q0 i : Nat) (st : List (Nat × SSym N)) : Cfg N T :=
  { c with
    state := q
    stack := (q0, .nt v i) :: st
    log := (r, args) :: c.log
    recov := if c.recov.contains r then [] else c.recov }

section
variable {p : Parser N T E} {rules : List (Rule N T E)} {idx : T → Nat} {input : List T} {start fresh : Nat}

theorem bufOf_ne_eoi {read : List T} {j : Nat} : bufOf idx read j ≠ [(.eoi, 0)] := by
  unfold bufOf
  intro h
  rw [List.map_eq_singleton_iff] at h
  obtain ⟨x, _, h⟩ := h
  cases h

theorem bufOf_end {read : List T} {j : Nat} (h : read.length ≤ j) : bufOf idx read j = [] := by
  unfold bufOf
  rw [List.drop_eq_nil_iff.2 h]
  rfl

theorem bufOf_cons {read : List T} {j : Nat} {t : T} (h : read[j]? = some t) :
    bufOf idx read j = (.sym (idx t), j) :: bufOf idx read (j + 1) := by
  unfold bufOf
  have hlt : j < read.length := by rw [List.getElem?_eq_some_iff] at h; exact h.1
  rw [List.drop_eq_getElem_cons hlt]
  rw [List.getElem?_eq_getElem hlt] at h
  cases h
  rw [List.zipIdx_cons, List.map_cons]

theorem Inv.init : Inv p rules idx input (Cfg.init p input) 0 [] [] [] [] where
  seg := .nil
  read := rfl
  buf := Or.inl rfl
  jle := Nat.le_refl _
  le := by intro m hm; simp [marks, leaves, errs] at hm
  inc := by simp [leaves]
  hi := by intro q lo hi h; cases h
  sub := by simp
  clean := by intro _; simp [leaves, Cfg.init]
  calls := by intro x h; cases h
  good := by intro x h; cases h
  pulls := by simp [Cfg.init]

/-- Filling the buffer. -/
theorem Inv.fill {c : Cfg N T} {j γ fs lg as} (h : Inv p rules idx input c j γ fs lg as) :
    Inv p rules idx input (fill idx c) j γ fs lg as ∧
    ((∃ t, (fill idx c).buffer = (.sym (idx t), j) :: bufOf idx (fill idx c).read (j + 1) ∧ (fill idx c).read[j]? = some t) ∨
     ((fill idx c).buffer = [(.eoi, 0)] ∧ (fill idx c).src = [] ∧ j = input.length ∧ (fill idx c).read = input)) := by
  rcases h.buf with hb | ⟨hb, hs, hj⟩
  · by_cases hlt : j < c.read.length
    · obtain ⟨t, ht⟩ : ∃ t, c.read[j]? = some t := ⟨_, List.getElem?_eq_getElem hlt⟩
      rw [bufOf_cons ht] at hb
      have hf : Par.fill idx c = c := by unfold Par.fill; rw [hb]
      rw [hf]
      exact ⟨h, Or.inl ⟨t, hb, ht⟩⟩
    · have hj : j = c.read.length := by have := h.jle; omega
      rw [bufOf_end (by omega)] at hb
      cases hsrc : c.src with
      | nil =>
        have hf : Par.fill idx c = { c with buffer := [(.eoi, 0)], pulls := c.pulls + 1 } := by unfold Par.fill; rw [hb, hsrc]
        rw [hf]
        have hr : c.read = input := by have := h.read; rw [hsrc] at this; simpa using this
        refine ⟨{ h with buf := Or.inr ⟨rfl, hsrc, hj⟩, pulls := ?_ }, Or.inr ⟨rfl, hsrc, by rw [hj, hr], hr⟩⟩
        have := h.pulls
        rw [hb] at this
        simp at this
        simp [this]
      | cons t src =>
        have hf : Par.fill idx c = { c with buffer := [(.sym (idx t), c.read.length)], read := c.read ++ [t], src := src, pulls := c.pulls + 1 } := by
          unfold Par.fill; rw [hb, hsrc]
        rw [hf]
        have ht : (c.read ++ [t])[j]? = some t := by rw [hj]; simp
        have hbuf : [(Term.sym (idx t), c.read.length)] = bufOf idx (c.read ++ [t]) j := by
          rw [bufOf_cons ht, bufOf_end (by simp; omega), hj]
        refine ⟨⟨h.seg, ?_, Or.inl hbuf, ?_, h.le, h.inc, ?_, h.sub, ?_, h.calls, h.good, ?_⟩, Or.inl ⟨t, ?_, ht⟩⟩
        · have := h.read; rw [hsrc] at this; simp [this]
        · simp; omega
        · intro q lo hi hm
          rcases h.hi q lo hi hm with h1 | h1
          · left; simp; omega
          · exact Or.inr h1
        · intro he
          obtain ⟨h1, h2, h3, h4⟩ := h.clean he
          exact ⟨h1, h2, h3, by simp; omega⟩
        · have := h.pulls
          rw [hb] at this
          simp at this
          simp [this]
        · simp only
          rw [hbuf, bufOf_cons ht]
  · have hf : Par.fill idx c = c := by unfold Par.fill; rw [hb]
    rw [hf]
    have hr : c.read = input := by have := h.read; rw [hs] at this; simpa using this
    exact ⟨h, Or.inr ⟨hb, hs, by rw [hj, hr], hr⟩⟩

/-- Shifting a token. -/
theorem Inv.shift {c : Cfg N T} {j γ fs lg as} (h : Inv p rules idx input c j γ fs lg as) {t : T} {s : Nat}
    (hb : c.buffer = (.sym (idx t), j) :: bufOf idx c.read (j + 1)) (ht : c.read[j]? = some t)
    (hg : p.tab.goes c.state (.tm (.sym (idx t))) = some s) :
    Inv p rules idx input { c with state := s, stack := (c.state, .tok (idx t) j) :: c.stack, buffer := bufOf idx c.read (j + 1) }
      (j + 1) (γ ++ [.tm (.sym (idx t))]) (fs ++ [.leaf j t]) lg (as ++ [.tok t]) := by
  have hlt : j < c.read.length := by rw [List.getElem?_eq_some_iff] at ht; exact ht.1
  have hin : input[j]? = some t := by rw [← h.read, List.getElem?_append_left hlt]; exact ht
  constructor
  · have := Seg.push _ _ _ _ _ _ _ _ _ _ _ _ h.seg hg (Elem.tok (rules := rules) (input := input) j t hin) (by
      intro i hi m hm
      cases hi
      exact h.le m (by simpa using hm))
    simpa using this
  · exact h.read
  · exact Or.inl rfl
  · exact hlt
  · intro m hm
    rcases mem_marks_append.1 hm with hm | hm
    · have := h.le m hm; omega
    · simp [marks, leaves, errs, Tree.leaves, Tree.errs] at hm; omega
  · rw [leaves_append, List.pairwise_append]
    refine ⟨h.inc, by simp [leaves, Tree.leaves], ?_⟩
    intro x hx y hy
    simp [leaves, Tree.leaves] at hy
    subst hy
    exact marks_leaves h.le x hx
  · intro q lo hi hm
    rcases List.mem_cons.1 hm with hm | hm
    · cases hm
    · exact h.hi q lo hi hm
  · exact h.sub
  · intro he
    rw [errs_append] at he
    have he' : errs fs = [] := (List.append_eq_nil_iff.1 he).1
    obtain ⟨h1, h2, h3, h4⟩ := h.clean he'
    refine ⟨?_, h2, h3, ?_⟩
    · have hjl : (input.take j).length = j := by
        have := congrArg List.length h.read
        simp at this
        simp
        omega
      rw [leaves_append, h1, List.take_add_one, List.zipIdx_append, hin, hjl]
      simp [leaves, Tree.leaves]
    · simp only; omega
  · exact h.calls
  · exact h.good
  · have := h.pulls
    rw [hb] at this
    simp at this
    simp only
    rw [if_neg bufOf_ne_eoi, this, Nat.add_zero]

/-- The state under a piece of the stack. -/
theorem Seg.base {q0 L st q us fs lg as} (h : Seg p rules idx input q0 L st q us fs lg as) :
    ((st.reverse.head?.map Prod.fst).getD q) = q0 := by
  induction h with
  | nil => rfl
  | push st q us fs lg as X q' y f l a k3 _ _ _ ih =>
    cases st with
    | nil => cases k3; rfl
    | cons e st =>
      rw [← ih]
      simp [List.head?_append]

/-- Reducing. -/
theorem Inv.reduce (hx : Ctx p rules start fresh) {c : Cfg N T} {j γ fs lg as} (h : Inv p rules idx input c j γ fs lg as)
    {a : Term} {r : Nat} (ha : p.tab.act c.state a = some (.reduce r)) :
    ∃ rule γ0 fs0 fs1 lg0 lg1 as0 as1, rules[r]? = some rule ∧ γ = γ0 ++ rule.rhs ∧ fs = fs0 ++ fs1 ∧ lg = lg0 ++ lg1 ∧
      as = as0 ++ as1 ∧
      (onReduce p c r = .panic ∧ input = [] ∧ errs fs1 ≠ [] ∨
       (Built (rules.map Rule.plain) idx input rule.rhs fs1 ∧ Evals rules fs1 lg1 (.ok as1) ∧
        CallOk rules idx input (r, as1) ∧
        (∀ e, rule.gen as1 = .error e → onReduce p c r = .done (.error (.reducer e)) { c with log := (r, as1) :: c.log }) ∧
        (∀ v, rule.gen as1 = .ok v → ∃ q q0 i st, onReduce p c r = .more (c.reduced r as1 v q q0 i st) ∧
          Inv p rules idx input (c.reduced r as1 v q q0 i st) j (γ0 ++ [.nt rule.lhs]) (fs0 ++ [.node r fs1]) (lg0 ++ (lg1 ++ [(r, as1)])) (as0 ++ [.nt v])))) := by
  have hw : p.tab.walk γ = some c.state := h.seg.walk
  obtain ⟨hrs, hcomp, -, -, -⟩ := (hx.canon.reduce γ c.state a r hw).1 ha
  have hsr : ((gram rules start).aug fresh)[rules.length]? = some ⟨fresh, [.nt start]⟩ := by simp [Gram.aug, gram]
  obtain ⟨γ0, prule, hr, hγ, hexp⟩ := hcomp.split ⟨_, hsr⟩ hrs
  have hrl : r < rules.length := by
    have : r < ((gram rules start).aug fresh).length := by rw [List.getElem?_eq_some_iff] at hr; exact hr.1
    simp [Gram.aug, gram] at this
    omega
  obtain ⟨rule, hrule⟩ : ∃ rule, rules[r]? = some rule := ⟨_, List.getElem?_eq_getElem hrl⟩
  have hpr : prule = rule.plain := by
    simp only [Gram.aug, gram] at hr
    rw [List.getElem?_append_left (by simpa using hrl), List.getElem?_map, hrule] at hr
    cases hr
    rfl
  have hp : p.rules[r]? = some rule := by
    obtain ⟨d, hd⟩ := hx.prules
    rw [hd, List.getElem?_append_left hrl, hrule]
  subst hpr
  subst hγ
  obtain ⟨st0, q0, fs0, lg0, as0, st1, fs1, lg1, as1, hst, rfl, rfl, rfl, k1, k2⟩ := h.seg.split
  have hlen : st1.length = rule.rhs.length := by simpa [Rule.plain] using k2.length
  refine ⟨rule, γ0, fs0, fs1, lg0, lg1, as0, as1, hrule, rfl, rfl, rfl, rfl, ?_⟩
  have htake : c.stack.take rule.rhs.length = st1 := by rw [hst, ← hlen]; simp
  have hdrop : c.stack.drop rule.rhs.length = st0 := by rw [hst, ← hlen]; simp
  have hnl : ¬ c.stack.length < rule.rhs.length := by rw [hst]; simp; omega
  have hel := k2.elems
  have hinc : (leaves fs1).Pairwise fun x y => x.2 < y.2 := by
    have := h.inc
    rw [leaves_append, List.pairwise_append] at this
    exact this.2.1
  have hle1 : ∀ m ∈ marks fs1, m ≤ j := fun m hm => h.le m (mem_marks_append.2 (Or.inr hm))
  have hle0 : ∀ m ∈ marks fs0, m ≤ j := fun m hm => h.le m (mem_marks_append.2 (Or.inl hm))
  have hmk := hel.mkArgs h.read 0 (fun _ _ => Nat.zero_le _) hinc (fun x hx => by
    have := marks_leaves hle1 x hx
    have := h.jle
    omega)
  have hrlen : c.read.length ≤ input.length := by rw [← h.read]; simp
  by_cases hbad : ∀ lo hi, SSym.err lo hi ∈ st1.reverse.map Prod.snd → hi < c.read.length
  · right
    have hmk := hmk.1 hbad
    have hev := hel.evals
    have hbu := hel.built fun lo hi hm => by have := hbad lo hi hm; omega
    have hco : CallOk rules idx input (r, as1) := ⟨rule, fs1, lg1, hrule, hbu, hev, hinc⟩
    -- the state under the popped symbols
    have hq0 : ((st1.reverse.head?.map Prod.fst).getD c.state) = q0 := k2.base
    have hwalk0 : p.tab.walk γ0 = some q0 := k1.walk
    obtain ⟨q, hq⟩ := (hx.canon.goes γ0 q0 _ hwalk0).2 hexp
    refine ⟨hbu, hev, hco, ?_, ?_⟩
    · intro e he
      simp only [onReduce, hp, hnl, if_false, htake, hmk, he]
    · intro v hv
      have hq' : (get q0 p.tab.goto).bind (get rule.lhs) = some q := hq
      refine ⟨q, q0, firstIndex c.read.length (st1.reverse.map Prod.snd), st0, ?_, ?_⟩
      · simp only [onReduce, hp, hnl, if_false, htake, hdrop, hmk, hv, hq0, hq', Cfg.reduced]
      · have hevn : Evals rules [.node r fs1] (lg1 ++ [(r, as1)]) (.ok [.nt v]) :=
          .node r rule fs1 lg1 as1 v [] [] [] hrule hev hv .nil
        have hbun : Built (rules.map Rule.plain) idx input [.nt rule.lhs] [.node r fs1] :=
          .node r rule.plain fs1 [] [] (by rw [List.getElem?_map, hrule]; rfl) hbu .nil
        have hml : ∀ m, m ∈ marks [Tree.node r fs1] ↔ m ∈ marks fs1 := by
          intro m; simp [marks, leaves, errs, Tree.leaves, Tree.errs]
        constructor
        · refine Seg.push _ _ _ _ _ _ _ _ _ _ _ _ k1 hq (Elem.nt _ _ _ _ _ hbun hevn) ?_
          intro i hi m hm
          cases hi
          simp only [List.nil_append] at hm
          exact k2.firstIndex c.read.length (fun m hm => by
            have := hle0 m (by simpa using hm); have := h.jle; omega) m (by simpa using hm)
        · exact h.read
        · exact h.buf
        · exact h.jle
        · intro m hm
          rcases mem_marks_append.1 hm with hm | hm
          · exact hle0 m hm
          · exact hle1 m ((hml m).1 hm)
        · have := h.inc
          rw [leaves_append] at this ⊢
          simpa [leaves, Tree.leaves] using this
        · intro q lo hi hm
          rcases List.mem_cons.1 hm with hm | hm
          · cases hm
          · exact h.hi q lo hi (by rw [hst]; simp [hm])
        · have := h.sub
          simp only [Cfg.reduced, List.reverse_cons]
          rw [← List.append_assoc]
          exact this.append (List.Sublist.refl _)
        · intro he
          have he' : errs (fs0 ++ fs1) = [] := by
            rw [errs_append] at he ⊢
            simpa [errs, Tree.errs] using he
          obtain ⟨h1, h2, h3, h4⟩ := h.clean he'
          refine ⟨?_, ?_, ?_, h4⟩
          · rw [← h1, leaves_append, leaves_append]; simp [leaves, Tree.leaves]
          · simp [← h2, Cfg.reduced]
          · simp [h3, Cfg.reduced]
        · intro x hx
          rcases List.mem_cons.1 hx with rfl | hx
          · exact hco
          · exact h.calls x hx
        · intro x hx
          rcases List.mem_cons.1 hx with rfl | hx
          · exact ⟨rule, v, hrule, hv⟩
          · exact h.good x hx
        · exact h.pulls
  · left
    have hne : ∃ lo hi, SSym.err lo hi ∈ st1.reverse.map Prod.snd ∧ ¬ hi < c.read.length := by
      apply Classical.byContradiction
      intro hn
      apply hbad
      intro lo hi hm
      apply Classical.byContradiction
      intro hlt
      exact hn ⟨lo, hi, hm, hlt⟩
    obtain ⟨lo, hi, hm, hlt⟩ := hne
    refine ⟨?_, ?_, hel.errs_ne hm⟩
    · cases hmm : mkArgs c.read 0 (st1.reverse.map Prod.snd) with
      | none => simp only [onReduce, hp, hnl, if_false, htake, hmm]
      | some args => exact absurd (hmk.2 args hmm lo hi hm) hlt
    · simp at hm
      obtain ⟨q', hm⟩ := hm
      rcases h.hi q' lo hi (by rw [hst]; simp [hm]) with h1 | h1
      · exact absurd h1 hlt
      · exact h1

theorem recovRules_spec {errors : List (Nat × List Nat)} {isEoi : Bool} {recov : List Nat} {state : Nat} {back : Bool}
    {rs : List Nat} (h : recovRules errors isEoi recov state back = some rs) :
    (∃ es, get state errors = some es) ∧ (isEoi = true → back = false) := by
  unfold recovRules at h
  split at h
  · cases h
  · rename_i hn
    constructor
    · split at h
      · cases h
      · rename_i h'; exact ⟨_, h'⟩
    · intro hi
      rw [hi] at hn
      simpa using hn

/-- The search of error recovery. -/
theorem recover_spec {errors : List (Nat × List Nat)} {isEoi : Bool} {recov : List Nat} {stack : List (Nat × SSym N)}
    {state head errHead : Nat} {back : Bool} {γ : List Sym} {fs : List (Tree T)} {lg as}
    (h : Seg p rules idx input p.tab.start [] stack state γ fs lg as) (tail : Nat)
    (hh : isEoi = false → ∀ m ∈ marks fs, m ≤ head) (ht : isEoi = false → ∀ m ∈ marks fs, m ≤ tail)
    (he : isEoi = false → errHead ≤ tail)
    {state' stack' recov' head' errHead' back'}
    (hr : recover errors isEoi recov stack state head errHead back = some (state', stack', recov', head', errHead', back')) :
    ∃ γ' fs' lg' as' fs'' lg'', Seg p rules idx input p.tab.start [] stack' state' γ' fs' lg' as' ∧ fs = fs' ++ fs'' ∧
      lg = lg' ++ lg'' ∧ (∀ e ∈ stack', e ∈ stack) ∧ (∃ es, get state' errors = some es) ∧
      (isEoi = false → (∀ m ∈ marks fs', m ≤ head') ∧ errHead' ≤ tail) ∧ (isEoi = true → back' = false) ∧
      (back' = false → back = false ∧ stack' = stack ∧ state' = state ∧ head' = head ∧ errHead' = errHead) := by
  induction h generalizing head errHead back with
  | nil =>
    simp only [recover, Option.map_eq_some_iff] at hr
    obtain ⟨rs, hf, hr⟩ := hr
    cases hr
    obtain ⟨h1, h2⟩ := recovRules_spec hf
    exact ⟨[], [], [], [], [], [], .nil, rfl, rfl, fun _ h => h, h1, fun h0 => ⟨hh h0, he h0⟩, h2, fun hb => ⟨hb, rfl, rfl, rfl, rfl⟩⟩
  | push st q us fs lg as X q' y f l a h1 h2 h3 h4 ih =>
    simp only [recover] at hr
    split at hr
    · rename_i rs hf
      cases hr
      obtain ⟨k1, k2⟩ := recovRules_spec hf
      exact ⟨us ++ [X], fs ++ [f], lg ++ l, as ++ [a], [], [], .push _ _ _ _ _ _ _ _ _ _ _ _ h1 h2 h3 h4, by simp, by simp,
        fun _ h => h, k1, fun h0 => ⟨hh h0, he h0⟩, k2, fun hb => ⟨hb, rfl, rfl, rfl, rfl⟩⟩
    · have hh' : isEoi = false → ∀ m ∈ marks fs, m ≤ head := fun h0 m hm => hh h0 m (mem_marks_append.2 (Or.inl hm))
      have ht' : isEoi = false → ∀ m ∈ marks fs, m ≤ tail := fun h0 m hm => ht h0 m (mem_marks_append.2 (Or.inl hm))
      have fin : ∀ {hd eh}, recover errors isEoi recov st q hd eh true = some (state', stack', recov', head', errHead', back') →
          (isEoi = false → ∀ m ∈ marks fs, m ≤ hd) → (isEoi = false → eh ≤ tail) →
          ∃ γ' fs' lg' as' fs'' lg'', Seg p rules idx input p.tab.start [] stack' state' γ' fs' lg' as' ∧
            fs ++ [f] = fs' ++ fs'' ∧ lg ++ l = lg' ++ lg'' ∧ (∀ e ∈ stack', e ∈ (q, y) :: st) ∧
            (∃ es, get state' errors = some es) ∧
            (isEoi = false → (∀ m ∈ marks fs', m ≤ head') ∧ errHead' ≤ tail) ∧ (isEoi = true → back' = false) ∧
            (back' = false → back = false ∧ stack' = (q, y) :: st ∧ state' = q' ∧ head' = head ∧ errHead' = errHead) := by
        intro hd eh hr hhd heh
        obtain ⟨γ', fs', lg', as', fs'', lg'', k1, k2, k3, k4, k5, k6, k8, k9⟩ := ih hhd ht' heh hr
        refine ⟨γ', fs', lg', as', fs'' ++ [f], lg'' ++ l, k1, by simp [k2], by simp [k3],
          fun e he => List.mem_cons_of_mem _ (k4 e he), k5, k6, k8, ?_⟩
        intro hb
        exact absurd (k9 hb).1 (by simp)
      cases h3 with
      | nt n v i f lg h5 h6 => exact fin hr (fun _ m hm => h4 i rfl m (by simpa using hm)) he
      | tok i t h5 => exact fin hr (fun _ m hm => h4 i rfl m (by simpa using hm)) he
      | err lo hi h5 =>
        refine fin hr hh' fun h0 => ht h0 lo ?_
        rw [mem_marks_append]
        right
        simp [marks, errs, Tree.errs]

theorem allSome_map {α β : Type} (f : α → Option β) (g : α → β) (l : List α) (h : ∀ x ∈ l, f x = some (g x)) :
    allSome f l = some (l.map g) := by
  induction l with
  | nil => rfl
  | cons x l ih =>
    simp only [allSome]
    rw [h x List.mem_cons_self, ih fun y hy => h y (List.mem_cons_of_mem _ hy)]
    rfl

/-- Putting tokens back. -/
theorem repush_bufOf {read : List T} {head tail : Nat} (ht : tail ≤ read.length) :
    repush idx read head tail (bufOf idx read tail) = some (bufOf idx read (min head tail)) := by
  unfold repush
  by_cases hle : tail ≤ head
  · rw [List.drop_eq_nil_iff.2 (by simpa using hle), Nat.min_eq_right hle]
    rfl
  · rw [Nat.min_eq_left (by omega)]
    have key : ∀ n, head + n = tail →
        allSome (fun i => (read[i]?).map fun t => (Term.sym (idx t), i)) (List.range' head n) =
          some (((read.drop head).take n |>.zipIdx head).map fun x => (Term.sym (idx x.1), x.2)) := by
      intro n
      clear hle
      induction n generalizing head with
      | zero => intro _; rfl
      | succ n ih =>
        intro hn
        have hlt : head < read.length := by omega
        rw [List.range'_succ, List.drop_eq_getElem_cons hlt, List.take_succ_cons, List.zipIdx_cons, List.map_cons]
        have := ih (head := head + 1) (by omega)
        simp only [allSome, List.getElem?_eq_getElem hlt, Option.map_some]
        rw [this]
    have hr : (List.range tail).drop head = List.range' head (tail - head) := by
      rw [List.range_eq_range', List.drop_range']
      simp
    rw [hr, key (tail - head) (by omega)]
    simp only [Option.map_some, Option.some.injEq]
    unfold bufOf
    rw [← List.map_append]
    congr 1
    have : read.drop head = (read.drop head).take (tail - head) ++ read.drop tail := by
      have h := (List.take_append_drop (tail - head) (read.drop head)).symm
      rw [List.drop_drop] at h
      have h2 : head + (tail - head) = tail := by omega
      rw [h2] at h
      exact h
    rw [this, List.zipIdx_append]
    rw [← this]
    congr 2
    simp
    omega

/-- Error recovery. -/
theorem Inv.error (hx : Ctx p rules start fresh) {c : Cfg N T} {j γ fs lg as} (h : Inv p rules idx input c j γ fs lg as)
    {a : Term} {i : Nat}
    (hb : (∃ t, a = .sym (idx t) ∧ i = j ∧ c.buffer = (.sym (idx t), j) :: bufOf idx c.read (j + 1) ∧ c.read[j]? = some t) ∨
      (a = .eoi ∧ i = 0 ∧ c.buffer = [(.eoi, 0)] ∧ c.read = input)) :
    (onError idx p c a i = .done (.error .noRecovery) { c with stack := [] }) ∨
    ∃ c' j' γ' fs' lg' as', onError idx p c a i = .more c' ∧ Inv p rules idx input c' j' γ' fs' lg' as' ∧ errs fs' ≠ [] ∧
      c'.log = c.log ∧ c'.read = c.read ∧ c'.src = c.src ∧ c'.pulls = c.pulls ∧
      (∃ γ0, Expects ((gram rules start).aug fresh) rules.length γ0 (.tm .err)) ∧
      (a = .eoi → ∃ q, c'.stack = (q, .err 0 0) :: c.stack) := by
  unfold onError
  cases hr : recover p.tab.errors (a == .eoi) c.recov c.stack c.state i i false with
  | none => left; rfl
  | some x =>
    right
    obtain ⟨state', stack', recov', head', errHead', back'⟩ := x
    have hie : (a == Term.eoi) = false → i = j := by
      rintro h0
      rcases hb with ⟨t, _, h1, _⟩ | ⟨h1, _⟩
      · exact h1
      · rw [h1] at h0; cases h0
    obtain ⟨γ', fs', lg', as', fs'', lg'', k1, k2, k3, k4, ⟨es, k5⟩, k6, k7, k8⟩ := recover_spec h.seg i
      (fun h0 => by rw [hie h0]; exact h.le) (fun h0 => by rw [hie h0]; exact h.le) (fun _ => Nat.le_refl _) hr
    have hw : p.tab.walk γ' = some state' := k1.walk
    obtain ⟨r, hre⟩ := List.exists_mem_of_ne_nil _ (hx.canon.errors_ne state' es k5)
    have hexp : Expects ((gram rules start).aug fresh) rules.length γ' (.tm .err) := by
      obtain ⟨i, rule, e1, e2, e3, e4⟩ := (hx.canon.errors γ' state' r hw).1 (by rw [k5]; exact hre)
      subst e2
      exact ⟨i, rule, e1, e3, e4⟩
    obtain ⟨row, hrow⟩ := hx.canon.row γ' state' hw
    obtain ⟨s, hs⟩ := (hx.canon.goes γ' state' _ hw).2 hexp
    have hsh : get .err row = some (.shift s) := by
      simp only [Tables.goes, Tables.act, hrow, Option.bind_some] at hs
      split at hs
      · rename_i h'; rw [h', Option.some.inj hs]
      · simp at hs
    have hjr := h.jle
    rcases hb with ⟨t, rfl, rfl, hbuf, ht⟩ | ⟨rfl, rfl, hbuf, hread⟩
    · have hlt : i < c.read.length := by rw [List.getElem?_eq_some_iff] at ht; exact ht.1
      have hbuf' : c.buffer = bufOf idx c.read i := by rw [hbuf, bufOf_cons ht]
      obtain ⟨k6, k7⟩ := k6 rfl
      have hrep : repush idx c.read head' i c.buffer = some (bufOf idx c.read (min head' i)) := by
        rw [hbuf', repush_bufOf (by omega)]
      have hmm : min head' errHead' ≤ min head' i := by omega
      have hnb : (if back' = true then (bufOf idx c.read (min head' i)).drop 1 else bufOf idx c.read (min head' i)) =
          bufOf idx c.read (if back' = true then min head' i + 1 else min head' i) := by
        split
        · have hlt' : min head' i < c.read.length := by omega
          rw [bufOf_cons (List.getElem?_eq_getElem hlt')]
          rfl
        · rfl
      simp only [hrep, hrow, hsh, hnb]
      refine ⟨_, if back' = true then min head' i + 1 else min head' i, γ' ++ [.tm .err],
        fs' ++ [.err (min head' errHead') (slice input (min head' errHead') i)], lg',
        as' ++ [.err (slice input (min head' errHead') i)], rfl, ?_, ?_, rfl, rfl, rfl, rfl, ⟨γ', hexp⟩, ?_⟩
      · have hmin : min head' i ≤ if back' = true then min head' i + 1 else min head' i := by split <;> omega
        have hle' : ∀ m ∈ marks fs', m ≤ min head' i := by
          intro m hm
          have h1 := k6 m hm
          have h2 := h.le m (by rw [k2]; exact mem_marks_append.2 (Or.inl hm))
          omega
        constructor
        · have := Seg.push _ _ _ _ _ _ _ _ _ _ _ _ k1 hs (Elem.err (rules := rules) (idx := idx) (input := input) (min head' errHead') i (by omega)) (by
            intro i hi; cases hi)
          simpa using this
        · exact h.read
        · exact Or.inl rfl
        · simp only; split <;> omega
        · intro m hm
          rcases mem_marks_append.1 hm with hm | hm
          · have := hle' m hm; omega
          · simp [marks, leaves, errs, Tree.leaves, Tree.errs] at hm
            omega
        · have := h.inc
          rw [k2, leaves_append, List.pairwise_append] at this
          rw [leaves_append]
          simpa [leaves, Tree.leaves] using this.1
        · intro q lo hi hm
          rcases List.mem_cons.1 hm with hm | hm
          · cases hm; exact Or.inl hlt
          · exact h.hi q lo hi (k4 _ hm)
        · have := h.sub
          rw [k3] at this
          exact (List.sublist_append_left _ _).trans this
        · intro he
          simp [errs_append, errs, Tree.errs] at he
        · exact h.calls
        · exact h.good
        · have := h.pulls
          rw [hbuf'] at this
          rw [if_neg bufOf_ne_eoi] at this
          simp only
          rw [if_neg bufOf_ne_eoi, this]
      · simp [errs_append, errs, Tree.errs]
      · intro h0; cases h0
    · have hb0 := k7 rfl
      obtain ⟨-, rfl, rfl, rfl, rfl⟩ := k8 hb0
      subst hb0
      have hrep : repush idx c.read 0 0 c.buffer = some c.buffer := rfl
      simp only [hrep, hrow, hsh, Bool.false_eq_true, if_false]
      refine ⟨_, j, γ ++ [.tm .err], fs ++ [.err 0 (slice input 0 0)], lg, as ++ [.err (slice input 0 0)], rfl, ?_, ?_, rfl,
        rfl, rfl, rfl, ⟨γ', hexp⟩, fun _ => ⟨_, rfl⟩⟩
      · constructor
        · have := Seg.push _ _ _ _ _ _ _ _ _ _ _ _ h.seg hs (Elem.err (rules := rules) (idx := idx) (input := input) 0 0 (by omega)) (by
            intro i hi; cases hi)
          simpa using this
        · exact h.read
        · exact h.buf
        · exact h.jle
        · intro m hm
          rcases mem_marks_append.1 hm with hm | hm
          · exact h.le m hm
          · simp [marks, leaves, errs, Tree.leaves, Tree.errs] at hm
            omega
        · have := h.inc
          rw [leaves_append]
          simpa [leaves, Tree.leaves] using this
        · intro q lo hi hm
          rcases List.mem_cons.1 hm with hm | hm
          · cases hm
            simp only
            rw [hread]
            cases input with
            | nil => exact Or.inr rfl
            | cons t l => left; simp
          · exact h.hi q lo hi hm
        · exact h.sub
        · intro he
          simp [errs_append, errs, Tree.errs] at he
        · exact h.calls
        · exact h.good
        · exact h.pulls
      · simp [errs_append, errs, Tree.errs]

end

end Verif.Par
