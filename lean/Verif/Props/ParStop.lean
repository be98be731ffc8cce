import Verif.Par.StopMain
import Verif.Par.StmtRun
import Verif.Props.ParSource
import Verif.Props.ParLasting
import Verif.Props.ParMachine

/-!
# Property C89: error recovery skips to the next token that may follow `error`
-/

namespace Verif.Par

variable {N T E : Type}

/-- C89: let a terminal follow directly behind every `error` in the rules.  Whenever an `error` has just been put behind the symbols `keep`, and `k` is the first
position from there on whose token may follow `error` at this place, all tokens in front of it are skipped: `k - pos` rounds later, and without calling any
callback, the `error` reaches to the token in front of `k`, and one more round reads the token at `k`. -/
theorem c89_resume (o : Seeds) (ho : o.Fair) (rules : List (Rule N T E)) (start : Nat) (hok : (gram rules start).Ok)
    (hfr : (gram rules start).Fruitful) (hs : (gram rules start).ErrorsStop) (p : Parser N T E) (ws : List Warning) (hp : MakesParser o rules start p ws) :
    ∃ fresh, ¬ (gram rules start).Used fresh ∧ ∀ (idx : T → Nat) (input : List T) (n : Nat) (m : Mach N T) (keep : List (Piece N T)) (lo hi : Nat),
      MRun rules ((gram rules start).aug fresh) rules.length start idx input n Mach.init (.more m) → m.pieces = keep ++ [.err lo hi] →
      ∀ (k : Nat) (t : T), m.pos ≤ k → input[k]? = some t → (gram rules start).StopAt (keep.map (Piece.sym idx)) (idx t) →
        (∀ i u, m.pos ≤ i → i < k → input[i]? = some u → ¬ (gram rules start).StopAt (keep.map (Piece.sym idx)) (idx u)) →
      ∃ m', MRun rules ((gram rules start).aug fresh) rules.length start idx input (n + (k - m.pos) + 1) Mach.init (.more m') ∧
        m'.pieces = keep ++ [.err lo (if k = m.pos then hi else k - 1), .tok t k] ∧ m'.pos = k + 1 ∧ m'.calls = m.calls ∧
        Agree (run idx p (n + (k - m.pos) + 1) (Cfg.init p input)) (.more m') := by
  obtain ⟨fresh, hx⟩ := ctx_of_makes ho hok hp
  have hl : (gram rules start).rules.length = rules.length := by simp [gram]
  refine ⟨fresh, hx.unused, ?_⟩
  intro idx input n m keep lo hi hr hpc k t hk ht hstop hno
  have hexp : ∀ u, Expects ((gram rules start).aug fresh) rules.length (keep.map (Piece.sym idx) ++ [.tm .err]) (.tm (.sym (idx u))) ↔
      (gram rules start).StopAt (keep.map (Piece.sym idx)) (idx u) := by
    intro u
    rw [← hl, Gram.expects_iff hfr hx.unused, List.append_assoc]
    rfl
  have hne : input ≠ [] := by rintro rfl; simp at ht
  obtain ⟨h1, h2, _⟩ := hr.err_le hx hfr
  obtain ⟨m', k1, k2, k3, k4⟩ := hs.stopIn.resume (rules := rules) (start := start) (idx := idx) ht ((hexp t).2 hstop) (k - m.pos) h1 hpc (by omega)
    (h2 hne lo hi (by rw [hpc]; simp)).1 (fun i u a1 a2 a3 => by rw [hexp]; exact hno i u a1 a2 a3)
  have hrun := hr.then k1
  refine ⟨m', hrun, ?_, k3, k4, ?_⟩
  · rw [k2]
    by_cases he : k = m.pos
    · simp [he]
    · rw [if_neg he, if_neg (by omega)]
  · have := ((MachSim.init (p := p) (idx := idx) (input := input)).run hx _).2 _ hrun
    rw [← Nat.add_assoc] at this
    generalize run idx p (n + (k - m.pos) + 1) (Cfg.init p input) = x at this
    cases x with
    | more c => exact ⟨this.calls.symm, this.pulls⟩
    | done => exact absurd this id
    | panic => exact absurd this id

/-- C89: if no token from there on may follow `error` at this place, `parse` skips the rest of the input and returns `RecoveryRuleNotFound`, without
calling any callback.  (In particular an error at the end of the input is never recovered.) -/
theorem c89_never (o : Seeds) (ho : o.Fair) (rules : List (Rule N T E)) (start : Nat) (hok : (gram rules start).Ok)
    (hfr : (gram rules start).Fruitful) (hs : (gram rules start).ErrorsStop) (p : Parser N T E) (ws : List Warning) (hp : MakesParser o rules start p ws) :
    ∃ fresh, ¬ (gram rules start).Used fresh ∧ ∀ (idx : T → Nat) (input : List T) (n : Nat) (m : Mach N T) (keep : List (Piece N T)) (lo hi : Nat),
      MRun rules ((gram rules start).aug fresh) rules.length start idx input n Mach.init (.more m) → m.pieces = keep ++ [.err lo hi] →
      (∀ i u, m.pos ≤ i → input[i]? = some u → ¬ (gram rules start).StopAt (keep.map (Piece.sym idx)) (idx u)) →
      ∃ c, ParsesTo idx p input (.error .noRecovery) c ∧ c.log.reverse = m.calls ∧ c.pulls = input.length + 1 := by
  obtain ⟨fresh, hx⟩ := ctx_of_makes ho hok hp
  have hl : (gram rules start).rules.length = rules.length := by simp [gram]
  refine ⟨fresh, hx.unused, ?_⟩
  intro idx input n m keep lo hi hr hpc hno
  have hexp : ∀ u, Expects ((gram rules start).aug fresh) rules.length (keep.map (Piece.sym idx) ++ [.tm .err]) (.tm (.sym (idx u))) ↔
      (gram rules start).StopAt (keep.map (Piece.sym idx)) (idx u) := by
    intro u
    rw [← hl, Gram.expects_iff hfr hx.unused, List.append_assoc]
    rfl
  obtain ⟨h1, _, h3⟩ := hr.err_le hx hfr
  have hpos : m.pos ≤ input.length := by
    by_cases hne : input = []
    · subst hne
      rw [hr.pos_zero]
      exact Nat.zero_le _
    · exact h3 hne
  obtain ⟨m', k1, k2, k5⟩ := hs.stopIn.never (rules := rules) (input := input) (start := start) (idx := idx) (input.length - m.pos) h1 hpc (by omega)
    (fun i u a1 a3 => by rw [hexp]; exact hno i u a1 a3)
  have hrun := hr.then k1
  have := ((MachSim.init (p := p) (idx := idx) (input := input)).run hx _).2 _ hrun
  generalize hx : run idx p (n + (input.length - m.pos + 1)) (Cfg.init p input) = x at this
  cases x with
  | more c => exact absurd this id
  | panic => exact absurd this id
  | done x c =>
    obtain ⟨rfl, hlog, hpulls⟩ := this
    refine ⟨c, ⟨_, hx⟩, hlog.trans k2, ?_⟩
    have := c31_pulls o ho rules start hok p ws hp idx input _ c (.inr ⟨_, hx⟩)
    omega

/-- C89: in an input without any token that follows `error` in some rule, no callback ever gets an error slice. -/
theorem c89_no_stop (o : Seeds) (ho : o.Fair) (rules : List (Rule N T E)) (start : Nat) (hok : (gram rules start).Ok)
    (hs : (gram rules start).ErrorsStop) (p : Parser N T E) (ws : List Warning) (hp : MakesParser o rules start p ws) (idx : T → Nat) (input : List T)
    (hno : ∀ t ∈ input, ¬ (gram rules start).StopToken (idx t)) (n : Nat) (c : Cfg N T)
    (h : run idx p n (Cfg.init p input) = .more c ∨ ∃ x, run idx p n (Cfg.init p input) = .done x c) :
    ∀ cl ∈ c.log, ∀ l, .err l ∉ cl.2 := by
  obtain ⟨fresh, hx⟩ := ctx_of_makes ho hok hp
  obtain ⟨⟨y, hy⟩, h2⟩ := (MachSim.init (p := p) (idx := idx) (input := input)).run hx n
  have hrules : ∀ (r : Nat) (rule : Rule N T E), rules[r]? = some rule → rule.plain ∈ (gram rules start).rules := fun r rule hr =>
    List.mem_map_of_mem (List.mem_of_getElem? hr)
  have hinv := hy.invariant (P := NoSlices input) (fun m m' hm hst => (hm.step hs hrules hno hst).1 m' rfl) ⟨by simp [Mach.init], by simp [Mach.init]⟩
  have h3 := h2 y hy
  intro cl hcl
  rcases h with h | ⟨x, h⟩
  · rw [h] at h3
    cases y with
    | done => exact absurd h3 id
    | panic => exact absurd h3 id
    | more m =>
      refine (hinv.1 m rfl).2 cl ?_
      rw [h3.calls]
      exact List.mem_reverse.2 hcl
  · rw [h] at h3
    cases y with
    | more => exact absurd h3 id
    | panic => exact absurd h3 id
    | done x' m =>
      obtain ⟨_, h4, _⟩ := h3
      obtain ⟨m1, k1, k2⟩ := hinv.2 x' m rfl
      refine (k1.step hs hrules hno k2).2 _ _ rfl cl ?_
      rw [← h4]
      exact List.mem_reverse.2 hcl

/-- C89: the check on the rules. -/
theorem c89_check (g : Gram) (h : g.errorsStop = true) : g.ErrorsStop := Gram.errorsStop_spec h

example : gList.errorsStop = true ∧ gStm.errorsStop = true ∧ gDo.errorsStop = true := by decide

theorem PSeg.one_err {p : Parser N T E} {idx : T → Nat} {input : List T} {st : List (Nat × SSym N)} {q q0 lo hi : Nat} {ps : List (Piece N T)} (h : PSeg p idx input st q ps)
    (hs : st = [(q0, .err lo hi)]) : ps = [.err lo hi] := by
  cases h with
  | nil => cases hs
  | push st q ps q' P h5 h6 h7 =>
    simp only [List.cons.injEq, Prod.mk.injEq] at hs
    obtain ⟨⟨rfl, hP⟩, rfl⟩ := hs
    cases h5
    cases P <;> simp [Piece.ssym] at hP
    simp [hP]

-- the hypotheses are met: on `b b ; …` the first round puts an `error` behind nothing, where `;` may follow and `b` may not
example : ∃ fresh m, MRun (plainRules gList) ((gram (plainRules gList) 0).aug fresh) 4 0 id [2, 2, 1, 0, 1] 1 Mach.init (.more m) ∧
    (∃ lo hi, m.pieces = [] ++ [.err lo hi]) ∧ gList.StopAt [] 1 ∧ ¬ gList.StopAt [] 2 ∧ ¬ gList.StopAt [] 0 := by
  obtain ⟨fresh, hx⟩ := ctx_of_makes idSeeds_fair (by decide) pList_makes
  obtain ⟨⟨x, h1⟩, h2⟩ := (MachSim.init (p := pList) (idx := id) (input := [2, 2, 1, 0, 1])).run hx 1
  have h3 := h2 x h1
  have hgoes : ∀ t, gList.StopAt [] t ↔ ∃ q, pList.tab.goes 4 (.tm (.sym t)) = some q := by
    intro t
    rw [hx.canon.goes [.tm .err] 4 (.tm (.sym t)) rfl]
    have := Gram.expects_iff (g := gList) gList_fruitful hx.unused (γ := [.tm .err]) (X := .tm (.sym t))
    exact this.symm
  refine ⟨fresh, ?_⟩
  cases x with
  | done => exact absurd h3 id
  | panic => exact absurd h3 id
  | more m =>
    refine ⟨m, h1, ?_, (hgoes 1).2 ⟨7, rfl⟩, ?_, ?_⟩
    · have h4 := h3.seg
      exact ⟨_, _, h4.one_err rfl⟩
    · rw [hgoes]; rintro ⟨q, hq⟩; cases hq
    · rw [hgoes]; rintro ⟨q, hq⟩; cases hq

/-- In front of the next `;` everything is skipped, whatever it is: `a b a a b ; a ;`. -/
theorem c89_skips : ∃ c, ParsesTo id pList [0, 2, 0, 0, 2, 1, 0, 1] (.ok 2) c ∧
    c.log.reverse = [(3, [.err [0, 2, 0, 0, 2], .tok 1]), (1, [.nt 2]), (2, [.tok 0, .tok 1]), (0, [.nt 1, .nt 2])] := ⟨_, ⟨40, rfl⟩, rfl⟩

/-- Without a further `;` there is no recovery: `a ; b a`. -/
theorem c89_skips_all : ∃ c, ParsesTo id pList [0, 1, 2, 0] (.error .noRecovery) c ∧ c.pulls = 5 := ⟨_, ⟨40, rfl⟩, rfl⟩

/-- The rules of `tests/main.rs` do not have this form (`F → error`). -/
theorem c89_sums_not : ¬ (gram TestMain.rules 0).ErrorsStop := by
  intro h
  obtain ⟨t, β, hβ⟩ := h ⟨2, [.tm .err]⟩ (by decide) [] [] rfl
  cases hβ

end Verif.Par
