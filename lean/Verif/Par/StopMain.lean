import Verif.Par.Stop

/-!
# Error recovery that stops at certain tokens: the states that are reached
-/

namespace Verif.Par

variable {N T E : Type} {p : Parser N T E} {rules : List (Rule N T E)} {idx : T → Nat} {input : List T} {start fresh : Nat}

theorem Gram.ErrorsStop.stopIn (h : (gram rules start).ErrorsStop) : StopIn ((gram rules start).aug fresh) := by
  intro r rule hr k hk
  have hsplit : rule.rhs = rule.rhs.take k ++ .tm .err :: rule.rhs.drop (k + 1) := by
    obtain ⟨hlt, he⟩ := List.getElem?_eq_some_iff.1 hk
    rw [← he, ← List.drop_eq_getElem_cons hlt, List.take_append_drop]
  have hmem : rule ∈ (gram rules start).rules := by
    rcases List.mem_append.1 (List.mem_of_getElem? hr) with h | h
    · exact h
    · cases List.mem_singleton.1 h
      cases k <;> simp at hk
  obtain ⟨t, β', hβ⟩ := h rule hmem _ _ hsplit
  refine ⟨t, ?_⟩
  have := congrArg (·[0]?) hβ
  simpa using this

theorem nothing_lasts (g : Gram) : g.Lasting fun _ => false :=
  ⟨fun r _ n _ h => (by cases h), fun γ δ X Y r h => (by cases h)⟩

/-- What is known about the states that the machine reaches. -/
theorem MRun.known (hx : Ctx p rules start fresh) (hfr : (gram rules start).Fruitful) {n : Nat} {m0 m : Mach N T} {c0 : Cfg N T}
    (hr : MRun rules ((gram rules start).aug fresh) rules.length start idx input n m0 (.more m))
    (hs : MachSim p rules idx input start fresh c0 m0) (hst : Stopped ((gram rules start).aug fresh) rules.length idx m0)
    (hi : (∃ es, LInv (fun _ => false) rules ((gram rules start).aug fresh) rules.length start idx input m0 es) ∨ Doomed input m0) :
    Stopped ((gram rules start).aug fresh) rules.length idx m ∧
      ((∃ es, LInv (fun _ => false) rules ((gram rules start).aug fresh) rules.length start idx input m es) ∨ Doomed input m) ∧
      ∃ c, MachSim p rules idx input start fresh c m := by
  generalize ho : MOut.more m = o at hr
  induction hr generalizing c0 with
  | zero m => cases ho; exact ⟨hst, hi, _, hs⟩
  | done => cases ho
  | panic => cases ho
  | more n m0 m1 o h1 _ ih =>
    have hsim := hs.step hx h1
    cases hc : step idx p c0 with
    | panic => rw [hc] at hsim; exact absurd hsim id
    | done x c1 => rw [hc] at hsim; exact absurd hsim id
    | more c1 =>
      rw [hc] at hsim
      refine ih hsim (Stopped.step h1) ?_ ho
      rcases hi with ⟨es, hi⟩ | hi
      · exact hi.step (hx.tree hfr) (nothing_lasts _).1 (hx.lasting hfr (nothing_lasts _)) ((hx.canon.walk_iff _).1 ⟨_, hs.seg.walk⟩) h1
      · exact .inr (hi.step h1)

/-- No `error` begins behind the next token, and reading does not go beyond the input. -/
theorem MRun.err_le (hx : Ctx p rules start fresh) (hfr : (gram rules start).Fruitful) {n : Nat} {m : Mach N T}
    (hr : MRun rules ((gram rules start).aug fresh) rules.length start idx input n Mach.init (.more m)) :
    Stopped ((gram rules start).aug fresh) rules.length idx m ∧
    (input ≠ [] → ∀ lo hi, .err lo hi ∈ m.pieces → lo ≤ m.pos ∧ hi < input.length) ∧ (input ≠ [] → m.pos ≤ input.length) := by
  obtain ⟨h1, h2, _⟩ := hr.known hx hfr MachSim.init (by intro keep lo hi h; simp [Mach.init] at h) (.inl ⟨[], LInv.init⟩)
  refine ⟨h1, ?_, ?_⟩
  · intro hne lo hi hm
    rcases h2 with ⟨es, h2⟩ | h2
    · rw [h2.pieces] at hm
      obtain ⟨⟨P, f, lg⟩, he, hP⟩ := List.mem_map.1 hm
      simp only at hP
      subst hP
      obtain ⟨hf, _, k3, k4⟩ := h2.stand _ he
      refine ⟨h2.low lo ?_, k4⟩
      obtain ⟨l1, l2, hl⟩ := List.append_of_mem he
      rw [hl, trees, List.map_append, mem_marks_append]
      refine .inr ?_
      simp [marks, errs, hf, Tree.errs]
    · exact absurd h2.1 hne
  · intro hne
    rcases h2 with ⟨es, h2⟩ | h2
    · exact h2.pos
    · exact absurd h2.1 hne

/-- On the empty input the position stays. -/
theorem MRun.pos_zero {R : List PRule} {s : Nat} {n : Nat} {m : Mach N T} (hr : MRun rules R s start idx ([] : List T) n Mach.init (.more m)) : m.pos = 0 := by
  refine (hr.invariant (P := fun m => m.pos = 0) ?_ rfl).1 _ rfl
  intro m m' h hst
  cases hst with
  | shift t h1 h2 => simp at h1
  | reduce => exact h
  | recover t keep drop h1 => simp at h1
  | recoverEnd => exact h

/-! ## Inputs without stop tokens -/

/-- Without stop tokens in the input, no rule with `error` can be complete. -/
theorem no_slices {g : Gram} (hg : g.ErrorsStop) (hrules : ∀ (r : Nat) (rule : Rule N T E), rules[r]? = some rule → rule.plain ∈ g.rules)
    (hno : ∀ t ∈ input, ¬ g.StopToken (idx t)) {ps cs : List (Piece N T)} (hps : ∀ t i, .tok t i ∈ ps ++ cs → t ∈ input)
    {r : Nat} {rule : Rule N T E} (hr : rules[r]? = some rule) (hcs : cs.map (Piece.sym idx) = rule.rhs) : ∀ lo hi, .err lo hi ∉ cs := by
  intro lo hi hm
  obtain ⟨l1, l2, rfl⟩ := List.append_of_mem hm
  have hsplit : rule.plain.rhs = l1.map (Piece.sym idx) ++ .tm .err :: l2.map (Piece.sym idx) := by
    rw [show rule.plain.rhs = rule.rhs from rfl, ← hcs]; simp [Piece.sym]
  obtain ⟨t, β, hβ⟩ := hg _ (hrules r rule hr) _ _ hsplit
  obtain ⟨P, l3, rfl, hP, _⟩ := List.map_eq_cons_iff.1 hβ
  cases P with
  | nt n v i => cases hP
  | err lo hi => cases hP
  | tok u i =>
    simp only [Piece.sym, Sym.tm.injEq, Term.sym.injEq] at hP
    refine hno u (hps u i (by simp)) ⟨_, hrules r rule hr, l1.map (Piece.sym idx), β, ?_⟩
    rw [hsplit, hβ, hP]

/-- The tokens read are tokens of the input, and no callback has got an error slice. -/
def NoSlices (input : List T) (m : Mach N T) : Prop :=
  (∀ t i, .tok t i ∈ m.pieces → t ∈ input) ∧ ∀ cl ∈ m.calls, ∀ l, .err l ∉ cl.2

theorem NoSlices.step {g : Gram} {R : List PRule} {s : Nat} (hg : g.ErrorsStop) (hrules : ∀ (r : Nat) (rule : Rule N T E), rules[r]? = some rule → rule.plain ∈ g.rules)
    (hno : ∀ t ∈ input, ¬ g.StopToken (idx t)) {m : Mach N T} (h : NoSlices input m) {o : MOut N T E} (hst : MStep rules R s start idx input m o) :
    (∀ m', o = .more m' → NoSlices input m') ∧ ∀ x m', o = .done x m' → ∀ cl ∈ m'.calls, ∀ l, .err l ∉ cl.2 := by
  have hcall : ∀ {r rule ps cs}, rules[r]? = some rule → m.pieces = ps ++ cs → cs.map (Piece.sym idx) = rule.rhs →
      ∀ cl ∈ m.calls ++ [(r, cs.map (Piece.arg input))], ∀ l, .err l ∉ cl.2 := by
    intro r rule ps cs h2 h3 h4 cl hcl l hm
    rcases List.mem_append.1 hcl with hcl | hcl
    · exact h.2 cl hcl l hm
    · cases List.mem_singleton.1 hcl
      obtain ⟨P, hP, he⟩ := List.mem_map.1 hm
      cases P with
      | nt => cases he
      | tok => cases he
      | err lo hi => exact no_slices hg hrules hno (fun t i ht => h.1 t i (by rw [h3]; exact ht)) h2 h4 lo hi hP
  cases hst with
  | shift t h1 h2 =>
    refine ⟨?_, fun x m' hm => (by cases hm)⟩
    intro m' hm
    cases hm
    refine ⟨?_, h.2⟩
    intro t' i hm
    rcases List.mem_append.1 hm with hm | hm
    · exact h.1 t' i hm
    · cases List.mem_singleton.1 hm
      exact List.mem_of_getElem? h1
  | accept v i h1 h2 =>
    refine ⟨fun m' hm => (by cases hm), ?_⟩
    intro x m' hm
    cases hm
    exact h.2
  | giveUp t h1 h2 h3 =>
    refine ⟨fun m' hm => (by cases hm), ?_⟩
    intro x m' hm
    cases hm
    exact h.2
  | giveUpEnd h1 h2 h3 =>
    refine ⟨fun m' hm => (by cases hm), ?_⟩
    intro x m' hm
    cases hm
    exact h.2
  | bad => exact ⟨fun m' hm => (by cases hm), fun x m' hm => (by cases hm)⟩
  | fail r rule ps cs e h1 h2 h3 h4 h5 h6 =>
    refine ⟨fun m' hm => (by cases hm), ?_⟩
    intro x m' hm
    cases hm
    exact hcall h2 h3 h4
  | reduce r rule ps cs v h1 h2 h3 h4 h5 h6 =>
    refine ⟨?_, fun x m' hm => (by cases hm)⟩
    intro m' hm
    cases hm
    refine ⟨?_, hcall h2 h3 h4⟩
    intro t' i hm
    rcases List.mem_append.1 hm with hm | hm
    · exact h.1 t' i (by rw [h3]; exact List.mem_append_left _ hm)
    · cases List.mem_singleton.1 hm
  | recover t keep drop h1 h2 h3 h4 h5 =>
    refine ⟨?_, fun x m' hm => (by cases hm)⟩
    intro m' hm
    cases hm
    refine ⟨?_, h.2⟩
    intro t' i hm
    rcases List.mem_append.1 hm with hm | hm
    · exact h.1 t' i (by rw [h3]; exact List.mem_append_left _ hm)
    · cases List.mem_singleton.1 hm
  | recoverEnd h1 h2 h3 =>
    refine ⟨?_, fun x m' hm => (by cases hm)⟩
    intro m' hm
    cases hm
    refine ⟨?_, h.2⟩
    intro t' i hm
    rcases List.mem_append.1 hm with hm | hm
    · exact h.1 t' i hm
    · cases List.mem_singleton.1 hm

end Verif.Par
