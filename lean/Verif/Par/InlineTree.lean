import Verif.Par.InlineProof
import Verif.Par.TreeProof

/-!
# Doing without a helper non-terminal: derivations and trees
-/

namespace Verif.Par

variable {R : List PRule} {A S : Nat}

theorem mem_inlinePlain {r' : PRule} : r' ∈ inlinePlain R A ↔
    ∃ (r : PRule) (ω : List Slot), r ∈ R ∧ r.lhs ≠ A ∧ ω.map (Slot.shape A) = r.rhs ∧ (∀ s ∈ ω, s.Fits R A) ∧ r' = ⟨r.lhs, ω.flatMap (Slot.flat R)⟩ := by
  unfold inlinePlain
  rw [List.mem_flatMap]
  constructor
  · rintro ⟨r, h1, h2⟩
    split at h2
    · simp at h2
    · next hA =>
      obtain ⟨ω, h3, rfl⟩ := List.mem_map.1 h2
      obtain ⟨h4, h5⟩ := mem_fillings.1 h3
      exact ⟨r, ω, h1, hA, h4, h5, rfl⟩
  · rintro ⟨r, ω, h1, h2, h3, h4, rfl⟩
    refine ⟨r, h1, ?_⟩
    rw [if_neg h2]
    exact List.mem_map.2 ⟨ω, mem_fillings.2 ⟨h3, h4⟩, rfl⟩

/-- The places derive what comes of them. -/
theorem gen_flat {ω : List Slot} (h : ∀ s ∈ ω, s.Fits R A) : Gen R (ω.map (Slot.shape A)) (ω.flatMap (Slot.flat R)) := by
  induction ω with
  | nil => exact .nil
  | cons s ω ih =>
    have ih := ih fun s hs => h s (by simp [hs])
    have hs := h s (by simp)
    rw [List.map_cons, List.flatMap_cons]
    cases s with
    | sym X => exact .keep X _ _ ih
    | alt i =>
      obtain ⟨r, h1, h2⟩ := hs
      simp only [Slot.shape, Slot.flat, h1, Option.map_some, Option.getD_some, ← h2]
      exact .expand r _ _ _ (List.mem_of_getElem? h1) (.refl _) (by rw [h2]; exact ih)

/-- What the new grammar derives, the old derives. -/
theorem gen_of_inline {l v : List Sym} (h : Gen (inlinePlain R A) l v) : Gen R l v := by
  induction h with
  | nil => exact .nil
  | keep X l v _ ih => exact .keep X l v ih
  | expand r' l u v hr _ _ ih1 ih2 =>
    obtain ⟨r, ω, h1, h2, h3, h4, rfl⟩ := mem_inlinePlain.1 hr
    refine .expand r l u v h1 ?_ ih2
    rw [← h3]
    exact (gen_flat h4).trans ih1

/-- `A` does not come up in the new grammar. -/
theorem inline_no_helper (hA : Helper R S A) {l v : List Sym} (h : Gen (inlinePlain R A) l v) (hl : Sym.nt A ∉ l) : Sym.nt A ∉ v := by
  induction h with
  | nil => exact hl
  | keep X l v _ ih =>
    simp at hl ⊢
    exact ⟨hl.1, ih hl.2⟩
  | expand r' l u v hr _ _ ih1 ih2 =>
    obtain ⟨r, ω, h1, h2, h3, h4, rfl⟩ := mem_inlinePlain.1 hr
    simp only [List.mem_cons, not_or] at hl
    have : Sym.nt A ∉ ω.flatMap (Slot.flat R) := by
      rw [List.mem_flatMap]
      rintro ⟨s, hs, h⟩
      have := h4 s hs
      cases s with
      | sym X =>
        simp [Slot.flat] at h
        exact this h.symm
      | alt i =>
        obtain ⟨r2, k1, k2⟩ := this
        simp [Slot.flat, k1] at h
        exact hA.2 r2 (List.mem_of_getElem? k1) k2 h
    rw [List.mem_append, not_or]
    exact ⟨ih1 this, ih2 hl.2⟩

theorem no_helper_slots {ω : List Slot} {l : List Sym} (h : ω.map (Slot.shape A) = l) (hf : ∀ s ∈ ω, s.Fits R A) (hl : Sym.nt A ∉ l) :
    ω = l.map Slot.sym := by
  subst h
  induction ω with
  | nil => rfl
  | cons s ω ih =>
    simp only [List.map_cons, List.mem_cons, not_or] at hl
    cases s with
    | sym X =>
      simp only [List.map_cons, Slot.shape]
      rw [← ih (fun s hs => hf s (by simp [hs])) hl.2]
    | alt i => exact absurd rfl hl.1

/-- Terminals that the old grammar derives, the new derives. -/
theorem gen_to_inline (hA : Helper R S A) {l v : List Sym} (h : Gen R l v) : ∀ w, v = tms w →
    ∃ ω : List Slot, ω.map (Slot.shape A) = l ∧ (∀ s ∈ ω, s.Fits R A) ∧ Gen (inlinePlain R A) (ω.flatMap (Slot.flat R)) v := by
  induction h with
  | nil => intro w _; exact ⟨[], rfl, by simp, .nil⟩
  | keep X l v _ ih =>
    intro w hw
    cases w with
    | nil => simp at hw
    | cons a w =>
      simp at hw
      obtain ⟨rfl, hw⟩ := hw
      obtain ⟨ω, h1, h2, h3⟩ := ih w hw
      refine ⟨.sym (.tm a) :: ω, by simp [Slot.shape, h1], ?_, .keep _ _ _ h3⟩
      intro s hs
      rcases List.mem_cons.1 hs with rfl | hs
      · intro h; cases h
      · exact h2 s hs
  | expand r l u v hr _ _ ih1 ih2 =>
    intro w hw
    obtain ⟨w1, w2, _, e1, e2⟩ := List.map_eq_append_iff.1 hw.symm
    obtain ⟨ω1, a1, a2, a3⟩ := ih1 w1 e1.symm
    obtain ⟨ω2, b1, b2, b3⟩ := ih2 w2 e2.symm
    by_cases hl : r.lhs = A
    · obtain ⟨i, hi⟩ := List.getElem?_of_mem hr
      have := no_helper_slots a1 a2 (hA.2 r hr hl)
      subst this
      rw [flat_sym] at a3
      refine ⟨.alt i :: ω2, by simp [Slot.shape, b1, hl], ?_, ?_⟩
      · intro s hs
        rcases List.mem_cons.1 hs with rfl | hs
        · exact ⟨r, hi, hl⟩
        · exact b2 s hs
      · rw [List.flatMap_cons]
        simp only [Slot.flat, hi, Option.map_some, Option.getD_some]
        exact a3.append b3
    · refine ⟨.sym (.nt r.lhs) :: ω2, by simp [Slot.shape, b1], ?_, ?_⟩
      · intro s hs
        rcases List.mem_cons.1 hs with rfl | hs
        · intro h; cases h; exact hl rfl
        · exact b2 s hs
      · exact .expand ⟨r.lhs, ω1.flatMap (Slot.flat R)⟩ _ _ _ (mem_inlinePlain.2 ⟨r, ω1, hr, hl, a1, a2, rfl⟩) a3 b3

theorem gen_inline_iff (hA : Helper R S A) {n : Nat} (hn : n ≠ A) {w : List Term} : Gen (inlinePlain R A) [.nt n] (tms w) ↔ Gen R [.nt n] (tms w) := by
  refine ⟨gen_of_inline, fun h => ?_⟩
  obtain ⟨ω, h1, h2, h3⟩ := gen_to_inline hA h w rfl
  have := no_helper_slots h1 h2 (by simp; exact fun h => hn h.symm)
  subst this
  simpa [Slot.flat] using h3

variable {N T E : Type} {rules : List (Rule N T E)} {idx : T → Nat} {input : List T}

theorem inline_gram (rules : List (Rule N T E)) (start A : Nat) : gram (inlineRules rules A) start = ⟨inlinePlain (rules.map Rule.plain) A, start⟩ := by
  rw [gram, inlineRules_plain]

theorem inline_ok {start : Nat} (hok : (gram rules start).Ok) : (gram (inlineRules rules A) start).Ok := by
  rw [inline_gram]
  intro r' hr'
  obtain ⟨r, ω, h1, h2, h3, h4, rfl⟩ := mem_inlinePlain.1 hr'
  intro h
  obtain ⟨s, hs, h⟩ := List.mem_flatMap.1 h
  have hf := h4 s hs
  cases s with
  | sym X =>
    simp [Slot.flat] at h
    subst h
    refine hok r h1 ?_
    rw [← h3]
    exact List.mem_map.2 ⟨_, hs, rfl⟩
  | alt i =>
    obtain ⟨r2, k1, k2⟩ := hf
    simp only [Slot.flat, k1, Option.map_some, Option.getD_some] at h
    exact hok r2 (List.mem_of_getElem? k1) h

theorem inline_noError {start : Nat} (hok : (gram rules start).NoError) : (gram (inlineRules rules A) start).NoError := by
  rw [inline_gram]
  intro r' hr'
  obtain ⟨r, ω, h1, h2, h3, h4, rfl⟩ := mem_inlinePlain.1 hr'
  intro h
  obtain ⟨s, hs, h⟩ := List.mem_flatMap.1 h
  have hf := h4 s hs
  cases s with
  | sym X =>
    simp [Slot.flat] at h
    subst h
    refine hok r h1 ?_
    rw [← h3]
    exact List.mem_map.2 ⟨_, hs, rfl⟩
  | alt i =>
    obtain ⟨r2, k1, k2⟩ := hf
    simp only [Slot.flat, k1, Option.map_some, Option.getD_some] at h
    exact hok r2 (List.mem_of_getElem? k1) h

theorem inline_derives {start : Nat} (hA : Helper (rules.map Rule.plain) start A) {n : Nat} (hn : n ≠ A) {w : List Term} :
    Derives (gram (inlineRules rules A) start).rules [.nt n] (tms w) ↔ Derives (gram rules start).rules [.nt n] (tms w) := by
  rw [← gen_iff, ← gen_iff, inline_gram]
  exact gen_inline_iff hA hn

theorem inline_reach {start : Nat} (hA : Helper (rules.map Rule.plain) start A) {x y : List Sym} {n : Nat}
    (h : Derives (gram (inlineRules rules A) start).rules [.nt start] (x ++ .nt n :: y)) :
    n ≠ A ∧ Derives (gram rules start).rules [.nt start] (x ++ .nt n :: y) := by
  rw [← gen_iff, inline_gram] at h
  refine ⟨?_, gen_iff.1 (gen_of_inline h)⟩
  rintro rfl
  have := inline_no_helper hA h (by simp; exact hA.1)
  exact this (by simp)

theorem inline_fruitful {start : Nat} (hA : Helper (rules.map Rule.plain) start A) (hp : (gram rules start).Fruitful) :
    (gram (inlineRules rules A) start).Fruitful := by
  intro x n y h
  obtain ⟨hn, h⟩ := inline_reach hA h
  obtain ⟨w, hw⟩ := hp x n y h
  exact ⟨w, (inline_derives hA hn).2 hw⟩

theorem inline_productive {start : Nat} (hA : Helper (rules.map Rule.plain) start A) (hp : (gram rules start).Productive) :
    (gram (inlineRules rules A) start).Productive := by
  intro x n y h
  obtain ⟨hn, h⟩ := inline_reach hA h
  obtain ⟨w, hw⟩ := hp x n y h
  refine ⟨w, ?_⟩
  have e : (w.map fun t => Sym.tm (.sym t)) = tms (w.map Term.sym) := by simp [tms]
  rw [e] at hw ⊢
  exact (inline_derives hA hn).2 hw

theorem inline_sentence {start : Nat} (hA : Helper (rules.map Rule.plain) start A) (w : List Nat) :
    (gram (inlineRules rules A) start).Sentence w ↔ (gram rules start).Sentence w := by
  have e : (w.map fun t => Sym.tm (.sym t)) = tms (w.map Term.sym) := by simp [tms]
  unfold Gram.Sentence
  rw [e]
  exact inline_derives hA (fun h => hA.1 h.symm)

/-! ## Trees and values -/

theorem inlineRules_get {j : Nat} {ω : List Slot} {r : Rule N T E} (h1 : rules[j]? = some r) (h2 : r.lhs ≠ A)
    (h3 : ω.map (Slot.shape A) = r.rhs) (h4 : ∀ s ∈ ω, s.Fits (rules.map Rule.plain) A) : ∃ k : Nat, (inlineRules rules A)[k]? = some (r.inlined rules ω) := by
  have hm : (j, ω) ∈ labels (rules.map Rule.plain) A := mem_labels.2 ⟨r.plain, by simp [h1], h2, h3, h4⟩
  obtain ⟨k, hk⟩ := List.getElem?_of_mem hm
  refine ⟨k, ?_⟩
  have := congrArg (·[k]?) (inlineRules_map (rules := rules) (A := A))
  simp only [List.getElem?_map, hk, Option.map_some, h1] at this
  cases hx : (inlineRules rules A)[k]? with
  | none => rw [hx] at this; simp at this
  | some x => rw [hx] at this; simp at this; rw [this]

theorem gather_sym (rules : List (Rule N T E)) : ∀ (l : List Sym) (as : List (Arg N T)), as.length = l.length → gather rules (l.map Slot.sym) as = .ok as
  | [], [], _ => rfl
  | [], _ :: _, h => by simp at h
  | _ :: _, [], h => by simp at h
  | X :: l, a :: as, h => by
    simp only [List.map_cons, gather, List.drop_succ_cons, List.drop_zero, List.take_succ_cons, List.take_zero]
    rw [gather_sym rules l as (by simpa using h)]
    rfl

theorem Evals.ok_length {fs : List (Tree T)} {lg x} (h : Evals rules fs lg x) : ∀ as, x = .ok as → as.length = fs.length := by
  induction h with
  | nil => intro as h; cases h; rfl
  | leaf i t fs lg as _ ih => intro as' h; cases h; simp [ih _ rfl]
  | err lo l fs lg as _ ih => intro as' h; cases h; simp [ih _ rfl]
  | node r rule cs lg1 args v fs lg2 as _ _ _ _ _ ih => intro as' h; cases h; simp [ih _ rfl]
  | _ => intro as h; cases h

theorem Evals.ok_split {fs gs : List (Tree T)} {lg as} (h : Evals rules (fs ++ gs) lg (.ok as)) :
    ∃ l1 l2 a b, Evals rules fs l1 (.ok a) ∧ Evals rules gs l2 (.ok b) ∧ as = a ++ b := by
  induction fs generalizing lg as with
  | nil => exact ⟨[], lg, [], as, .nil, h, rfl⟩
  | cons f fs ih =>
    cases h with
    | leaf i t _ _ as h =>
      obtain ⟨l1, l2, a, b, h1, h2, rfl⟩ := ih h
      exact ⟨_, _, _, _, .leaf _ _ _ _ _ h1, h2, rfl⟩
    | err lo l _ _ as h =>
      obtain ⟨l1, l2, a, b, h1, h2, rfl⟩ := ih h
      exact ⟨_, _, _, _, .err _ _ _ _ _ h1, h2, rfl⟩
    | node r rule cs lg1 args v _ lg2 as k1 k2 k3 h =>
      obtain ⟨l1, l2, a, b, h1, h2, rfl⟩ := ih h
      exact ⟨_, _, _, _, .node _ _ _ _ _ _ _ _ _ k1 k2 k3 h1, h2, rfl⟩

/-- Every forest of the old grammar has one of the new, with the same leaves and the same values. -/
theorem inline_built {start : Nat} (hA : Helper (rules.map Rule.plain) start A) {l fs} (h : Built (rules.map Rule.plain) idx input l fs) :
    ∃ (ω : List Slot) (fs' : List (Tree T)), ω.map (Slot.shape A) = l ∧ (∀ s ∈ ω, s.Fits (rules.map Rule.plain) A) ∧
      Built ((inlineRules rules A).map Rule.plain) idx input (ω.flatMap (Slot.flat (rules.map Rule.plain))) fs' ∧
      leaves fs' = leaves fs ∧ errs fs' = errs fs ∧
      ∀ as, (∃ lg, Evals rules fs lg (.ok as)) ↔ ∃ lg' as', Evals (inlineRules rules A) fs' lg' (.ok as') ∧ gather rules ω as' = .ok as := by
  induction h with
  | nil =>
    refine ⟨[], [], rfl, by simp, .nil, rfl, rfl, fun as => ⟨?_, ?_⟩⟩
    · rintro ⟨lg, h⟩; cases h; exact ⟨_, _, .nil, rfl⟩
    · rintro ⟨lg, as', h, h'⟩; cases h'; exact ⟨_, .nil⟩
  | leaf i t us fs hi _ ih =>
    obtain ⟨ω, fs', h1, h2, h3, h4, h5, h6⟩ := ih
    refine ⟨.sym _ :: ω, .leaf i t :: fs', by simp [Slot.shape, h1], ?_, .leaf i t _ _ hi h3, by simp [leaves, Tree.leaves, h4], by simp [errs, Tree.errs, h5], fun as => ⟨?_, ?_⟩⟩
    · intro s hs
      rcases List.mem_cons.1 hs with rfl | hs
      · intro h; cases h
      · exact h2 s hs
    · rintro ⟨lg, h⟩
      cases h with
      | leaf _ _ _ _ as h =>
        obtain ⟨lg', as', k1, k2⟩ := (h6 as).1 ⟨_, h⟩
        exact ⟨_, _, .leaf _ _ _ _ _ k1, by simp [gather, k2]⟩
    · rintro ⟨lg', as', h, h'⟩
      cases h with
      | leaf _ _ _ _ as' h =>
        simp only [gather, List.drop_succ_cons, List.drop_zero] at h'
        cases hr : gather rules ω as' with
        | error e => rw [hr] at h'; cases h'
        | ok rest =>
          rw [hr] at h'
          cases h'
          obtain ⟨lg, k⟩ := (h6 rest).2 ⟨_, _, h, hr⟩
          exact ⟨_, .leaf _ _ _ _ _ k⟩
  | err lo l us fs hl hs _ ih =>
    obtain ⟨ω, fs', h1, h2, h3, h4, h5, h6⟩ := ih
    refine ⟨.sym _ :: ω, .err lo l :: fs', by simp [Slot.shape, h1], ?_, .err lo l _ _ hl hs h3, by simp [leaves, Tree.leaves, h4], by simp [errs, Tree.errs, h5], fun as => ⟨?_, ?_⟩⟩
    · intro s hs
      rcases List.mem_cons.1 hs with rfl | hs
      · intro h; cases h
      · exact h2 s hs
    · rintro ⟨lg, h⟩
      cases h with
      | err _ _ _ _ as h =>
        obtain ⟨lg', as', k1, k2⟩ := (h6 as).1 ⟨_, h⟩
        exact ⟨_, _, .err _ _ _ _ _ k1, by simp [gather, k2]⟩
    · rintro ⟨lg', as', h, h'⟩
      cases h with
      | err _ _ _ _ as' h =>
        simp only [gather, List.drop_succ_cons, List.drop_zero] at h'
        cases hr : gather rules ω as' with
        | error e => rw [hr] at h'; cases h'
        | ok rest =>
          rw [hr] at h'
          cases h'
          obtain ⟨lg, k⟩ := (h6 rest).2 ⟨_, _, h, hr⟩
          exact ⟨_, .err _ _ _ _ _ k⟩
  | node j rule cs us fs hj hb _ ih1 ih2 =>
    obtain ⟨ω1, cs', a1, a2, a3, a4, a5, a6⟩ := ih1
    obtain ⟨ω, fs', h1, h2, h3, h4, h5, h6⟩ := ih2
    rw [List.getElem?_map, Option.map_eq_some_iff] at hj
    obtain ⟨r, hj, rfl⟩ := hj
    have hjp : (rules.map Rule.plain)[j]? = some r.plain := by simp [hj]
    by_cases hl : r.lhs = A
    · have := no_helper_slots a1 a2 (hA.2 r.plain (List.mem_of_getElem? hjp) hl)
      subst this
      rw [flat_sym] at a3
      have hlen : cs'.length = r.rhs.length := a3.length.symm
      refine ⟨.alt j :: ω, cs' ++ fs', by simp [Slot.shape, h1, Rule.plain, hl], ?_, ?_, ?_, ?_, fun as => ⟨?_, ?_⟩⟩
      · intro s hs
        rcases List.mem_cons.1 hs with rfl | hs
        · exact ⟨r.plain, hjp, hl⟩
        · exact h2 s hs
      · rw [List.flatMap_cons]
        simp only [Slot.flat, hjp, Option.map_some, Option.getD_some]
        exact a3.append h3
      · rw [leaves_append, a4, h4]; simp [leaves, Tree.leaves]
      · rw [errs_append, a5, h5]; simp [errs, Tree.errs]
      · rintro ⟨lg, h⟩
        cases h with
        | node _ rule _ lg1 args v _ lg2 as k1 k2 k3 k4 =>
          rw [hj] at k1
          cases k1
          obtain ⟨l1, b1, m1, m2⟩ := (a6 args).1 ⟨_, k2⟩
          obtain ⟨l2, b2, m3, m4⟩ := (h6 as).1 ⟨_, k4⟩
          have hb1 : b1.length = r.rhs.length := by rw [m1.ok_length _ rfl, hlen]
          rw [gather_sym rules r.plain.rhs b1 hb1] at m2
          cases m2
          refine ⟨_, _, m1.append m3, ?_⟩
          simp only [gather, hj]
          rw [List.take_left' hb1, List.drop_left' hb1, k3]
          simp only [m4]
      · rintro ⟨lg', as', h, h'⟩
        obtain ⟨l1, l2, b1, b2, m1, m3, rfl⟩ := h.ok_split
        have hb1 : b1.length = r.rhs.length := by rw [m1.ok_length _ rfl, hlen]
        simp only [gather, hj] at h'
        rw [List.take_left' hb1, List.drop_left' hb1] at h'
        cases hg : r.gen b1 with
        | error e => rw [hg] at h'; cases h'
        | ok v =>
          rw [hg] at h'
          cases hr : gather rules ω b2 with
          | error e => rw [hr] at h'; cases h'
          | ok rest =>
            rw [hr] at h'
            cases h'
            obtain ⟨lg1, k1⟩ := (a6 b1).2 ⟨_, _, m1, gather_sym rules _ b1 hb1⟩
            obtain ⟨lg2, k2⟩ := (h6 rest).2 ⟨_, _, m3, hr⟩
            exact ⟨_, .node _ _ _ _ _ _ _ _ _ hj k1 hg k2⟩
    · obtain ⟨k, hk⟩ := inlineRules_get hj hl a1 a2
      have hkp : ((inlineRules rules A).map Rule.plain)[k]? = some (r.inlined rules ω1).plain := by simp [hk]
      refine ⟨.sym (.nt r.lhs) :: ω, .node k cs' :: fs', by simp [Slot.shape, h1, Rule.plain], ?_, ?_, ?_, ?_, fun as => ⟨?_, ?_⟩⟩
      · intro s hs
        rcases List.mem_cons.1 hs with rfl | hs
        · intro h; cases h; exact hl rfl
        · exact h2 s hs
      · exact .node k _ _ _ _ hkp a3 h3
      · simp [leaves, Tree.leaves, a4, h4]
      · simp [errs, Tree.errs, a5, h5]
      · rintro ⟨lg, h⟩
        cases h with
        | node _ rule _ lg1 args v _ lg2 as k1 k2 k3 k4 =>
          rw [hj] at k1
          cases k1
          obtain ⟨l1, b1, m1, m2⟩ := (a6 args).1 ⟨_, k2⟩
          obtain ⟨l2, b2, m3, m4⟩ := (h6 as).1 ⟨_, k4⟩
          exact ⟨_, _, .node _ _ _ _ _ _ _ _ _ hk m1 (by simp only [Rule.inlined, m2]; exact k3) m3, by simp only [gather, List.drop_succ_cons, List.drop_zero, m4]; rfl⟩
      · rintro ⟨lg', as', h, h'⟩
        cases h with
        | node _ rule _ lg1 args v _ lg2 as k1 k2 k3 k4 =>
          rw [hk] at k1
          cases k1
          simp only [gather, List.drop_succ_cons, List.drop_zero] at h'
          simp only [Rule.inlined] at k3
          cases hr : gather rules ω as with
          | error e => rw [hr] at h'; cases h'
          | ok rest =>
            rw [hr] at h'
            cases h'
            cases hr1 : gather rules ω1 args with
            | error e => rw [hr1] at k3; cases k3
            | ok args' =>
              rw [hr1] at k3
              obtain ⟨lg1, c1⟩ := (a6 args').2 ⟨_, _, k2, hr1⟩
              obtain ⟨lg2, c2⟩ := (h6 rest).2 ⟨_, _, k4, hr⟩
              exact ⟨_, .node _ _ _ _ _ _ _ _ _ hj c1 k3 c2⟩

/-- Every tree of the old grammar has one of the new with the same value. -/
theorem inline_tree {start : Nat} (hA : Helper (rules.map Rule.plain) start A) {f : Tree T} (h : IsTree (rules.map Rule.plain) start idx input f) :
    ∃ f', IsTree ((inlineRules rules A).map Rule.plain) start idx input f' ∧
      ∀ v, (∃ lg, Evals rules [f] lg (.ok [.nt v])) ↔ ∃ lg, Evals (inlineRules rules A) [f'] lg (.ok [.nt v]) := by
  obtain ⟨h1, h2, h3⟩ := h
  obtain ⟨ω, fs', a1, a2, a3, a4, a5, a6⟩ := inline_built hA h1
  have := no_helper_slots a1 a2 (by simp; exact hA.1)
  subst this
  rw [flat_sym] at a3
  obtain ⟨f', rfl⟩ : ∃ f, fs' = [f] := by
    match fs', a3.length with
    | [f], _ => exact ⟨f, rfl⟩
  refine ⟨f', ⟨a3, by rw [a5, h2], by rw [a4, h3]⟩, fun v => ?_⟩
  rw [a6]
  constructor
  · rintro ⟨lg, as, k1, k2⟩
    rw [gather_sym rules _ _ (k1.ok_length _ rfl)] at k2
    cases k2
    exact ⟨_, k1⟩
  · rintro ⟨lg, k⟩
    exact ⟨_, _, k, gather_sym rules _ _ rfl⟩

end Verif.Par
