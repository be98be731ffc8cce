import Verif.Props.ParFinish

/-!
# Property C108: a last check of the value
-/

namespace Verif.Par

variable {N T E : Type} {o o' : Seeds} {rules : List (Rule N T E)} {start : Nat} {p p' : Parser N T E} {idx : T → Nat} {F : N → Except E N}

/-- The callbacks of the rules for the start symbol hand their value to `F`, which may replace or refuse it. -/
def Rule.last (start : Nat) (F : N → Except E N) (r : Rule N T E) : Rule N T E :=
  { r with gen := fun l => if r.lhs = start then (match r.gen l with
      | .ok v => F v
      | .error e => .error e) else r.gen l }

theorem last_plain : (rules.map (Rule.last start F)).map Rule.plain = rules.map Rule.plain := by
  simp [Rule.last, Rule.plain, Function.comp_def]

theorem last_gram : gram (rules.map (Rule.last start F)) start = gram rules start := by
  unfold gram
  rw [last_plain]

/-- Nothing but a lone start symbol contains the start symbol. -/
theorem alone_derives {g : Gram} (hs : ∀ r ∈ g.rules, Sym.nt g.start ∉ r.rhs) {u : List Sym} (h : Derives g.rules [.nt g.start] u) :
    u = [.nt g.start] ∨ Sym.nt g.start ∉ u := by
  generalize hx : [Sym.nt g.start] = s at h
  induction h with
  | refl => exact Or.inl rfl
  | step x y r _ hr ih =>
    subst hx
    right
    rcases ih with e | hn
    · have hl : x = [] ∧ y = [] := by
        have := congrArg List.length e
        simp at this
        exact ⟨List.length_eq_zero_iff.1 (by omega), List.length_eq_zero_iff.1 (by omega)⟩
      obtain ⟨rfl, rfl⟩ := hl
      simpa using hs r hr
    · simp only [List.mem_append, List.mem_cons, not_or] at hn ⊢
      exact ⟨⟨hn.1, hs r hr⟩, hn.2.2⟩

theorem alone_not_cyclic {g : Gram} (hs : ∀ r ∈ g.rules, Sym.nt g.start ∉ r.rhs) : ¬ g.Cyclic := by
  rintro ⟨x, r, y, hr, hd, he⟩
  have hm : Sym.nt g.start ∈ x ++ r.rhs ++ y := by rw [he]; simp
  simp only [List.mem_append] at hm
  have hxy : Sym.nt g.start ∈ x ∨ Sym.nt g.start ∈ y := by
    rcases hm with (h | h) | h
    · exact Or.inl h
    · exact absurd h (hs r hr)
    · exact Or.inr h
  rcases alone_derives hs hd with e | hn
  · have := congrArg List.length e
    simp at this
    have h1 : x = [] := List.length_eq_zero_iff.1 (by omega)
    have h2 : y = [] := List.length_eq_zero_iff.1 (by omega)
    subst h1 h2
    simp at hxy
  · apply hn
    rcases hxy with h | h <;> simp [h]

theorem last_get {r : Nat} {rule : Rule N T E} (h : rules[r]? = some rule) :
    (rules.map (Rule.last start F))[r]? = some (rule.last start F) := by
  rw [List.getElem?_map, h]
  rfl

theorem plain_get {r : Nat} {rule : Rule N T E} {q : PRule} (h : rules[r]? = some rule) (hq : (rules.map Rule.plain)[r]? = some q) :
    q = rule.plain := by
  rw [List.getElem?_map, h] at hq
  exact (Option.some.inj hq).symm

theorem built_node {R : List PRule} {input : List T} {us : List Sym} {r : Nat} {cs fs : List (Tree T)}
    (h : Built R idx input us (.node r cs :: fs)) :
    ∃ q us', R[r]? = some q ∧ us = .nt q.lhs :: us' ∧ Built R idx input q.rhs cs ∧ Built R idx input us' fs := by
  cases h with
  | node _ q _ us' _ h1 h2 h3 => exact ⟨q, us', h1, rfl, h2, h3⟩

theorem built_leaf {R : List PRule} {input : List T} {us : List Sym} {i : Nat} {t : T} {fs : List (Tree T)}
    (h : Built R idx input us (.leaf i t :: fs)) : ∃ X us', us = X :: us' ∧ Built R idx input us' fs := by
  cases h with
  | leaf _ _ us' _ h1 h2 => exact ⟨_, us', rfl, h2⟩

theorem built_err {R : List PRule} {input : List T} {us : List Sym} {i : Nat} {l : List T} {fs : List (Tree T)}
    (h : Built R idx input us (.err i l :: fs)) : ∃ X us', us = X :: us' ∧ Built R idx input us' fs := by
  cases h with
  | err _ _ us' _ h1 h2 h3 => exact ⟨_, us', rfl, h3⟩

/-- Below the root nothing changes. -/
theorem evals_last (hs : ∀ r ∈ (gram rules start).rules, Sym.nt start ∉ r.rhs) {input : List T} {fs : List (Tree T)} {lg : List (Call N T)}
    {x : Except E (List (Arg N T))} (he : Evals rules fs lg x) : ∀ us, Built (rules.map Rule.plain) idx input us fs → Sym.nt start ∉ us →
      Evals (rules.map (Rule.last start F)) fs lg x := by
  have hgen : ∀ {r : Nat} {rule : Rule N T E} {q : PRule} {us' : List Sym} (l : List (Arg N T)), rules[r]? = some rule →
      (rules.map Rule.plain)[r]? = some q → Sym.nt start ∉ Sym.nt q.lhs :: us' → (rule.last start F).gen l = rule.gen l := by
    intro r rule q us' l h1 h2 h3
    obtain rfl := plain_get h1 h2
    have hne : rule.lhs ≠ start := by
      intro e
      apply h3
      simp [Rule.plain, e]
    simp [Rule.last, hne]
  have hrhs : ∀ {r : Nat} {q : PRule}, (rules.map Rule.plain)[r]? = some q → Sym.nt start ∉ q.rhs :=
    fun h => hs _ (List.mem_of_getElem? h)
  induction he with
  | nil => exact fun _ _ _ => .nil
  | leaf i t fs lg as _ ih =>
    intro us hb hu
    obtain ⟨X, us', rfl, h⟩ := built_leaf hb
    exact .leaf _ _ _ _ _ (ih us' h fun hm => hu (by simp [hm]))
  | leafE i t fs lg e _ ih =>
    intro us hb hu
    obtain ⟨X, us', rfl, h⟩ := built_leaf hb
    exact .leafE _ _ _ _ _ (ih us' h fun hm => hu (by simp [hm]))
  | err lo l fs lg as _ ih =>
    intro us hb hu
    obtain ⟨X, us', rfl, h⟩ := built_err hb
    exact .err _ _ _ _ _ (ih us' h fun hm => hu (by simp [hm]))
  | errE lo l fs lg e _ ih =>
    intro us hb hu
    obtain ⟨X, us', rfl, h⟩ := built_err hb
    exact .errE _ _ _ _ _ (ih us' h fun hm => hu (by simp [hm]))
  | node r rule cs lg1 args v fs lg2 as h1 _ h3 _ ih1 ih2 =>
    intro us hb hu
    obtain ⟨q, us', g1, rfl, g2, g3⟩ := built_node hb
    exact .node _ _ _ _ _ _ _ _ _ (last_get h1) (ih1 _ g2 (hrhs g1)) ((hgen args h1 g1 hu).trans h3) (ih2 us' g3 fun hm => hu (by simp [hm]))
  | nodeE r rule cs lg1 args v fs lg2 e h1 _ h3 _ ih1 ih2 =>
    intro us hb hu
    obtain ⟨q, us', g1, rfl, g2, g3⟩ := built_node hb
    exact .nodeE _ _ _ _ _ _ _ _ _ (last_get h1) (ih1 _ g2 (hrhs g1)) ((hgen args h1 g1 hu).trans h3) (ih2 us' g3 fun hm => hu (by simp [hm]))
  | fail r rule cs lg1 args e fs h1 _ h3 ih1 =>
    intro us hb hu
    obtain ⟨q, us', g1, rfl, g2, g3⟩ := built_node hb
    exact .fail _ _ _ _ _ _ _ (last_get h1) (ih1 _ g2 (hrhs g1)) ((hgen args h1 g1 hu).trans h3)
  | inner r cs lg1 e fs _ ih =>
    intro us hb hu
    obtain ⟨q, us', g1, rfl, g2, g3⟩ := built_node hb
    exact .inner _ _ _ _ _ (ih _ g2 (hrhs g1))

/-- At the root `F` is asked. -/
theorem evals_root (hs : ∀ r ∈ (gram rules start).rules, Sym.nt start ∉ r.rhs) {input : List T} {f : Tree T} {lg : List (Call N T)}
    {x : Except E (List (Arg N T))} (hb : Built (rules.map Rule.plain) idx input [.nt start] [f]) (he : Evals rules [f] lg x) :
    (∃ e, x = .error e ∧ Evals (rules.map (Rule.last start F)) [f] lg (.error e)) ∨
    ∃ v, x = .ok [.nt v] ∧ ((∃ v', F v = .ok v' ∧ Evals (rules.map (Rule.last start F)) [f] lg (.ok [.nt v'])) ∨
      ∃ e, F v = .error e ∧ Evals (rules.map (Rule.last start F)) [f] lg (.error e)) := by
  cases f with
  | leaf i t => cases hb
  | err lo l => cases hb
  | node r cs =>
    obtain ⟨q, us', g1, e, g2, g3⟩ := built_node hb
    simp only [List.cons.injEq, Sym.nt.injEq] at e
    obtain ⟨e, rfl⟩ := e
    have hrhs : Sym.nt start ∉ q.rhs := hs _ (List.mem_of_getElem? g1)
    have hgen : ∀ {rule : Rule N T E} (l : List (Arg N T)), rules[r]? = some rule → (rule.last start F).gen l = (match rule.gen l with
        | .ok v => F v
        | .error e => .error e) := by
      intro rule l h1
      obtain rfl := plain_get h1 g1
      have : rule.lhs = start := e.symm
      simp [Rule.last, this]
    generalize hfs : [Tree.node r cs] = fs at he
    cases he with
    | nil => cases hfs
    | leaf => cases hfs
    | leafE => cases hfs
    | err => cases hfs
    | errE => cases hfs
    | node r' rule cs' lg1 args v fs lg2 as h1 h2 h3 h4 =>
      cases hfs
      cases h4
      have k2 := evals_last (F := F) hs h2 _ g2 hrhs
      have k3 := hgen args h1
      rw [h3] at k3
      refine Or.inr ⟨v, rfl, ?_⟩
      cases hF : F v with
      | ok v' => exact Or.inl ⟨v', rfl, .node _ _ _ _ _ _ _ _ _ (last_get h1) k2 (k3.trans hF) .nil⟩
      | error e => exact Or.inr ⟨e, rfl, .fail _ _ _ _ _ _ _ (last_get h1) k2 (k3.trans hF)⟩
    | nodeE r' rule cs' lg1 args v fs lg2 e h1 h2 h3 h4 => cases hfs; cases h4
    | fail r' rule cs' lg1 args e fs h1 h2 h3 =>
      cases hfs
      have k2 := evals_last (F := F) hs h2 _ g2 hrhs
      have k3 := hgen args h1
      rw [h3] at k3
      exact Or.inl ⟨e, rfl, .fail _ _ _ _ _ _ _ (last_get h1) k2 k3⟩
    | inner r' cs' lg1 e fs h1 =>
      cases hfs
      exact Or.inl ⟨e, rfl, .inner _ _ _ _ _ (evals_last (F := F) hs h1 _ g2 hrhs)⟩

/-- C108: let the start symbol occur on no right-hand side, and let the callbacks of its rules hand their values to `F`.  Without
warnings and error rules, the new parser gives `Ok` exactly with the values that `F` makes of the values of the old one; if `F`
refuses the value, then the result is the error of `F`; an error of another callback stays the same if the input is a sentence.  The calls
are the same in all cases. -/
theorem c108_last (ho : o.Fair) (ho' : o'.Fair) (hok : (gram rules start).Ok) (hn : (gram rules start).NoError)
    (hs : ∀ r ∈ rules, Sym.nt start ∉ r.rhs) (hm : MakesParser o rules start p [])
    (hm' : MakesParser o' (rules.map (Rule.last start F)) start p' []) (input : List T) :
    (∀ v' lg, (∃ c', ParsesTo idx p' input (.ok v') c' ∧ c'.log = lg) ↔ ∃ v, F v = .ok v' ∧ ∃ c, ParsesTo idx p input (.ok v) c ∧ c.log = lg) ∧
    (∀ v e c, ParsesTo idx p input (.ok v) c → F v = .error e → ∃ c', ParsesTo idx p' input (.error (.reducer e)) c' ∧ c'.log = c.log) ∧
    (∀ e c, (gram rules start).Sentence (input.map idx) → ParsesTo idx p input (.error (.reducer e)) c →
      ∃ c', ParsesTo idx p' input (.error (.reducer e)) c' ∧ c'.log = c.log) := by
  have hs' : ∀ r ∈ (gram rules start).rules, Sym.nt start ∉ r.rhs := by
    intro r hr
    obtain ⟨r', hr', rfl⟩ := List.mem_map.1 hr
    exact hs r' hr'
  have hc : ¬ (gram rules start).Cyclic := alone_not_cyclic hs'
  have hg : gram (rules.map (Rule.last start F)) start = gram rules start := last_gram
  have key : ∀ f, IsTree (rules.map Rule.plain) start idx input f → ∀ calls,
      ((∀ v, Evals rules [f] calls (.ok [.nt v]) ↔ ∃ c, ParsesTo idx p input (.ok v) c ∧ c.log.reverse = calls) ∧
        (∀ e, Evals rules [f] calls (.error e) ↔ ∃ c, ParsesTo idx p input (.error (.reducer e)) c ∧ c.log.reverse = calls)) ∧
      (∀ v, Evals (rules.map (Rule.last start F)) [f] calls (.ok [.nt v]) ↔ ∃ c, ParsesTo idx p' input (.ok v) c ∧ c.log.reverse = calls) ∧
        (∀ e, Evals (rules.map (Rule.last start F)) [f] calls (.error e) ↔ ∃ c, ParsesTo idx p' input (.error (.reducer e)) c ∧ c.log.reverse = calls) := by
    intro f hf calls
    exact ⟨c30_evaluation o ho rules start hok p hm hc idx input f hf calls,
      c30_evaluation o' ho' _ start (by rw [hg]; exact hok) p' hm' (by rw [hg]; exact hc) idx input f (by rw [last_plain]; exact hf) calls⟩
  have hrev : ∀ {c : Cfg N T} {l : List (Call N T)}, c.log.reverse = l.reverse → c.log = l := fun h => by simpa using h
  refine ⟨fun v' lg => ⟨?_, ?_⟩, ?_, ?_⟩
  · rintro ⟨c', h, rfl⟩
    have hsen := c23_sentence o' ho' _ start (by rw [hg]; exact hok) (by rw [hg]; exact hn) p' [] hm' idx input v' c' h
    rw [hg] at hsen
    obtain ⟨f, hf⟩ := sentence_iff.1 hsen
    have hev' := ((key f hf _).2.1 v').2 ⟨c', h, rfl⟩
    obtain ⟨calls, x, hev⟩ := Built.evals hf.1 (rules := rules)
    rcases evals_root (F := F) hs' hf.1 hev with ⟨e, rfl, h1⟩ | ⟨v, rfl, ⟨v1, h1, h2⟩ | ⟨e, h1, h2⟩⟩
    · cases (hev'.unique h1).2
    · obtain ⟨e1, e2⟩ := hev'.unique h2
      simp only [Except.ok.injEq, List.cons.injEq, Arg.nt.injEq, and_true] at e2
      obtain ⟨c, hc1, hc2⟩ := ((key f hf _).1.1 v).1 hev
      exact ⟨v, by rw [h1, e2], c, hc1, hrev (by rw [hc2, e1])⟩
    · cases (hev'.unique h2).2
  · rintro ⟨v, hF, c, h, rfl⟩
    have hsen := c23_sentence o ho _ start hok hn p [] hm idx input v c h
    obtain ⟨f, hf⟩ := sentence_iff.1 hsen
    have hev := ((key f hf _).1.1 v).2 ⟨c, h, rfl⟩
    rcases evals_root (F := F) hs' hf.1 hev with ⟨e, h0, h1⟩ | ⟨v0, h0, ⟨v1, h1, h2⟩ | ⟨e, h1, h2⟩⟩
    · cases h0
    · cases h0
      rw [hF] at h1
      cases h1
      obtain ⟨c', hc1, hc2⟩ := ((key f hf _).2.1 v').1 h2
      exact ⟨c', hc1, hrev hc2⟩
    · cases h0
      rw [hF] at h1
      cases h1
  · intro v e c h hF
    have hsen := c23_sentence o ho _ start hok hn p [] hm idx input v c h
    obtain ⟨f, hf⟩ := sentence_iff.1 hsen
    have hev := ((key f hf _).1.1 v).2 ⟨c, h, rfl⟩
    rcases evals_root (F := F) hs' hf.1 hev with ⟨e, h0, h1⟩ | ⟨v0, h0, ⟨v1, h1, h2⟩ | ⟨e', h1, h2⟩⟩
    · cases h0
    · cases h0
      rw [hF] at h1
      cases h1
    · cases h0
      rw [hF] at h1
      cases h1
      obtain ⟨c', hc1, hc2⟩ := ((key f hf _).2.2 _).1 h2
      exact ⟨c', hc1, hrev hc2⟩
  · intro e c hsen h
    obtain ⟨f, hf⟩ := sentence_iff.1 hsen
    have hev := ((key f hf _).1.2 e).2 ⟨c, h, rfl⟩
    rcases evals_root (F := F) hs' hf.1 hev with ⟨e, h0, h1⟩ | ⟨v0, h0, _⟩
    · cases h0
      obtain ⟨c', hc1, hc2⟩ := ((key f hf _).2.2 _).1 h1
      exact ⟨c', hc1, hrev hc2⟩
    · cases h0

/-- The check of the whole input. -/
def onlyIf (e : E) (v : List T × Bool) : Except E (List T × Bool) := if v.2 then .ok v else .error e

/-- C108: so for every property `P` of lists of three kinds of tokens there are rules without warnings such that `parse` accepts
exactly the inputs with `P`, in particular for `aa…a bb…b cc…c`, for which C106 says that failing callbacks are needed. -/
theorem c108_any (ho : o.Fair) (P : List T → Bool) (e : E) :
    (∃ p, MakesParser o ((rCollect E P).map (Rule.last 0 (onlyIf e))) 0 p []) ∧
    ∀ p ws, MakesParser o ((rCollect E P).map (Rule.last 0 (onlyIf e))) 0 p ws → ws = [] ∧
      ∀ (idx : T → Nat) (input : List T), (∀ t ∈ input, idx t < 3) → (Takes idx p input ↔ P input = true) ∧
        (P input = false → ∃ c, ParsesTo idx p input (.error (.reducer e)) c) := by
  obtain ⟨⟨p0, hp0⟩, h0⟩ := c106_callbacks (E := E) o ho P
  have hg : gram ((rCollect E P).map (Rule.last 0 (onlyIf e))) 0 = gCollect := last_gram
  constructor
  · refine ⟨⟨(rCollect E P).map (Rule.last 0 (onlyIf e)) ++ [⟨freshSym (((rCollect E P).map (Rule.last 0 (onlyIf e))).map Rule.plain), [.nt 0],
      fun _ => .ok ([], false)⟩], p0.tab⟩, ?_, _, rfl⟩
    have := hp0.1
    rw [hg]
    exact this
  · intro p ws hp
    have hnw : ws = [] := c71_no_warnings o ho gCollect (by decide) gCollect_fruitful gCollect_ll1 _ _ (hg ▸ hp.1)
    subst hnw
    refine ⟨rfl, fun idx input hi => ?_⟩
    obtain ⟨c, hc⟩ := (h0 p0 [] hp0).2 idx input hi
    have hok : (gram (rCollect E P) 0).Ok := by rw [rCollect_gram]; decide
    have hne : (gram (rCollect E P) 0).NoError := by rw [rCollect_gram]; unfold Gram.NoError; decide
    obtain ⟨k1, k2, _⟩ := c108_last (idx := idx) (F := onlyIf e) ho ho hok hne (by
      intro r hr
      simp only [rCollect, List.mem_cons, List.not_mem_nil, or_false] at hr
      rcases hr with rfl | rfl | rfl | rfl | rfl <;> simp) hp0 hp input
    have hbad : P input = false → ∃ c, ParsesTo idx p input (.error (.reducer e)) c := by
      intro hP
      obtain ⟨c', hc', _⟩ := k2 _ e c hc (by simp [onlyIf, hP])
      exact ⟨c', hc'⟩
    refine ⟨⟨fun ⟨v, c1, h⟩ => ?_, fun hP => ?_⟩, hbad⟩
    · obtain ⟨v0, hF, c2, h2, _⟩ := (k1 v _).1 ⟨c1, h, rfl⟩
      have := (hc.unique h2).1
      simp only [Except.ok.injEq] at this
      subst this
      cases hP : P input with
      | true => rfl
      | false => simp [onlyIf, hP] at hF
    · obtain ⟨c', h, _⟩ := (k1 (input, P input) c.log).2 ⟨(input, P input), by simp [onlyIf, hP], c, hc, rfl⟩
      exact ⟨_, c', h⟩

/-! ## Examples -/

/-- `a a b b c c` is accepted, `a b b c` is refused by the callback. -/
example (o : Seeds) (ho : o.Fair) : ∃ p : Parser (List Nat × Bool) Nat String, Takes id p [0, 0, 1, 1, 2, 2] ∧
    ∃ c, ParsesTo id p [0, 1, 1, 2] (.error (.reducer "not equal")) c := by
  obtain ⟨⟨p, hp⟩, h⟩ := c108_any ho (fun w : List Nat => decide (w = thrice 0 1 2 (w.length / 3))) "not equal"
  obtain ⟨_, h⟩ := h p [] hp
  exact ⟨p, (h id _ (by decide)).1.2 (by decide), (h id _ (by decide)).2 (by decide)⟩

end Verif.Par
