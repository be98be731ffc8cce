import Verif.Par.PartProof
import Verif.Props.ParComplete

/-!
# Grammars with fewer rules or another start symbol

C72: rules that are taken away (or added) do not bring (or remove) conflicts, and do not change what the remaining sentences
mean.
-/

namespace Verif.Par

variable {N T E : Type}

/-- The list `l'` consists of elements of `l` at different places, in any order. -/
def Among (l' l : List α) : Prop := ∃ m : List α, m.Perm l' ∧ m.Sublist l

theorem places_perm {l l' : List α} (h : l'.Perm l) : ∃ σ : Nat → Nat, (∀ i r, l'[i]? = some r → l[σ i]? = some r) ∧ ∀ i i', σ i = σ i' → i = i' := by
  induction h with
  | nil => exact ⟨id, fun _ _ h => h, fun _ _ h => h⟩
  | cons a _ ih =>
    obtain ⟨σ, h1, h2⟩ := ih
    refine ⟨fun i => match i with | 0 => 0 | i + 1 => σ i + 1, ?_, ?_⟩
    · intro i r h
      cases i with
      | zero => simpa using h
      | succ i => simpa using h1 i r (by simpa using h)
    · intro i i' h
      cases i <;> cases i' <;> simp at h
      · rfl
      · rw [h2 _ _ h]
  | swap a b l =>
    refine ⟨fun i => match i with | 0 => 1 | 1 => 0 | i + 2 => i + 2, ?_, ?_⟩
    · intro i r h
      match i with
      | 0 => simpa using h
      | 1 => simpa using h
      | i + 2 => simpa using h
    · intro i i' h
      match i, i' with
      | 0, 0 => rfl
      | 0, 1 => simp at h
      | 0, i' + 2 => simp at h
      | 1, 0 => simp at h
      | 1, 1 => rfl
      | 1, i' + 2 => simp at h
      | i + 2, 0 => simp at h
      | i + 2, 1 => simp at h
      | i + 2, i' + 2 => simpa using h
  | trans _ _ ih1 ih2 =>
    obtain ⟨σ, h1, h2⟩ := ih1
    obtain ⟨τ, h3, h4⟩ := ih2
    exact ⟨fun i => τ (σ i), fun i r h => h3 _ r (h1 i r h), fun i i' h => h2 i i' (h4 _ _ h)⟩

theorem Among.part {g g' : Gram} (h : Among g'.rules g.rules) : ∃ σ, PartOf g' g σ := by
  obtain ⟨m, h1, h2⟩ := h
  obtain ⟨σ, k1, k2⟩ := places_perm h1.symm
  obtain ⟨τ, k3, k4⟩ := partOf_sublist h2
  exact ⟨fun i => τ (σ i), fun i r h => k3 _ r (k1 i r h), fun i i' _ _ h => k2 i i' (k4 _ _ h)⟩

theorem Among.mem {l' l : List α} (h : Among l' l) : ∀ a ∈ l', a ∈ l := by
  obtain ⟨m, h1, h2⟩ := h
  exact fun a ha => h2.subset (h1.mem_iff.2 ha)

theorem Among.map {l' l : List α} (h : Among l' l) (f : α → β) : Among (l'.map f) (l.map f) := by
  obtain ⟨m, h1, h2⟩ := h
  exact ⟨m.map f, h1.map f, h2.map f⟩

/-- C72: if a grammar has no warnings, then no grammar with some of its rules (in any order) and the same start symbol has. -/
theorem c72_fewer_rules (o o' : Seeds) (ho : o.Fair) (ho' : o'.Fair) (g g' : Gram) (hok : g.Ok) (hr : Among g'.rules g.rules) (hs : g'.start = g.start)
    (tab tab' : Tables) (ws' : List Warning) (h : NewGives o g (.ok (tab, []))) (h' : NewGives o' g' (.ok (tab', ws'))) : ws' = [] := by
  obtain ⟨fuel, h1, _⟩ := h
  obtain ⟨fuel', h1', _⟩ := h'
  have hok' : g'.Ok := fun r h => hok r (hr.mem r h)
  obtain ⟨σ, hp⟩ := hr.part
  refine (warn_iff (rules'_start g') ((new_spec ho' hok' fuel').1 tab' ws' h1').2.1).2 fun hc => ?_
  refine (warn_iff (rules'_start g) ((new_spec ho hok fuel).1 tab [] h1).2.1).1 rfl ?_
  exact part_clash (fresh := freshSym g.rules) hp hok (freshSym_unused g') (δ := []) (b := .eoi) (by rw [hs]; exact room_start) hc

/-- C72: the start symbol may also be any other non-terminal in reach, if all of them derive some string of terminals. -/
theorem c72_other_start (o o' : Seeds) (ho : o.Fair) (ho' : o'.Fair) (g g' : Gram) (hok : g.Ok) (hfr : g.Fruitful) (hr : Among g'.rules g.rules)
    (x y : List Sym) (hs : Derives g.rules [.nt g.start] (x ++ .nt g'.start :: y))
    (tab tab' : Tables) (ws' : List Warning) (h : NewGives o g (.ok (tab, []))) (h' : NewGives o' g' (.ok (tab', ws'))) : ws' = [] := by
  obtain ⟨fuel, h1, _⟩ := h
  obtain ⟨fuel', h1', _⟩ := h'
  have hok' : g'.Ok := fun r h => hok r (hr.mem r h)
  obtain ⟨σ, hp⟩ := hr.part
  refine (warn_iff (rules'_start g') ((new_spec ho' hok' fuel').1 tab' ws' h1').2.1).2 fun hc => ?_
  refine (warn_iff (rules'_start g) ((new_spec ho hok fuel).1 tab [] h1).2.1).1 rfl ?_
  obtain ⟨δ, b, hroom⟩ := room_reach hfr (freshSym_unused g) hs rfl
  exact part_clash hp hok (freshSym_unused g') hroom hc

/-- A tree of the part is one of the whole, with the same evaluation. -/
theorem part_tree {rules rules' : List (Rule N T E)} (hsub : ∀ r ∈ rules', r ∈ rules) {idx : T → Nat} {input : List T} {us fs}
    (h : Built (rules'.map Rule.plain) idx input us fs) (he : errs fs = []) :
    ∃ fs', Built (rules.map Rule.plain) idx input us fs' ∧ errs fs' = [] ∧ leaves fs' = leaves fs ∧
      ∀ lg x, Evals rules' fs lg x → ∃ lg', Evals rules fs' lg' x := by
  induction h with
  | nil =>
    refine ⟨[], .nil, rfl, rfl, ?_⟩
    intro lg x h
    cases h
    exact ⟨_, .nil⟩
  | leaf i t us fs h1 _ ih =>
    obtain ⟨fs', k1, k2, k3, k4⟩ := ih (by simpa [errs, Tree.errs] using he)
    refine ⟨.leaf i t :: fs', .leaf _ _ _ _ h1 k1, by simpa [errs, Tree.errs] using k2, by simp [leaves, k3], ?_⟩
    intro lg x h
    cases h with
    | leaf _ _ _ _ as h => obtain ⟨lg', h'⟩ := k4 _ _ h; exact ⟨_, .leaf _ _ _ _ _ h'⟩
    | leafE _ _ _ _ e h => obtain ⟨lg', h'⟩ := k4 _ _ h; exact ⟨_, .leafE _ _ _ _ _ h'⟩
  | err lo l us fs _ _ _ _ => simp [errs, Tree.errs] at he
  | node r rule cs us fs h1 _ _ ih1 ih2 =>
    simp only [errs, Tree.errs, List.append_eq_nil_iff] at he
    obtain ⟨cs', k1, k2, k3, k4⟩ := ih1 he.1
    obtain ⟨fs', m1, m2, m3, m4⟩ := ih2 he.2
    rw [List.getElem?_map] at h1
    obtain ⟨rule0, h2, rfl⟩ := Option.map_eq_some_iff.1 h1
    obtain ⟨n, h3⟩ := List.getElem?_of_mem (hsub _ (List.mem_of_getElem? h2))
    refine ⟨.node n cs' :: fs', .node _ rule0.plain _ _ _ (by simp [h3]) k1 m1, by simp [errs, Tree.errs, k2, m2], by simp [leaves, Tree.leaves, k3, m3], ?_⟩
    intro lg x h
    cases h with
    | node _ rule _ lg1 args v _ lg2 as e1 e2 e3 e4 =>
      rw [h2] at e1; cases e1
      obtain ⟨l1, h1'⟩ := k4 _ _ e2
      obtain ⟨l2, h2'⟩ := m4 _ _ e4
      exact ⟨_, .node _ _ _ _ _ _ _ _ _ h3 h1' e3 h2'⟩
    | nodeE _ rule _ lg1 args v _ lg2 e e1 e2 e3 e4 =>
      rw [h2] at e1; cases e1
      obtain ⟨l1, h1'⟩ := k4 _ _ e2
      obtain ⟨l2, h2'⟩ := m4 _ _ e4
      exact ⟨_, .nodeE _ _ _ _ _ _ _ _ _ h3 h1' e3 h2'⟩
    | fail _ rule _ lg1 args e _ e1 e2 e3 =>
      rw [h2] at e1; cases e1
      obtain ⟨l1, h1'⟩ := k4 _ _ e2
      exact ⟨_, .fail _ _ _ _ _ _ _ h3 h1' e3⟩
    | inner _ _ lg1 e _ e1 =>
      obtain ⟨l1, h1'⟩ := k4 _ _ e1
      exact ⟨_, .inner _ _ _ _ _ h1'⟩

/-- C72: rules that are added without a warning do not change what the sentences of the smaller grammar mean. -/
theorem c72_same_values (o o' : Seeds) (ho : o.Fair) (ho' : o'.Fair) (rules rules' : List (Rule N T E)) (start : Nat) (hok : (gram rules start).Ok)
    (hc : ¬ (gram rules start).Cyclic) (hr : Among rules' rules) (p p' : Parser N T E) (ws' : List Warning) (hp : MakesParser o rules start p [])
    (hp' : MakesParser o' rules' start p' ws') (idx : T → Nat) (input : List T) (hs : (gram rules' start).Sentence (input.map idx)) :
    (∀ v, (∃ c, ParsesTo idx p input (.ok v) c) ↔ ∃ c, ParsesTo idx p' input (.ok v) c) ∧
    ∀ e, (∃ c, ParsesTo idx p input (.error (.reducer e)) c) ↔ ∃ c, ParsesTo idx p' input (.error (.reducer e)) c := by
  have hsub := hr.mem
  have hsub' : ∀ r ∈ (gram rules' start).rules, r ∈ (gram rules start).rules := (hr.map Rule.plain).mem
  obtain rfl := c72_fewer_rules o o' ho ho' (gram rules start) (gram rules' start) hok (hr.map Rule.plain) rfl p.tab p'.tab ws' hp.1 hp'.1
  have hok' : (gram rules' start).Ok := fun r h => hok r (hsub' r h)
  have hc' : ¬ (gram rules' start).Cyclic := by
    rintro ⟨x, r, y, h1, h2, h3⟩
    exact hc ⟨x, r, y, hsub' r h1, gen_iff.1 ((gen_iff.2 h2).mono hsub'), h3⟩
  obtain ⟨f', hf'⟩ := sentence_iff.1 hs
  obtain ⟨gs, k1, k2, k3, k4⟩ := part_tree hsub hf'.1 hf'.2.1
  obtain ⟨f, rfl⟩ : ∃ f, gs = [f] := by
    match gs, k1.length with
    | [f], _ => exact ⟨f, rfl⟩
  have hf : IsTree (rules.map Rule.plain) start idx input f := ⟨k1, k2, by rw [k3]; exact hf'.2.2⟩
  obtain ⟨lg', x, h3⟩ := Built.evals hf'.1
  obtain ⟨lg, h2⟩ := k4 _ _ h3
  have a := c30_evaluation o ho rules start hok p hp hc idx input f hf
  have a' := c30_evaluation o' ho' rules' start hok' p' hp' hc' idx input f' hf'
  refine ⟨fun v => ⟨?_, ?_⟩, fun e => ⟨?_, ?_⟩⟩
  · rintro ⟨c, h⟩
    obtain ⟨rfl, rfl⟩ := h2.unique (((a c.log.reverse).1 v).2 ⟨c, h, rfl⟩)
    obtain ⟨c', h5, _⟩ := ((a' lg').1 v).1 h3
    exact ⟨c', h5⟩
  · rintro ⟨c, h⟩
    obtain ⟨rfl, rfl⟩ := h3.unique (((a' c.log.reverse).1 v).2 ⟨c, h, rfl⟩)
    obtain ⟨c', h5, _⟩ := ((a lg).1 v).1 h2
    exact ⟨c', h5⟩
  · rintro ⟨c, h⟩
    obtain ⟨rfl, rfl⟩ := h2.unique (((a c.log.reverse).2 e).2 ⟨c, h, rfl⟩)
    obtain ⟨c', h5, _⟩ := ((a' lg').2 e).1 h3
    exact ⟨c', h5⟩
  · rintro ⟨c, h⟩
    obtain ⟨rfl, rfl⟩ := h3.unique (((a' c.log.reverse).2 e).2 ⟨c, h, rfl⟩)
    obtain ⟨c', h5, _⟩ := ((a lg).2 e).1 h2
    exact ⟨c', h5⟩

/-! ## Examples -/

/-- `E → E + T | T; T → n | ( E ) | - T` with `E, T = 0, 1` and `+, n, (, ), - = 0, …, 4`. -/
def gMore : Gram :=
  { start := 0
    rules := [⟨0, [.nt 0, .tm (.sym 0), .nt 1]⟩, ⟨0, [.nt 1]⟩, ⟨1, [.tm (.sym 1)]⟩, ⟨1, [.tm (.sym 2), .nt 0, .tm (.sym 3)]⟩, ⟨1, [.tm (.sym 4), .nt 1]⟩] }

theorem gMore_ok : ∃ tab, NewGives idSeeds gMore (.ok (tab, [])) := ⟨_, 60, rfl, by simp⟩

/-- Without brackets, and with the rules in another order. -/
def gLess : Gram :=
  { start := 0, rules := [⟨1, [.tm (.sym 4), .nt 1]⟩, ⟨0, [.nt 1]⟩, ⟨0, [.nt 0, .tm (.sym 0), .nt 1]⟩, ⟨1, [.tm (.sym 1)]⟩] }

theorem gLess_among : Among gLess.rules gMore.rules :=
  ⟨[⟨0, [.nt 0, .tm (.sym 0), .nt 1]⟩, ⟨0, [.nt 1]⟩, ⟨1, [.tm (.sym 1)]⟩, ⟨1, [.tm (.sym 4), .nt 1]⟩], by decide, by decide⟩

example (o : Seeds) (ho : o.Fair) (tab : Tables) (ws : List Warning) (h : NewGives o gLess (.ok (tab, ws))) : ws = [] := by
  obtain ⟨tab0, h0⟩ := gMore_ok
  exact c72_fewer_rules idSeeds o idSeeds_fair ho gMore gLess (by decide) gLess_among rfl tab0 tab ws h0 h

/-- `S → a | B U; U → U c; B → b | b`: nothing can stand behind `B`. -/
def gHidden (n : Nat) : Gram :=
  { start := n, rules := [⟨0, [.tm (.sym 0)]⟩, ⟨0, [.nt 1, .nt 2]⟩, ⟨2, [.nt 2, .tm (.sym 2)]⟩, ⟨1, [.tm (.sym 1)]⟩, ⟨1, [.tm (.sym 1)]⟩] }

/-- C72, the side condition: if something in reach derives no string of terminals, another start symbol can bring warnings. -/
theorem c72_hidden : Derives (gHidden 0).rules [.nt (gHidden 0).start] ([] ++ .nt (gHidden 1).start :: [.nt 2]) ∧
    (∃ tab, NewGives idSeeds (gHidden 0) (.ok (tab, []))) ∧ ∃ tab w ws, NewGives idSeeds (gHidden 1) (.ok (tab, w :: ws)) :=
  ⟨.step _ [] [] ⟨0, [.nt 1, .nt 2]⟩ (.refl _) (by decide), ⟨_, 30, rfl, by simp⟩, _, _, _, 30, rfl, by simp⟩

/-- C72: more rules can bring warnings. -/
example : Among gMore.rules (⟨0, [.nt 0, .tm (.sym 0), .nt 0]⟩ :: gMore.rules) ∧
    ∃ tab w ws, NewGives idSeeds ⟨⟨0, [.nt 0, .tm (.sym 0), .nt 0]⟩ :: gMore.rules, 0⟩ (.ok (tab, w :: ws)) :=
  ⟨⟨gMore.rules, .refl _, by decide⟩, _, _, _, 80, rfl, by simp⟩

end Verif.Par
