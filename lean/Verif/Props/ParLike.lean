import Verif.Par.LikeProof
import Verif.Props.ParParts

/-!
# C96: what tokens and values carry is only passed on
-/

namespace Verif.Par

variable {N T E N' T' E' : Type}

/-- C96: two parsers with the same rules whose callbacks do the corresponding on corresponding arguments (whatever "corresponding" is to mean; it need not be known
what they do on arguments that do not fit the rule) do the same on corresponding inputs: same calls with corresponding arguments, as many tokens taken, corresponding
results. -/
theorem c96_like (o o' : Seeds) (ho : o.Fair) (ho' : o'.Fair) (rules : List (Rule N T E)) (rules' : List (Rule N' T' E')) (start : Nat) (hok : (gram rules start).Ok)
    (p : Parser N T E) (p' : Parser N' T' E') (ws ws' : List Warning) (hp : MakesParser o rules start p ws) (hp' : MakesParser o' rules' start p' ws')
    (idx : T → Nat) (idx' : T' → Nat) (RT : T → T' → Prop) (RN : Nat → N → N' → Prop) (RE : E → E' → Prop)
    (hi : ∀ t t', RT t t' → idx' t' = idx t) (hl : RulesLike idx RT RN RE rules rules') (input : List T) (input' : List T') (hin : Pointwise RT input input') :
    (∀ x c, ParsesTo idx p input x c → ∃ x' c', ParsesTo idx' p' input' x' c' ∧ ResultLike RE (RN start) x x' ∧ SeenLike idx RT RN rules c c') ∧
    (∀ x' c', ParsesTo idx' p' input' x' c' → ∃ x c, ParsesTo idx p input x c ∧ ResultLike RE (RN start) x x' ∧ SeenLike idx RT RN rules c c') ∧
    (ParsePanics idx p input ↔ ParsePanics idx' p' input') ∧ (ParseDiverges idx p input ↔ ParseDiverges idx' p' input') := by
  have hgr : gram rules' start = gram rules start := by unfold gram; rw [hl.plain]
  let q : Parser N' T' E' := ⟨p'.rules, p.tab⟩
  have hq : MakesParser o rules' start q ws := ⟨by rw [hgr]; exact hp.1, hp'.2⟩
  obtain ⟨k1, k2, k3⟩ := c32_same_outcome o o' ho ho' rules' start (by rw [hgr]; exact hok) q p' ws ws' hq hp' idx' input'
  have key := fun n => rounds_like (idx := idx) (idx' := idx') (RT := RT) (RN := RN) (RE := RE) ho hok hp hq rfl hl hi hin n
  refine ⟨?_, ?_, ?_, ?_⟩
  · rintro x c ⟨n, h⟩
    have := key n
    rw [h] at this
    generalize hz : run idx' q n (Cfg.init q input') = z at this
    cases this with
    | done x x' c c' h1 h2 =>
      obtain ⟨d, g1, g2, g3⟩ := (k1 x' c'.log c'.pulls).1 ⟨c', ⟨n, hz⟩, rfl, rfl⟩
      exact ⟨x', d, g1, h1, by rw [g2]; exact h2.calls, by rw [g3]; exact h2.pulls⟩
  · intro x' c' h
    obtain ⟨d, ⟨n, g1⟩, g2, g3⟩ := (k1 x' c'.log c'.pulls).2 ⟨c', h, rfl, rfl⟩
    have := key n
    rw [g1] at this
    generalize hz : run idx p n (Cfg.init p input) = z at this
    cases this with
    | done x x' c d h1 h2 => exact ⟨x, c, ⟨n, hz⟩, h1, by rw [← g2]; exact h2.calls, by rw [← g3]; exact h2.pulls⟩
  · rw [← k2]
    constructor
    · rintro ⟨n, h⟩
      have := key n
      rw [h] at this
      refine ⟨n, ?_⟩
      generalize hz : run idx' q n (Cfg.init q input') = z at this
      cases this; rfl
    · rintro ⟨n, h⟩
      have := key n
      rw [h] at this
      refine ⟨n, ?_⟩
      generalize hz : run idx p n (Cfg.init p input) = z at this
      cases this; rfl
  · rw [← k3]
    constructor
    · intro h n
      obtain ⟨c, hc⟩ := h n
      have := key n
      rw [hc] at this
      generalize hz : run idx' q n (Cfg.init q input') = z at this
      cases this with
      | more c c' _ => exact ⟨c', rfl⟩
    · intro h n
      obtain ⟨c, hc⟩ := h n
      have := key n
      rw [hc] at this
      generalize hz : run idx p n (Cfg.init p input) = z at this
      cases this with
      | more c c' _ => exact ⟨c, rfl⟩

/-! ## Tokens with something added -/

/-- The rule for tokens with something added, whose callback does not look at it. -/
def Rule.through (f : T' → T) (r : Rule N T E) : Rule N T' E := ⟨r.lhs, r.rhs, fun as => r.gen (as.map (Arg.map id f))⟩

theorem pointwise_eq {α β : Type} {f : α → β} {l : List β} {l' : List α} (h : Pointwise (fun t t' => f t' = t) l l') : l = l'.map f := by
  apply List.ext_getElem?
  intro i
  rw [List.getElem?_map]
  cases h1 : l[i]? with
  | none =>
    have : l'[i]? = none := by rw [List.getElem?_eq_none_iff] at h1 ⊢; rw [← h.1]; exact h1
    rw [this]; rfl
  | some x =>
    have hi : i < l'.length := by rw [← h.1]; exact (List.getElem?_eq_some_iff.1 h1).1
    rw [List.getElem?_eq_getElem hi, Option.map_some]
    exact congrArg some (h.2 i x _ h1 (List.getElem?_eq_getElem hi)).symm

theorem pointwise_of_map {α β : Type} {f : α → β} (l : List α) : Pointwise (fun t t' => f t' = t) (l.map f) l := by
  simpa using pointwise_map (R := fun t t' => f t' = t) (f := f) (g := id) (fun _ => rfl) l

theorem argsLike_through {f : T' → T} {idx : T → Nat} {us : List Sym} {as : List (Arg N T)} {as' : List (Arg N T')}
    (h : ArgsLike idx (fun t t' => f t' = t) (fun _ v v' => v' = v) us as as') : as = as'.map (Arg.map id f) := by
  refine pointwise_eq ⟨h.1.symm.trans h.2.1, ?_⟩
  intro i a a' h1 h2
  have hi : i < us.length := by rw [h.1]; exact (List.getElem?_eq_some_iff.1 h1).1
  have := h.2.2 i _ a a' (List.getElem?_eq_getElem hi) h1 h2
  revert this
  generalize us[i] = u
  intro hu
  cases u with
  | nt A =>
    cases a <;> cases a' <;> first | exact hu.elim | skip
    simp only [Arg.Like] at hu
    rw [hu]; rfl
  | tm t =>
    cases t with
    | sym b =>
      cases a <;> cases a' <;> first | exact hu.elim | skip
      simp only [Arg.Like] at hu
      rw [← hu.2]; rfl
    | eoi => cases a <;> cases a' <;> exact hu.elim
    | err =>
      cases a <;> cases a' <;> first | exact hu.elim | skip
      simp only [Arg.Like] at hu
      rw [pointwise_eq hu.2]; rfl

/-- C96: something may be added to the tokens (a place in the text, a comment): if the callbacks do not look at it, `parse` gives the same result with the same calls. -/
theorem c96_added (o o' : Seeds) (ho : o.Fair) (ho' : o'.Fair) (rules : List (Rule N T E)) (start : Nat) (hok : (gram rules start).Ok) (f : T' → T)
    (p : Parser N T E) (p' : Parser N T' E) (ws ws' : List Warning) (hp : MakesParser o rules start p ws)
    (hp' : MakesParser o' (rules.map (Rule.through f)) start p' ws') (idx : T → Nat) (input : List T') :
    (∀ x l n, (∃ c', ParsesTo (fun t => idx (f t)) p' input x c' ∧ c'.log.map (fun y => (y.1, y.2.map (Arg.map id f))) = l ∧ c'.pulls = n) ↔
      ∃ c, ParsesTo idx p (input.map f) x c ∧ c.log = l ∧ c.pulls = n) ∧
    (ParsePanics (fun t => idx (f t)) p' input ↔ ParsePanics idx p (input.map f)) ∧ (ParseDiverges (fun t => idx (f t)) p' input ↔ ParseDiverges idx p (input.map f)) := by
  have hlike : RulesLike idx (fun t t' => f t' = t) (fun _ v v' => v' = v) (fun e e' => e' = e) rules (rules.map (Rule.through f)) := by
    refine ⟨by rw [List.map_map]; rfl, ?_⟩
    intro r rule rule' h1 h2 as as' h3
    rw [List.getElem?_map, h1] at h2
    cases h2
    rw [argsLike_through h3]
    show OutcomeLike _ _ (rule.gen _) (rule.gen _)
    cases rule.gen (as'.map (Arg.map id f)) <;> rfl
  obtain ⟨g1, g2, g3, g4⟩ := c96_like o o' ho ho' rules _ start hok p p' ws ws' hp hp' idx (fun t => idx (f t)) (fun t t' => f t' = t) (fun _ v v' => v' = v)
    (fun e e' => e' = e) (fun t t' h => by rw [← h]) hlike (input.map f) input (pointwise_of_map input)
  have hres : ∀ {x x' : Except (PErr E) N}, ResultLike (fun e e' => e' = e) (fun v v' => v' = v) x x' → x' = x := by
    intro x x' h
    cases h with
    | ok v v' h => rw [h]
    | noRecovery => rfl
    | reducer e e' h => rw [h]
  have hlog : ∀ {c : Cfg N T} {c' : Cfg N T'}, SeenLike idx (fun t t' => f t' = t) (fun _ v v' => v' = v) rules c c' →
      c'.log.map (fun y => (y.1, y.2.map (Arg.map id f))) = c.log := by
    intro c c' h
    refine (pointwise_eq ⟨h.calls.1, ?_⟩).symm
    intro i x x' h1 h2
    obtain ⟨k1, rule, _, k2⟩ := h.calls.2 i x x' h1 h2
    exact Prod.ext k1 (argsLike_through k2).symm
  refine ⟨?_, g3.symm, g4.symm⟩
  intro x l n
  constructor
  · rintro ⟨c', h1, rfl, rfl⟩
    obtain ⟨x0, c, k1, k2, k3⟩ := g2 x c' h1
    obtain rfl := hres k2
    exact ⟨c, k1, (hlog k3).symm, k3.pulls.symm⟩
  · rintro ⟨c, h1, rfl, rfl⟩
    obtain ⟨x', c', k1, k2, k3⟩ := g1 x c h1
    obtain rfl := hres k2
    exact ⟨c', k1, hlog k3, k3.pulls⟩

/-! ## Values that are computed from others -/

/-- C96: if the callbacks of the second parser compute from `h` of the values what `h` makes of the results of the first (on arguments that fit), `parse` gives `h` of the
result: it does not matter whether a value (a tree) is made by parsing and then changed (evaluated), or changed all along. -/
theorem c96_fusion (o o' : Seeds) (ho : o.Fair) (ho' : o'.Fair) (rules : List (Rule N T E)) (rules' : List (Rule N' T E)) (start : Nat) (hok : (gram rules start).Ok)
    (hpl : rules'.map Rule.plain = rules.map Rule.plain) (p : Parser N T E) (p' : Parser N' T E) (ws ws' : List Warning) (hp : MakesParser o rules start p ws)
    (hp' : MakesParser o' rules' start p' ws') (idx : T → Nat) (Q : Nat → N → Prop) (hQ : Keeps idx Q rules) (h : N → N')
    (hh : ∀ (r : Nat) rule rule', rules[r]? = some rule → rules'[r]? = some rule' → ∀ as, ArgsFit idx Q rule.rhs as →
      rule'.gen (as.map (Arg.map h id)) = (rule.gen as).map h) (input : List T) :
    (∀ x', (∃ c', ParsesTo idx p' input x' c') ↔ ∃ x c, ParsesTo idx p input x c ∧ x' = x.map h) ∧
    (ParsePanics idx p input ↔ ParsePanics idx p' input) ∧ (ParseDiverges idx p input ↔ ParseDiverges idx p' input) := by
  have hfit : ∀ {us : List Sym} {as : List (Arg N T)} {as' : List (Arg N' T)},
      ArgsLike idx (fun t t' => t' = t) (fun A v v' => Q A v ∧ v' = h v) us as as' → ArgsFit idx Q us as ∧ as' = as.map (Arg.map h id) := by
    intro us as as' hl
    have key : ∀ (i : Nat) u a a', us[i]? = some u → as[i]? = some a → as'[i]? = some a' → a.Fits idx Q u ∧ a' = a.map h id := by
      intro i u a a' h1 h2 h3
      have hu := hl.2.2 i u a a' h1 h2 h3
      cases u with
      | nt A =>
        cases a <;> cases a' <;> first | exact hu.elim | skip
        simp only [Arg.Like] at hu
        exact ⟨hu.1, by rw [hu.2]; rfl⟩
      | tm t =>
        cases t with
        | sym b =>
          cases a <;> cases a' <;> first | exact hu.elim | skip
          simp only [Arg.Like] at hu
          exact ⟨hu.1, by rw [hu.2]; rfl⟩
        | eoi => cases a <;> cases a' <;> exact hu.elim
        | err =>
          cases a <;> cases a' <;> first | exact hu.elim | skip
          simp only [Arg.Like] at hu
          refine ⟨hu.1, ?_⟩
          have := pointwise_eq (f := id) (l := _) (l' := _) ⟨hu.2.1, fun i x x' g1 g2 => hu.2.2 i x x' g1 g2⟩
          simp only [Arg.map, this, List.map_id_fun, id]
    refine ⟨⟨hl.1, ?_⟩, ?_⟩
    · intro i u a h1 h2
      have hi : i < as'.length := by rw [← hl.2.1]; exact (List.getElem?_eq_some_iff.1 h1).1
      exact (key i u a _ h1 h2 (List.getElem?_eq_getElem hi)).1
    · refine pointwise_eq ⟨hl.2.1.symm.trans hl.1, ?_⟩
      intro i a' a h1 h2
      have hi : i < us.length := by rw [hl.1]; exact (List.getElem?_eq_some_iff.1 h2).1
      exact (key i _ a a' (List.getElem?_eq_getElem hi) h2 h1).2.symm
  have hlike : RulesLike idx (fun t t' => t' = t) (fun A v v' => Q A v ∧ v' = h v) (fun e e' => e' = e) rules rules' := by
    refine ⟨hpl, ?_⟩
    intro r rule rule' h1 h2 as as' h3
    obtain ⟨k1, rfl⟩ := hfit h3
    rw [hh r rule rule' h1 h2 as k1]
    cases hg : rule.gen as with
    | error e => rfl
    | ok v => exact ⟨hQ rule (List.mem_of_getElem? h1) as v k1 hg, rfl⟩
  obtain ⟨g1, g2, g3, g4⟩ := c96_like o o' ho ho' rules rules' start hok p p' ws ws' hp hp' idx idx (fun t t' => t' = t) (fun A v v' => Q A v ∧ v' = h v)
    (fun e e' => e' = e) (fun t t' h => by rw [h]) hlike input input (by
      have := pointwise_map (R := fun (t t' : T) => t' = t) (f := id) (g := id) (fun _ => rfl) input
      simpa using this)
  have hres : ∀ {x : Except (PErr E) N} {x' : Except (PErr E) N'}, ResultLike (fun e e' => e' = e) (fun v v' => Q start v ∧ v' = h v) x x' → x' = x.map h := by
    intro x x' h
    cases h with
    | ok v v' h => rw [h.2]; rfl
    | noRecovery => rfl
    | reducer e e' h => rw [h]; rfl
  refine ⟨?_, g3, g4⟩
  intro x'
  constructor
  · rintro ⟨c', h1⟩
    obtain ⟨x, c, k1, k2, _⟩ := g2 x' c' h1
    exact ⟨x, c, k1, hres k2⟩
  · rintro ⟨x, c, h1, rfl⟩
    obtain ⟨x', c', k1, k2, _⟩ := g1 x c h1
    rw [← hres k2]
    exact ⟨c', k1⟩

/-! ## Example -/

/-- Sums as they are written. -/
inductive SumTree where
  | num (n : Nat)
  | add (a b : SumTree)

def SumTree.eval : SumTree → Nat
  | .num n => n
  | .add a b => a.eval + b.eval

/-- The rules of `sumPar`, making trees. -/
def exPar : List (Rule SumTree (Nat × Nat) Nat) :=
  [⟨0, [.nt 0, .tm (.sym 0), .nt 1], fun | [.nt x, _, .nt y] => .ok (.add x y) | _ => .error 0⟩, ⟨0, [.nt 1], fun | [.nt x] => .ok x | _ => .error 0⟩,
    ⟨1, [.tm (.sym 1)], fun | [.tok t] => .ok (.num t.2) | _ => .error 0⟩, ⟨1, [.tm (.sym 2), .nt 0, .tm (.sym 3)], fun | [_, .nt x, _] => .ok x | _ => .error 0⟩]

def exParser : Parser SumTree (Nat × Nat) Nat := ⟨exPar ++ [⟨2, [.nt 0], fun _ => .error 0⟩], (sumParOf 0).tab⟩

theorem exPar_makes : MakesParser idSeeds exPar 0 exParser [] := ⟨sumPar_makes0.1, _, rfl⟩

/-- Making a tree and evaluating it gives what `sumPar` gives, for every input. -/
example (input : List (Nat × Nat)) (x' : Except (PErr Nat) Nat) :
    (∃ c', ParsesTo Prod.fst (sumParOf 0) input x' c') ↔ ∃ x c, ParsesTo Prod.fst exParser input x c ∧ x' = x.map SumTree.eval := by
  refine (c96_fusion idSeeds idSeeds idSeeds_fair idSeeds_fair exPar sumPar 0 (by decide) rfl exParser (sumParOf 0) [] [] exPar_makes sumPar_makes0 Prod.fst
    (fun _ _ => True) (fun _ _ _ _ _ _ => trivial) SumTree.eval ?_ input).1 x'
  intro r rule rule' h1 h2 as _
  match r, h1, h2 with
  | 0, h1, h2 =>
    cases h1; cases h2
    rcases as with _ | ⟨_ | _ | _, _ | ⟨a, _ | ⟨_ | _ | _, _ | ⟨b, as⟩⟩⟩⟩ <;> rfl
  | 1, h1, h2 =>
    cases h1; cases h2
    rcases as with _ | ⟨_ | _ | _, _ | ⟨a, as⟩⟩ <;> rfl
  | 2, h1, h2 =>
    cases h1; cases h2
    rcases as with _ | ⟨_ | _ | _, _ | ⟨a, as⟩⟩ <;> rfl
  | 3, h1, h2 =>
    cases h1; cases h2
    rcases as with _ | ⟨a, _ | ⟨_ | _ | _, _ | ⟨b, _ | ⟨c, as⟩⟩⟩⟩ <;> rfl
  | _ + 4, h1, h2 => cases h1

/-- With a line number on every token. -/
def sumLines : Parser Nat ((Nat × Nat) × Nat) Nat := ⟨sumPar.map (Rule.through Prod.fst) ++ [⟨2, [.nt 0], fun _ => .error 0⟩], (sumParOf 0).tab⟩

theorem sumLines_makes : MakesParser idSeeds (sumPar.map (Rule.through Prod.fst)) 0 sumLines [] := ⟨sumPar_makes0.1, _, rfl⟩

example (x : Except (PErr Nat) Nat) (h : ∃ c, ParsesTo (fun t => t.1.1) sumLines [((1, 5), 1), ((0, 0), 1), ((1, 3), 2)] x c) : x = .ok 8 := by
  obtain ⟨c, h⟩ := h
  obtain ⟨d, ⟨n, h1⟩, _⟩ := ((c96_added idSeeds idSeeds idSeeds_fair idSeeds_fair sumPar 0 (by decide) Prod.fst (sumParOf 0) sumLines [] [] sumPar_makes0 sumLines_makes
    Prod.fst [((1, 5), 1), ((0, 0), 1), ((1, 3), 2)]).1 x _ _).1 ⟨c, h, rfl, rfl⟩
  have h2 : run Prod.fst (sumParOf 0) 60 (Cfg.init (sumParOf 0) [(1, 5), (0, 0), (1, 3)]) = .done (.ok 8) _ := rfl
  exact (ParsesTo.unique ⟨n, h1⟩ ⟨60, h2⟩).1

end Verif.Par
