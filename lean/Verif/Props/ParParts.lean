import Verif.Par.Parts
import Verif.Props.ParPart

/-!
# Property C94: parts of an input can be parsed on their own
-/

namespace Verif.Par

variable {N T E : Type} {rules : List (Rule N T E)} {idx : T → Nat}

/-! ## Lemmas -/

theorem WorksOut.parses {start : Nat} {w : List T} {lg : List (Call N T)} {y : Except E (List (Arg N T))} (h : WorksOut rules idx [.nt start] w (lg, y)) (o : Seeds) (ho : o.Fair)
    (hok : (gram rules start).Ok) (p : Parser N T E) (hp : MakesParser o rules start p []) (hc : ¬ (gram rules start).Cyclic) :
    (∀ v, y = .ok [.nt v] → ∃ c, ParsesTo idx p w (.ok v) c ∧ c.log.reverse = lg) ∧
    ∀ e, y = .error e → ∃ c, ParsesTo idx p w (.error (.reducer e)) c ∧ c.log.reverse = lg := by
  obtain ⟨fs, h1, h2, h3, h4⟩ := h.built w [] [] (by simp)
  obtain ⟨f, rfl⟩ : ∃ f, fs = [f] := by
    have := h1.length
    match fs, this with
    | [f], _ => exact ⟨f, rfl⟩
  have hf : IsTree (rules.map Rule.plain) start idx w f := ⟨h1, h2, h3⟩
  obtain ⟨a1, a2⟩ := c30_evaluation o ho rules start hok p hp hc idx w f hf lg
  constructor
  · rintro v rfl
    exact (a1 v).1 h4
  · rintro e rfl
    exact (a2 e).1 h4

theorem worksOut_of_parses {start : Nat} {x : List T} (o : Seeds) (ho : o.Fair) (hok : (gram rules start).Ok) (q : Parser N T E) (hq : MakesParser o rules start q [])
    (hc : ¬ (gram rules start).Cyclic) (hs : (gram rules start).Sentence (x.map idx)) {r : Except (PErr E) N} {c : Cfg N T} (h : ParsesTo idx q x r c) :
    (∃ v, r = .ok v ∧ WorksOut rules idx [.nt start] x (c.log.reverse, .ok [.nt v])) ∨
    ∃ e, r = .error (.reducer e) ∧ WorksOut rules idx [.nt start] x (c.log.reverse, .error e) := by
  obtain ⟨out, hw⟩ := Gen.worksOut (rules := rules) (idx := idx) (gen_iff.2 hs) x (by simp)
  obtain ⟨lg, y⟩ := out
  rcases hw.shape with ⟨v, hv⟩ | ⟨e, he⟩
  · obtain rfl : y = .ok [.nt v] := hv
    obtain ⟨c', k1, rfl⟩ := (hw.parses o ho hok q hq hc).1 v rfl
    obtain ⟨rfl, rfl⟩ := h.unique k1
    exact .inl ⟨v, rfl, hw⟩
  · obtain rfl : y = .error e := he
    obtain ⟨c', k1, rfl⟩ := (hw.parses o ho hok q hq hc).2 e rfl
    obtain ⟨rfl, rfl⟩ := h.unique k1
    exact .inr ⟨e, rfl, hw⟩

/-! ## C94 -/

/-- C94: what a parser does with a part of its input that is derived from the non-terminal `A` is what the parser for `A` does with this part alone. Before it and
behind it the same calls are made for all such parts, those behind it depending on the value of the part only; so does the result. Or a callback fails before the part is
reached. -/
theorem c94_parts (o o' : Seeds) (ho : o.Fair) (ho' : o'.Fair) (rules : List (Rule N T E)) (start A : Nat) (hok : (gram rules start).Ok)
    (p q : Parser N T E) (hp : MakesParser o rules start p []) (hq : MakesParser o' rules A q []) (hc : ¬ (gram rules start).Cyclic) (hcA : ¬ (gram rules A).Cyclic)
    (idx : T → Nat) (u w : List T)
    (hd : Derives (rules.map Rule.plain) [.nt start] (u.map (fun t => .tm (.sym (idx t))) ++ .nt A :: w.map (fun t => .tm (.sym (idx t))))) :
    (∃ (before : List (Call N T)) (behind : N → List (Call N T)) (result : N → Except (PErr E) N), ∀ x, (gram rules A).Sentence (x.map idx) → ∀ r c, ParsesTo idx q x r c →
      (∀ v, r = .ok v → ∃ c', ParsesTo idx p (u ++ x ++ w) (result v) c' ∧ c'.log.reverse = before ++ c.log.reverse ++ behind v) ∧
      (∀ e, r = .error e → ∃ c', ParsesTo idx p (u ++ x ++ w) (.error e) c' ∧ c'.log.reverse = before ++ c.log.reverse)) ∨
    ∃ (before : List (Call N T)) (e : E), ∀ x, (gram rules A).Sentence (x.map idx) → ∃ c', ParsesTo idx p (u ++ x ++ w) (.error (.reducer e)) c' ∧ c'.log.reverse = before := by
  have hokA : (gram rules A).Ok := hok
  rcases Gen.around (rules := rules) (idx := idx) (A := A) (gen_iff.2 hd) u w rfl with ⟨pre, K, h⟩ | ⟨pre, e, h⟩
  · left
    refine ⟨pre, fun v => (K v).1, fun v => match (K v).2 with | .ok (.nt v' :: _) => .ok v' | .ok _ => .error .noRecovery | .error e => .error (.reducer e), ?_⟩
    intro x hs r c hx
    rcases worksOut_of_parses o' ho' hokA q hq hcA hs hx with ⟨v, rfl, hw⟩ | ⟨e, rfl, hw⟩
    · refine ⟨?_, fun e he => by cases he⟩
      rintro _ ⟨⟩
      have k := (h x _ hw).1 v rfl
      rcases k.shape with ⟨v', hv'⟩ | ⟨e, he⟩
      · have hv' : (K v).2 = .ok [.nt v'] := hv'
        obtain ⟨c', k1, k2⟩ := (k.parses o ho hok p hp hc).1 v' hv'
        refine ⟨c', ?_, k2⟩
        simp only [hv']
        exact k1
      · have he : (K v).2 = .error e := he
        obtain ⟨c', k1, k2⟩ := (k.parses o ho hok p hp hc).2 e he
        refine ⟨c', ?_, k2⟩
        simp only [he]
        exact k1
    · refine ⟨fun v hv => (by cases hv), ?_⟩
      rintro _ ⟨⟩
      exact (((h x _ hw).2 e rfl).parses o ho hok p hp hc).2 e rfl
  · right
    refine ⟨pre, e, fun x hs => ?_⟩
    obtain ⟨out, hw⟩ := Gen.worksOut (rules := rules) (idx := idx) (gen_iff.2 hs) x (by simp)
    exact ((h x _ hw).parses o ho hok p hp hc).2 e rfl

/-- C94: parts with the same value can be exchanged. -/
theorem c94_exchange (o o' : Seeds) (ho : o.Fair) (ho' : o'.Fair) (rules : List (Rule N T E)) (start A : Nat) (hok : (gram rules start).Ok)
    (p q : Parser N T E) (hp : MakesParser o rules start p []) (hq : MakesParser o' rules A q []) (hc : ¬ (gram rules start).Cyclic) (hcA : ¬ (gram rules A).Cyclic)
    (idx : T → Nat) (u w : List T)
    (hd : Derives (rules.map Rule.plain) [.nt start] (u.map (fun t => .tm (.sym (idx t))) ++ .nt A :: w.map (fun t => .tm (.sym (idx t)))))
    (x x' : List T) (hs : (gram rules A).Sentence (x.map idx)) (hs' : (gram rules A).Sentence (x'.map idx)) (v : N) (hv : ∃ c, ParsesTo idx q x (.ok v) c)
    (hv' : ∃ c, ParsesTo idx q x' (.ok v) c) :
    ∃ r, (∃ c, ParsesTo idx p (u ++ x ++ w) r c) ∧ ∃ c, ParsesTo idx p (u ++ x' ++ w) r c := by
  obtain ⟨c, hv⟩ := hv
  obtain ⟨c', hv'⟩ := hv'
  rcases c94_parts o o' ho ho' rules start A hok p q hp hq hc hcA idx u w hd with ⟨before, behind, result, h⟩ | ⟨before, e, h⟩
  · obtain ⟨d, h1, _⟩ := (h x hs _ c hv).1 v rfl
    obtain ⟨d', h2, _⟩ := (h x' hs' _ c' hv').1 v rfl
    exact ⟨result v, ⟨d, h1⟩, d', h2⟩
  · obtain ⟨d, h1, _⟩ := h x hs
    obtain ⟨d', h2, _⟩ := h x' hs'
    exact ⟨_, ⟨d, h1⟩, d', h2⟩

/-- C94: without error rules, in an accepted input every call of a callback is the last call of parsing a part of the input alone: the calls before it are those of this
parse, and the result of this parse is what the callback gives. -/
theorem c94_calls (o o' : Seeds) (ho : o.Fair) (ho' : o'.Fair) (rules : List (Rule N T E)) (start : Nat) (hok : (gram rules start).Ok) (hn : (gram rules start).NoError)
    (p : Parser N T E) (ws : List Warning) (hp : MakesParser o rules start p ws) (idx : T → Nat) (input : List T) (v : N) (c : Cfg N T)
    (h : ParsesTo idx p input (.ok v) c) (a : List (Call N T)) (r : Nat) (args : List (Arg N T)) (b : List (Call N T)) (hlog : c.log.reverse = a ++ (r, args) :: b) :
    ∃ rule a' calls u x w, rules[r]? = some rule ∧ a = a' ++ calls ∧ input = u ++ x ++ w ∧ (gram rules rule.lhs).Sentence (x.map idx) ∧
      Derives (rules.map Rule.plain) [.nt start] (u.map (fun t => .tm (.sym (idx t))) ++ .nt rule.lhs :: w.map (fun t => .tm (.sym (idx t)))) ∧
      ∀ q, MakesParser o' rules rule.lhs q [] → ¬ (gram rules rule.lhs).Cyclic →
        ∃ v' d, rule.gen args = .ok v' ∧ ParsesTo idx q x (.ok v') d ∧ d.log.reverse = calls ++ [(r, args)] := by
  obtain ⟨f, calls, g1, g2, _, _, g5⟩ := c23_sound o ho rules start hok p ws hp idx input v c h
  have he : errs [f] = [] := g1.no_errs (by simp) hn
  obtain ⟨g6, rfl⟩ := g5 he
  have hw := g1.worksOut he g2
  rw [g6, List.zipIdx_map_fst] at hw
  obtain ⟨rule, v', a', calls, u, x, z, k1, k2, k3, k4, k5, k6⟩ := hw.phrase _ rfl a r args b hlog
  have hw' : WorksOut rules idx [.nt rule.lhs] x (calls ++ [(r, args)], .ok [.nt v']) := by
    have := WorksOut.node r rule [] x [] _ _ k1 k5 .nil
    simpa [Outs.node, k2, Except.map] using this
  refine ⟨rule, a', calls, u, x, z, k1, k3, k4, ?_, gen_iff.1 k6, fun q hq hcy => ?_⟩
  · have := gen_iff.1 hw'.gen
    show Derives (rules.map Rule.plain) [.nt rule.lhs] ((x.map idx).map fun t => .tm (.sym t))
    rw [List.map_map]
    exact this
  · obtain ⟨d, m1, m2⟩ := (hw'.parses o' ho' hok q hq hcy).1 v' rfl
    exact ⟨v', d, k2, m1, m2⟩

/-! ## Example -/

/-- `E → E + T | T`, `T → n | ( E )`. -/
def sumPar : List (Rule Nat (Nat × Nat) Nat) :=
  [⟨0, [.nt 0, .tm (.sym 0), .nt 1], fun | [.nt x, _, .nt y] => .ok (x + y) | _ => .error 0⟩, ⟨0, [.nt 1], fun | [.nt x] => .ok x | _ => .error 0⟩,
    ⟨1, [.tm (.sym 1)], fun | [.tok t] => .ok t.2 | _ => .error 0⟩, ⟨1, [.tm (.sym 2), .nt 0, .tm (.sym 3)], fun | [_, .nt x, _] => .ok x | _ => .error 0⟩]

def sumParOf (start : Nat) : Parser Nat (Nat × Nat) Nat :=
  ⟨sumPar ++ [⟨2, [.nt start], fun _ => .error 0⟩],
    match newTables 60 idSeeds (gram sumPar start) with
    | .ok (tab, _) => tab
    | _ => ⟨[], [], [], 0⟩⟩

theorem sumPar_makes0 : MakesParser idSeeds sumPar 0 (sumParOf 0) [] := ⟨⟨60, by decide +kernel, by simp⟩, _, rfl⟩

theorem sumPar_makes1 : MakesParser idSeeds sumPar 1 (sumParOf 1) [] := ⟨⟨60, by decide +kernel, by simp⟩, _, rfl⟩

theorem sumPar_short {r : PRule} (h : r ∈ (gram sumPar 0).rules) {x y : List Sym} {A : Nat} (he : x ++ r.rhs ++ y = [.nt A]) : x = [] ∧ y = [] ∧ r = ⟨0, [.nt 1]⟩ := by
  simp only [gram, sumPar, Rule.plain, List.map_cons, List.map_nil, List.mem_cons, List.not_mem_nil, or_false] at h
  rcases h with rfl | rfl | rfl | rfl
  · have := congrArg List.length he
    simp at this
    omega
  · have := congrArg List.length he
    simp at this
    have hx : x = [] := List.eq_nil_of_length_eq_zero (by omega)
    have hy : y = [] := List.eq_nil_of_length_eq_zero (by omega)
    exact ⟨hx, hy, rfl⟩
  · have : Sym.tm (.sym 1) ∈ [Sym.nt A] := by rw [← he]; simp
    simp at this
  · have := congrArg List.length he
    simp at this
    omega

theorem sumPar_not_cyclic0 : ¬ (gram sumPar 0).Cyclic := by
  rintro ⟨x, r, y, hr, _, h⟩
  obtain ⟨rfl, rfl, rfl⟩ := sumPar_short hr h
  cases h

theorem sumPar_not_cyclic1 : ¬ (gram sumPar 1).Cyclic := by
  rintro ⟨x, r, y, hr, hd, h⟩
  obtain ⟨rfl, rfl, rfl⟩ := sumPar_short hr h
  have key : ∀ u v, Derives (sumPar.map Rule.plain) u v → u = [.nt 1] → v = [.nt 1] ∨ ∃ t, Sym.tm t ∈ v := by
    intro u v h
    induction h with
    | refl => exact fun h => .inl h
    | step x y r _ hr ih =>
      intro hu
      rcases ih hu with he | ⟨t, ht⟩
      · right
        cases x with
        | cons a x => simp at he
        | nil =>
          simp only [List.nil_append, List.cons.injEq, Sym.nt.injEq] at he
          simp only [sumPar, Rule.plain, List.map_cons, List.map_nil, List.mem_cons, List.not_mem_nil, or_false] at hr
          rcases hr with rfl | rfl | rfl | rfl
          · cases he.1
          · cases he.1
          · exact ⟨.sym 1, by simp⟩
          · exact ⟨.sym 2, by simp⟩
      · right
        refine ⟨t, ?_⟩
        simp only [List.mem_append, List.mem_cons, reduceCtorEq, false_or] at ht ⊢
        rcases ht with ht | ht
        · exact .inl (.inl ht)
        · exact .inr ht
  rcases key _ _ hd rfl with h | ⟨t, h⟩
  · cases h
  · simp at h

theorem sumPar_around : Derives (sumPar.map Rule.plain) [.nt 0] (([(1, 5), (0, 0)] : List (Nat × Nat)).map (fun t => .tm (.sym t.1)) ++
    .nt 1 :: ([(0, 0), (1, 7)] : List (Nat × Nat)).map (fun t => .tm (.sym t.1))) := by
  have d1 : Derives (sumPar.map Rule.plain) [.nt 0] [.nt 0, .tm (.sym 0), .nt 1] := .step _ [] [] ⟨0, [.nt 0, .tm (.sym 0), .nt 1]⟩ (.refl _) (by simp [sumPar, Rule.plain])
  have d2 : Derives (sumPar.map Rule.plain) [.nt 0] [.nt 0, .tm (.sym 0), .nt 1, .tm (.sym 0), .nt 1] :=
    .step _ [] [.tm (.sym 0), .nt 1] ⟨0, [.nt 0, .tm (.sym 0), .nt 1]⟩ d1 (by simp [sumPar, Rule.plain])
  have d3 : Derives (sumPar.map Rule.plain) [.nt 0] [.nt 1, .tm (.sym 0), .nt 1, .tm (.sym 0), .nt 1] :=
    .step _ [] [.tm (.sym 0), .nt 1, .tm (.sym 0), .nt 1] ⟨0, [.nt 1]⟩ d2 (by simp [sumPar, Rule.plain])
  have d4 : Derives (sumPar.map Rule.plain) [.nt 0] [.tm (.sym 1), .tm (.sym 0), .nt 1, .tm (.sym 0), .nt 1] :=
    .step _ [] [.tm (.sym 0), .nt 1, .tm (.sym 0), .nt 1] ⟨1, [.tm (.sym 1)]⟩ d3 (by simp [sumPar, Rule.plain])
  exact .step _ [.tm (.sym 1), .tm (.sym 0), .nt 1, .tm (.sym 0)] [] ⟨1, [.tm (.sym 1)]⟩ d4 (by simp [sumPar, Rule.plain])

/-- `3` and `(1 + 2)` have the value 3; so `5 + 3 + 7` and `5 + (1 + 2) + 7` have the same value, as `c94_exchange` says. -/
example : (gram sumPar 0).Ok ∧ (∃ c, ParsesTo Prod.fst (sumParOf 1) [(1, 3)] (.ok 3) c) ∧
    (∃ c, ParsesTo Prod.fst (sumParOf 1) [(2, 0), (1, 1), (0, 0), (1, 2), (3, 0)] (.ok 3) c) ∧
    (∃ c, ParsesTo Prod.fst (sumParOf 0) ([(1, 5), (0, 0)] ++ [(1, 3)] ++ [(0, 0), (1, 7)]) (.ok 15) c) ∧
    ∃ c, ParsesTo Prod.fst (sumParOf 0) ([(1, 5), (0, 0)] ++ [(2, 0), (1, 1), (0, 0), (1, 2), (3, 0)] ++ [(0, 0), (1, 7)]) (.ok 15) c :=
  ⟨by decide, ⟨_, 60, rfl⟩, ⟨_, 60, rfl⟩, ⟨_, 60, rfl⟩, ⟨_, 60, rfl⟩⟩

/-- `E → E - n | n`. -/
def difference : List (Rule Nat (Nat × Nat) Nat) :=
  [⟨0, [.nt 0, .tm (.sym 0), .tm (.sym 1)], fun | [.nt x, _, .tok t] => .ok (x - t.2) | _ => .error 0⟩, ⟨0, [.tm (.sym 1)], fun | [.tok t] => .ok t.2 | _ => .error 0⟩]

/-- C94: the part must be derived from the non-terminal at its place: `3` and `5 - 2` are both derived from `E` and have the value 3, but in `10 - 3` the part `3` is not derived
from `E`, and `10 - 5 - 2` has another value. -/
theorem c94_needs_phrase : ∃ p, MakesParser idSeeds difference 0 p [] ∧ (∃ c, ParsesTo Prod.fst p [(1, 3)] (.ok 3) c) ∧
    (∃ c, ParsesTo Prod.fst p [(1, 5), (0, 0), (1, 2)] (.ok 3) c) ∧ (∃ c, ParsesTo Prod.fst p ([(1, 10), (0, 0)] ++ [(1, 3)]) (.ok 7) c) ∧
    ∃ c, ParsesTo Prod.fst p ([(1, 10), (0, 0)] ++ [(1, 5), (0, 0), (1, 2)]) (.ok 3) c :=
  ⟨⟨_, _⟩, ⟨⟨30, rfl, by simp⟩, fun _ => .ok 0, rfl⟩, ⟨_, 20, rfl⟩, ⟨_, 20, rfl⟩, ⟨_, 20, rfl⟩, ⟨_, 20, rfl⟩⟩

end Verif.Par
