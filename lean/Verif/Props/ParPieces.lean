import Verif.Par.PiecesProof
import Verif.Props.ParPlug

/-!
# Values when a grammar is put into another one

C76: parsing with the whole grammar gives what one gets by parsing the pieces of the inner grammar first and then the rest with the
values of the pieces as tokens.
-/

namespace Verif.Par

variable {N T E : Type}

theorem putRules_gram (t start start' : Nat) (rules : List (Rule N (Lump N T) E)) (rules' : List (Rule N T E)) :
    gram (putRules t start' rules rules') start = (gram rules start).put t (gram rules' start') := by
  simp [gram, putRules, Gram.put, Rule.plain, Rule.put, PRule.put, Function.comp_def]

/-- The piece `u` is a sentence of the inner grammar with the value `v`. -/
def HasValue (idx : T → Nat) (rules' : List (Rule N T E)) (start' : Nat) (p' : Parser N T E) (u : List T) (v : N) : Prop :=
  (gram rules' start').Sentence (u.map idx) ∧ ∃ c, ParsesTo idx p' u (.ok v) c

/-- C76: in two steps one gets the same: if each piece has a value, the whole gives what the outer parser gives for these values. -/
theorem c76_values (o o' o'' : Seeds) (ho : o.Fair) (ho' : o'.Fair) (ho'' : o''.Fair)
    (rules : List (Rule N (Lump N T) E)) (rules' : List (Rule N T E)) (start start' t : Nat)
    (hok : (gram rules start).Ok) (hok' : (gram rules' start').Ok) (hc : (gram rules start).Closed) (hc' : (gram rules' start').Closed)
    (ha : Apart (gram rules start) (gram rules' start')) (hn : ¬ (gram rules' start').Nullable) (hcy : ¬ (gram rules start).Cyclic)
    (hcy' : ¬ (gram rules' start').Cyclic) (ht : ¬ (gram rules start).Twice t)
    (p : Parser N (Lump N T) E) (hp : MakesParser o rules start p []) (p' : Parser N T E) (hp' : MakesParser o' rules' start' p' [])
    (q : Parser N T E) (ws : List Warning) (hq : MakesParser o'' (putRules t start' rules rules') start q ws)
    (idx : T → Nat) (ps : List (Lump N T)) (w : List T) (hs : (gram rules start).Sentence (ps.map (Lump.idx idx t)))
    (hw : Cuts idx t (HasValue idx rules' start' p') ps w) :
    ws = [] ∧
    (∀ v, (∃ c, ParsesTo idx q w (.ok v) c) ↔ ∃ c, ParsesTo (Lump.idx idx t) p ps (.ok v) c) ∧
    ∀ e, (∃ c, ParsesTo idx q w (.error (.reducer e)) c) ↔ ∃ c, ParsesTo (Lump.idx idx t) p ps (.error (.reducer e)) c := by
  have hg := putRules_gram t start start' rules rules'
  obtain ⟨tab'', h2⟩ := c76_no_warnings o o' o'' ho ho' ho'' _ _ t hok hok' hc hc' ha hn hcy' ht p.tab p'.tab hp.1 hp'.1
  obtain ⟨hk, _⟩ := c76_one_tree (T := T) o o' ho ho' _ _ t hok hok' hc hc' ha hn hcy hcy' ht p.tab p'.tab hp.1 hp'.1
  rw [← hg] at h2 hk
  have hws : ws = [] := by
    have := newGives_unique hq.1 h2
    simp only [Res.ok.injEq, Prod.mk.injEq] at this
    exact this.2
  subst hws
  refine ⟨rfl, ?_⟩
  have hokq : (gram (putRules t start' rules rules') start).Ok := by rw [hg]; exact put_ok hok hok'
  obtain ⟨f, hf⟩ := sentence_iff.1 hs
  have hM : ∀ u v, HasValue idx rules' start' p' u v → ∃ f, IsTree (rules'.map Rule.plain) start' idx u f ∧
      (True → ∃ lg, Evals rules' [f] lg (.ok [.nt v])) := by
    rintro u v ⟨h1, c, h3⟩
    obtain ⟨f, hf⟩ := sentence_iff.1 h1
    exact ⟨f, hf, fun _ => ⟨_, ((c30_evaluation o' ho' rules' start' hok' p' hp' hcy' idx u f hf c.log.reverse).1 v).2 ⟨c, h3, rfl⟩⟩⟩
  obtain ⟨fs, k1, k2, k3, k4⟩ := fill_tree (rules := rules) (rules' := rules') (t := t) (h' := start') True hM hf.1 hf.2.1 w
    (by rw [hf.2.2, List.zipIdx_map_fst]; exact hw) w [] [] (by simp)
  obtain ⟨f', rfl⟩ : ∃ f, fs = [f] := by
    match fs, k1.length with
    | [f], _ => exact ⟨f, rfl⟩
  have hf' : IsTree ((putRules t start' rules rules').map Rule.plain) start idx w f' := ⟨by simpa [Sym.put, gram] using k1, k2, k3⟩
  obtain ⟨lg, x, hx⟩ := Built.evals hf.1
  have a := c30_evaluation o ho rules start hok p hp hcy (Lump.idx idx t) ps f hf
  have a' := c30_evaluation o'' ho'' _ start hokq q hq hk idx w f' hf'
  have hone : (∃ v, x = .ok [.nt v]) ∨ ∃ e, x = .error e := by
    cases x with
    | error e => exact .inr ⟨e, rfl⟩
    | ok as =>
      left
      have h1 := hf.1
      cases h1 with
      | node r rule cs _ _ _ _ _ =>
        cases hx with
        | node _ _ _ _ _ v _ _ as _ _ _ h4 => cases h4; exact ⟨v, rfl⟩
  rcases hone with ⟨v0, rfl⟩ | ⟨e0, rfl⟩
  · obtain ⟨lg', hx'⟩ := (k4 trivial).1 _ _ hx
    obtain ⟨c1, g1, _⟩ := ((a lg).1 v0).1 hx
    obtain ⟨c2, g2, _⟩ := ((a' lg').1 v0).1 hx'
    refine ⟨fun v => ⟨?_, ?_⟩, fun e => ⟨?_, ?_⟩⟩ <;> rintro ⟨c, h⟩
    · cases (g2.unique h).1; exact ⟨_, g1⟩
    · cases (g1.unique h).1; exact ⟨_, g2⟩
    · cases (g2.unique h).1
    · cases (g1.unique h).1
  · obtain ⟨lg', hx'⟩ := (k4 trivial).2 _ _ hx
    obtain ⟨c1, g1, _⟩ := ((a lg).2 e0).1 hx
    obtain ⟨c2, g2, _⟩ := ((a' lg').2 e0).1 hx'
    refine ⟨fun v => ⟨?_, ?_⟩, fun e => ⟨?_, ?_⟩⟩ <;> rintro ⟨c, h⟩
    · cases (g2.unique h).1
    · cases (g1.unique h).1
    · cases (g2.unique h).1; exact ⟨_, g1⟩
    · cases (g1.unique h).1; exact ⟨_, g2⟩

/-- C76: if the callbacks of the outer grammar do not fail, the error of the first piece that fails is the result. -/
theorem c76_inner_error (o o' o'' : Seeds) (ho : o.Fair) (ho' : o'.Fair) (ho'' : o''.Fair)
    (rules : List (Rule N (Lump N T) E)) (rules' : List (Rule N T E)) (start start' t : Nat)
    (hok : (gram rules start).Ok) (hok' : (gram rules' start').Ok) (hc : (gram rules start).Closed) (hc' : (gram rules' start').Closed)
    (ha : Apart (gram rules start) (gram rules' start')) (hn : ¬ (gram rules' start').Nullable) (hcy : ¬ (gram rules start).Cyclic)
    (hcy' : ¬ (gram rules' start').Cyclic) (ht : ¬ (gram rules start).Twice t) (htot : ∀ r ∈ rules, ∀ args, ∃ v, r.gen args = .ok v)
    (p : Parser N (Lump N T) E) (hp : MakesParser o rules start p []) (p' : Parser N T E) (hp' : MakesParser o' rules' start' p' [])
    (q : Parser N T E) (ws : List Warning) (hq : MakesParser o'' (putRules t start' rules rules') start q ws)
    (idx : T → Nat) (ps₁ ps₂ : List (Lump N T)) (any : N) (w₁ u w₂ : List T) (e : E)
    (hs : (gram rules start).Sentence ((ps₁ ++ .val any :: ps₂).map (Lump.idx idx t)))
    (hw₁ : Cuts idx t (HasValue idx rules' start' p') ps₁ w₁)
    (hu : (gram rules' start').Sentence (u.map idx)) (hue : ∃ c, ParsesTo idx p' u (.error (.reducer e)) c)
    (hw₂ : Cuts idx t (fun u _ => (gram rules' start').Sentence (u.map idx)) ps₂ w₂) :
    ∃ c, ParsesTo idx q (w₁ ++ (u ++ w₂)) (.error (.reducer e)) c := by
  have hg := putRules_gram t start start' rules rules'
  obtain ⟨tab'', h2⟩ := c76_no_warnings o o' o'' ho ho' ho'' _ _ t hok hok' hc hc' ha hn hcy' ht p.tab p'.tab hp.1 hp'.1
  obtain ⟨hk, _⟩ := c76_one_tree (T := T) o o' ho ho' _ _ t hok hok' hc hc' ha hn hcy hcy' ht p.tab p'.tab hp.1 hp'.1
  rw [← hg] at h2 hk
  have hws : ws = [] := by
    have := newGives_unique hq.1 h2
    simp only [Res.ok.injEq, Prod.mk.injEq] at this
    exact this.2
  subst hws
  have hokq : (gram (putRules t start' rules rules') start).Ok := by rw [hg]; exact put_ok hok hok'
  obtain ⟨f, hf⟩ := sentence_iff.1 hs
  obtain ⟨f1, hf1⟩ := sentence_iff.1 hu
  obtain ⟨c, hue⟩ := hue
  have hev := ((c30_evaluation o' ho' rules' start' hok' p' hp' hcy' idx u f1 hf1 c.log.reverse).2 e).2 ⟨c, hue, rfl⟩
  obtain ⟨fs, k1, k2, k3, lg, k4⟩ := fill_fail (rules := rules) (rules' := rules') (t := t) (h' := start') htot (fun u v => by
      rintro ⟨h1, c, h3⟩
      obtain ⟨f, hf⟩ := sentence_iff.1 h1
      exact ⟨f, hf, _, ((c30_evaluation o' ho' rules' start' hok' p' hp' hcy' idx u f hf c.log.reverse).1 v).2 ⟨c, h3, rfl⟩⟩)
    (fun u v h => sentence_iff.1 h) hf1 hev hf.1 hf.2.1 ps₁ ps₂ any (by rw [hf.2.2, List.zipIdx_map_fst]) w₁ w₂ hw₁ hw₂ (w₁ ++ (u ++ w₂)) [] [] (by simp)
  obtain ⟨f', rfl⟩ : ∃ f, fs = [f] := by
    match fs, k1.length with
    | [f], _ => exact ⟨f, rfl⟩
  have hf' : IsTree ((putRules t start' rules rules').map Rule.plain) start idx (w₁ ++ (u ++ w₂)) f' := ⟨by simpa [Sym.put, gram] using k1, k2, k3⟩
  obtain ⟨c, g, _⟩ := ((c30_evaluation o'' ho'' _ start hokq q hq hk idx _ f' hf' lg).2 e).1 k4
  exact ⟨c, g⟩

/-! ## Example: lists of sums -/

/-- `L → L , x | x`: the values of the `x` in a list. -/
def sepRules : List (Rule (List Nat) (Lump (List Nat) (Nat × Nat)) Nat) := [
  ⟨0, [.nt 0, .tm (.sym 0), .tm (.sym 1)], fun
    | [.nt l, _, .tok (.val v)] => .ok (l ++ v)
    | _ => .ok []⟩,
  ⟨0, [.tm (.sym 1)], fun
    | [.tok (.val v)] => .ok v
    | _ => .ok []⟩]

/-- `E → E + n | n`: the sum; numbers from 100 on are an error. -/
def sumRules : List (Rule (List Nat) (Nat × Nat) Nat) := [
  ⟨5, [.nt 5, .tm (.sym 5), .tm (.sym 6)], fun
    | [.nt [k], _, .tok n] => if n.2 < 100 then .ok [k + n.2] else .error n.2
    | _ => .ok []⟩,
  ⟨5, [.tm (.sym 6)], fun
    | [.tok n] => if n.2 < 100 then .ok [n.2] else .error n.2
    | _ => .ok []⟩]

theorem sum_len (w : List Sym) (hw : Derives (gram sumRules 5).rules [.nt 5] w) : w = [.nt 5] ∨ Sym.tm (.sym 6) ∈ w := by
  induction hw with
  | refl => exact .inl rfl
  | step x y r _ hr _ =>
    right
    simp only [gram, sumRules, Rule.plain, List.map_cons, List.map_nil, List.mem_cons, List.not_mem_nil, or_false] at hr
    rcases hr with rfl | rfl <;> simp

theorem sum_closed : (gram sumRules 5).Closed := by
  constructor
  · exact ⟨_, List.mem_cons_self, rfl⟩
  · intro r hr n hn
    simp only [gram, sumRules, Rule.plain, List.map_cons, List.map_nil, List.mem_cons, List.not_mem_nil, or_false] at hr
    rcases hr with rfl | rfl <;> simp at hn
    subst hn
    exact ⟨_, List.mem_cons_self, rfl⟩

theorem sum_free : (gram sumRules 5).Free := by
  constructor
  · rintro ⟨r, hr, hn⟩
    simp only [gram, sumRules, Rule.plain, List.map_cons, List.map_nil, List.mem_cons, List.not_mem_nil, or_false] at hr
    rcases hr with rfl | rfl <;> simp at hn
  · decide

theorem sum_nullable : ¬ (gram sumRules 5).Nullable := by
  intro hn
  rcases sum_len _ hn with h | h <;> simp at h

theorem sum_cyclic : ¬ (gram sumRules 5).Cyclic := by
  rintro ⟨x, r, y, hr, _, hn⟩
  simp only [gram, sumRules, Rule.plain, List.map_cons, List.map_nil, List.mem_cons, List.not_mem_nil, or_false] at hr
  rcases hr with rfl | rfl
  · have := congrArg List.length hn
    simp at this
    omega
  · have : Sym.tm (.sym 6) ∈ [Sym.nt 5] := by
      have hn : _ = [Sym.nt _] := hn
      rw [gram] at hn
      rw [← hn]
      simp
    simp at this

theorem sep_cyclic : ¬ (gram sepRules 0).Cyclic := by
  rintro ⟨x, r, y, hr, _, hn⟩
  simp only [gram, sepRules, Rule.plain, List.map_cons, List.map_nil, List.mem_cons, List.not_mem_nil, or_false] at hr
  rcases hr with rfl | rfl
  · have := congrArg List.length hn
    simp at this
    omega
  · have : Sym.tm (.sym 1) ∈ [Sym.nt 0] := by
      have hn : _ = [Sym.nt _] := hn
      rw [gram] at hn
      rw [← hn]
      simp
    simp at this

theorem sep_makes : ∃ p, MakesParser idSeeds sepRules 0 p [] :=
  ⟨⟨_, _⟩, ⟨30, rfl, by simp⟩, fun _ => .ok [], rfl⟩

theorem sep_total : ∀ r ∈ sepRules, ∀ args, ∃ v, r.gen args = .ok v := by
  intro r hr args
  simp only [sepRules, List.mem_cons, List.not_mem_nil, or_false] at hr
  rcases hr with rfl | rfl <;> dsimp only <;> split <;> exact ⟨_, rfl⟩

def sumParser : Parser (List Nat) (Nat × Nat) Nat :=
  ⟨sumRules ++ [⟨0, [.nt 5], fun _ => .ok []⟩],
    match newTables 30 idSeeds (gram sumRules 5) with
    | .ok (tab, _) => tab
    | _ => ⟨[], [], [], 0⟩⟩

theorem sum_makes : MakesParser idSeeds sumRules 5 sumParser [] := ⟨⟨30, rfl, by simp⟩, fun _ => .ok [], rfl⟩

theorem sum_sentence1 : (gram sumRules 5).Sentence [6] :=
  .step _ [] [] ⟨5, [.tm (.sym 6)]⟩ (.refl _) (by simp [gram, sumRules, Rule.plain])

theorem sum_sentence2 : (gram sumRules 5).Sentence [6, 5, 6] :=
  .step _ [] [.tm (.sym 5), .tm (.sym 6)] ⟨5, [.tm (.sym 6)]⟩
    (.step _ [] [] ⟨5, [.nt 5, .tm (.sym 5), .tm (.sym 6)]⟩ (.refl _) (by simp [gram, sumRules, Rule.plain])) (by simp [gram, sumRules, Rule.plain])

/-- `1 + 2 , 7` gives `[3, 7]`. -/
example (q : Parser (List Nat) (Nat × Nat) Nat) (ws : List Warning) (hq : MakesParser idSeeds (putRules 1 5 sepRules sumRules) 0 q ws) :
    ∃ c, ParsesTo Prod.fst q [(6, 1), (5, 0), (6, 2), (0, 0), (6, 7)] (.ok [3, 7]) c := by
  have h3 : HasValue Prod.fst sumRules 5 sumParser [(6, 1), (5, 0), (6, 2)] [3] := ⟨sum_sentence2, _, 20, rfl⟩
  have h7 : HasValue Prod.fst sumRules 5 sumParser [(6, 7)] [7] := ⟨sum_sentence1, _, 20, rfl⟩
  let p : Parser (List Nat) (Lump (List Nat) (Nat × Nat)) Nat := ⟨sepRules ++ [⟨1, [.nt 0], fun _ => .ok []⟩],
    match newTables 30 idSeeds (gram sepRules 0) with
    | .ok (tab, _) => tab
    | _ => ⟨[], [], [], 0⟩⟩
  have hp : MakesParser idSeeds sepRules 0 p [] := ⟨⟨30, rfl, by simp⟩, fun _ => .ok [], rfl⟩
  refine ((c76_values idSeeds idSeeds idSeeds idSeeds_fair idSeeds_fair idSeeds_fair sepRules sumRules 0 5 1 (by decide) (by decide)
    gSep_closed sum_closed sum_free.sep sum_nullable sep_cyclic sum_cyclic gSep_once p hp sumParser sum_makes q ws hq Prod.fst
    [.val [3], .tok (0, 0), .val [7]] _ ((gSep_sentence _).2 ⟨1, rfl⟩)
    (.fill [(6, 1), (5, 0), (6, 2)] _ _ _ h3 (.keep (0, 0) _ _ (by decide) (.fill [(6, 7)] _ _ _ h7 .nil)))).2.1 _).2 ⟨_, 20, rfl⟩

/-- `1 , 100 , 200` gives the error 100. -/
example (q : Parser (List Nat) (Nat × Nat) Nat) (ws : List Warning) (hq : MakesParser idSeeds (putRules 1 5 sepRules sumRules) 0 q ws) :
    ∃ c, ParsesTo Prod.fst q [(6, 1), (0, 0), (6, 100), (0, 0), (6, 200)] (.error (.reducer 100)) c := by
  have h1 : HasValue Prod.fst sumRules 5 sumParser [(6, 1)] [1] := ⟨sum_sentence1, _, 20, rfl⟩
  obtain ⟨p, hp⟩ := sep_makes
  exact c76_inner_error idSeeds idSeeds idSeeds idSeeds_fair idSeeds_fair idSeeds_fair sepRules sumRules 0 5 1 (by decide) (by decide)
    gSep_closed sum_closed sum_free.sep sum_nullable sep_cyclic sum_cyclic gSep_once sep_total p hp sumParser sum_makes q ws hq Prod.fst
    [.val [1], .tok (0, 0)] [.tok (0, 0), .val []] [] [(6, 1), (0, 0)] [(6, 100)] [(0, 0), (6, 200)] 100 ((gSep_sentence _).2 ⟨2, rfl⟩)
    (.fill [(6, 1)] _ _ _ h1 (.keep (0, 0) _ _ (by decide) .nil)) sum_sentence1 ⟨_, 20, rfl⟩
    (.keep (0, 0) _ _ (by decide) (.fill [(6, 200)] _ _ _ sum_sentence1 .nil))

end Verif.Par
