import Verif.Par.GenProof
import Verif.Props.ParSeeds

/-!
# The macro `parser!`: C36
-/

namespace Verif.Par

variable {N T E : Type}

/-- What is known when names can be resolved. -/
theorem resolve {m : MacroInput N T E} {direct : List (Rule N T E)} {start : Nat} (hm : m.Means direct start)
    (hs : (m.symbols.map Prod.snd).Nodup) :
    ∃ raw st, bnfRules (nameMap (m.tokens.map Prod.fst)) (nameMap (m.symbols.map Prod.fst)) none m.rules = some raw ∧
      get m.start (nameMap (m.symbols.map Prod.fst)) = some st ∧
      arrFun (m.symbols.map Prod.snd) st = start ∧ st < m.symbols.length ∧
      direct.map Rule.plain = (raw.map rawRule).map (PRule.ren (arrFun (m.tokens.map Prod.snd)) (arrFun (m.symbols.map Prod.snd))) ∧
      allSome (emitRule (m.tokens.map Prod.snd) (m.symbols.map Prod.snd)) ((raw.zip m.rules).map fun x => (x.1.1, x.1.2, x.2.gen)) = some direct ∧
      (⟨raw.map rawRule, st⟩ : Gram).Ok ∧ (∀ r ∈ raw.map rawRule, ∀ X ∈ r.rhs, InRange m.tokens.length m.symbols.length X) ∧
      ((∃ r ∈ direct, r.lhs = start) → ∃ r ∈ raw.map rawRule, r.lhs = st) := by
  obtain ⟨h1, h2⟩ := hm
  obtain ⟨raw, hraw⟩ := bnfRules_of_mean h1 none (by simp)
  obtain ⟨st, hst, hst2⟩ := (nameMap_lastNamed _ _ _).1 h2
  obtain ⟨d, d1, d2, d3, d4⟩ := bnfRules_mean (m := m) (f := arrFun (m.tokens.map Prod.snd)) (h := arrFun (m.symbols.map Prod.snd))
    (fun i n => arrFun_get) (fun i n => arrFun_get) (by simp) hraw
  have hd := h1.unique d1
  subst hd
  refine ⟨raw, st, hraw, hst, arrFun_get hst2, by simpa using nameMap_lt _ hst, d2, d3, ?_, fun r hr => (d4 r hr).2, ?_⟩
  · intro r hr he
    obtain ⟨x, _, rfl⟩ := List.mem_map.1 hr
    simp only [rawRule, Rule.plain, ruleNewRaw, List.mem_map] at he
    obtain ⟨y, _, hy⟩ := he
    cases y <;> simp at hy
  · rintro ⟨r, hr, he⟩
    have : r.plain ∈ direct.map Rule.plain := List.mem_map.2 ⟨r, hr, rfl⟩
    rw [d2] at this
    obtain ⟨r', hr', he'⟩ := List.mem_map.1 this
    refine ⟨r', hr', arrFun_inj hs _ _ ?_⟩
    rw [arrFun_get hst2, ← he]
    exact congrArg PRule.lhs he'

/-- Renaming the rules of a grammar with the start rule. -/
theorem aug_ren {raw : List PRule} {st fresh : Nat} {f h : Nat → Nat} :
    ((⟨raw, st⟩ : Gram).aug fresh).map (PRule.ren f h) = (⟨raw.map (PRule.ren f h), h st⟩ : Gram).aug (h fresh) := by
  simp [Gram.aug, PRule.ren, Sym.ren]

theorem used_ren {raw : List PRule} {st n : Nat} {f h : Nat → Nat} (hh : ∀ a b, h a = h b → a = b)
    (hn : ¬ (⟨raw, st⟩ : Gram).Used n) : ¬ (⟨raw.map (PRule.ren f h), h st⟩ : Gram).Used (h n) := by
  rintro ⟨r', hr', he⟩
  obtain ⟨r, hr, rfl⟩ := List.mem_map.1 hr'
  refine hn ⟨r, hr, ?_⟩
  rcases he with he | he
  · exact Or.inl (hh _ _ he)
  · right
    simp only [PRule.ren, List.mem_map] at he
    obtain ⟨X, hX, he⟩ := he
    cases X with
    | tm t => cases he
    | nt k =>
      simp only [Sym.ren, Sym.nt.injEq] at he
      rw [← hh _ _ he]; exact hX

theorem start_ne_fresh {g : Gram} (h : ∃ r ∈ g.rules, r.lhs = g.start) {n : Nat} (hn : ¬ g.Used n) : g.start ≠ n := by
  rintro rfl
  obtain ⟨r, hr, he⟩ := h
  exact hn ⟨r, hr, Or.inl he⟩

/-- The tables of the emitted parser. -/
theorem emitted {m : MacroInput N T E} {direct : List (Rule N T E)} {start : Nat} (hm : m.Means direct start)
    (ht : (m.tokens.map Prod.snd).Nodup) (hs : (m.symbols.map Prod.snd).Nodup) (hstart : ∃ r ∈ direct, r.lhs = start)
    {o : Seeds} (ho : o.Fair) {go : GSeeds} (hgo : go.Fair) :
    (∀ fuel, macroParser fuel o go m = .panic → Bad (gram direct start).rules' (gram direct start).rules.length) ∧
    (∀ fuel g, macroParser fuel o go m = .ok g → ∃ tab, g.run = some ⟨direct, tab⟩ ∧
      Canonical (gram direct start).rules' (gram direct start).rules.length tab ∧ ¬ Bad (gram direct start).rules' (gram direct start).rules.length) ∧
    ∃ fuel, macroParser fuel o go m ≠ .fuel := by
  obtain ⟨raw, st, h1, h2, h3, h4, h5, h6, h7, h8, h9⟩ := resolve hm hs
  have hst := h9 hstart
  generalize hf : arrFun (m.tokens.map Prod.snd) = f at *
  generalize hh : arrFun (m.symbols.map Prod.snd) = h at *
  have hfi : ∀ a b, f a = f b → a = b := by rw [← hf]; exact arrFun_inj ht
  have hhi : ∀ a b, h a = h b → a = b := by rw [← hh]; exact arrFun_inj hs
  have hg : (gram direct start) = ⟨(raw.map rawRule).map (PRule.ren f h), h st⟩ := by
    simp only [gram, h5, h3]
  have hlen : (gram direct start).rules.length = (raw.map rawRule).length := by rw [hg]; simp
  have hfr1 := freshSym_unused ⟨raw.map rawRule, st⟩
  have hfr1' := used_ren (f := f) hhi hfr1
  have hfr2 := freshSym_unused (gram direct start)
  have hs1 : h st ≠ h (freshSym (raw.map rawRule)) := fun he => start_ne_fresh (g := ⟨raw.map rawRule, st⟩) hst hfr1 (hhi _ _ he)
  have hs2 : (gram direct start).start ≠ freshSym (gram direct start).rules := by
    refine start_ne_fresh ?_ hfr2
    obtain ⟨r, hr, he⟩ := hstart
    exact ⟨r.plain, List.mem_map.2 ⟨r, hr, rfl⟩, he⟩
  have hnew := new_spec_full ho h7
  have hbad : Bad (⟨raw.map rawRule, st⟩ : Gram).rules' (raw.map rawRule).length ↔ Bad (gram direct start).rules' (gram direct start).rules.length := by
    rw [← bad_ren hfi hhi, Gram.rules', aug_ren, hlen, hg]
    rw [hg] at hfr2 hs2
    have hl : (raw.map rawRule).length = (⟨(raw.map rawRule).map (PRule.ren f h), h st⟩ : Gram).rules.length := by simp
    rw [hl]
    exact ⟨Bad.refresh hfr1' hfr2 hs1 hs2, Bad.refresh hfr2 hfr1' hs2 hs1⟩
  unfold macroParser
  simp only [h1, h2]
  refine ⟨?_, ?_, enough (⟨raw.map rawRule, st⟩ : Gram).rules', ?_⟩
  · intro fuel hp
    split at hp
    · rename_i hn
      exact hbad.1 ((hnew fuel).2.1 hn)
    · cases hp
    · cases hp
  · intro fuel g hp
    split at hp
    · cases hp
    · cases hp
    rename_i T ws hn
    cases hp
    obtain ⟨c1, _, c3, c4⟩ := (hnew fuel).1 T ws hn
    have hk := newTables_keys ho hn
    have hin : ∀ X, (∃ r ∈ (⟨raw.map rawRule, st⟩ : Gram).rules', X ∈ r.rhs) → InRange m.tokens.length m.symbols.length X := by
      rintro X ⟨r, hr, hX⟩
      rcases List.mem_append.1 hr with hr | hr
      · exact h8 r hr X hX
      · simp at hr
        subst hr
        simp at hX
        subst hX
        exact h4
    obtain ⟨A, G, Er, e1, e2, e3, e4⟩ := emit_tables ht hs hk hgo (by
      intro q a x hx
      rcases c4.action q a x hx with rfl | hr
      · exact ⟨_, rfl⟩
      · have := hin _ hr
        cases a with
        | sym s =>
          refine ⟨.sym ((m.tokens.map Prod.snd)[s]'(by simpa [InRange] using this)), ?_⟩
          simp only [keyOf]
          rw [List.getElem?_eq_getElem (by simpa [InRange] using this)]
          rfl
        | err => exact ⟨_, rfl⟩
        | eoi => exact ⟨_, rfl⟩) (by
      intro q n x hx
      have := hin _ (c4.goto q n x hx)
      exact ⟨_, List.getElem?_eq_getElem (by simpa [InRange] using this)⟩) c1.errors_ne
    refine ⟨⟨A, G, Er, T.start⟩, ?_, ?_, fun hb => c3 (hbad.2 hb)⟩
    · unfold GProgram.run
      simp only [e1, e2, e3, h6]
    · rw [hf, hh] at e4
      have := c1.ren hfi hhi e4
      rw [Gram.rules', aug_ren] at this
      rw [hg] at hfr2 hs2 ⊢
      have hl : (raw.map rawRule).length = (⟨(raw.map rawRule).map (PRule.ren f h), h st⟩ : Gram).rules.length := by simp
      simp only at this
      rw [hl] at this
      exact this.refresh hfr1' hfr2 hs1 hs2
  · split
    · simp
    · rename_i hn; exact absurd hn ((hnew _).2.2 (Nat.le_refl _))
    · simp

theorem Means.ok {m : MacroInput N T E} {direct : List (Rule N T E)} {start : Nat} (hm : m.Means direct start)
    (hs : (m.symbols.map Prod.snd).Nodup) : (gram direct start).Ok := by
  obtain ⟨raw, st, _, _, _, _, h5, _, h7, _⟩ := resolve hm hs
  intro r hr he
  simp only [gram, h5] at hr
  obtain ⟨r', hr', rfl⟩ := List.mem_map.1 hr
  simp only [PRule.ren, List.mem_map] at he
  obtain ⟨X, hX, he⟩ := he
  cases X with
  | nt n => cases he
  | tm t =>
    cases t with
    | sym s => simp [Sym.ren, Term.ren] at he
    | err => simp [Sym.ren, Term.ren] at he
    | eoi => exact h7 _ hr' hX

/-- C36: the parser made by `parser!` behaves like the parser that `LR1Parser::new` makes from the rules as written, on every
input and for all hash seeds: same result, same calls of callbacks in the same order, same number of pulls, same panics and
endless runs. -/
theorem c36_same_outcome (m : MacroInput N T E) (direct : List (Rule N T E)) (start : Nat) (hm : m.Means direct start)
    (ht : (m.tokens.map Prod.snd).Nodup) (hs : (m.symbols.map Prod.snd).Nodup) (hstart : ∃ r ∈ direct, r.lhs = start)
    (o o' : Seeds) (ho : o.Fair) (ho' : o'.Fair) (go : GSeeds) (hgo : go.Fair) (p p' : Parser N T E) (ws : List Warning)
    (hp : MacroGives o go m p) (hp' : MakesParser o' direct start p' ws) (idx : T → Nat) (input : List T) :
    (∀ x l n, (∃ c, ParsesTo idx p input x c ∧ c.log = l ∧ c.pulls = n) ↔ ∃ c, ParsesTo idx p' input x c ∧ c.log = l ∧ c.pulls = n) ∧
    (ParsePanics idx p input ↔ ParsePanics idx p' input) ∧ (ParseDiverges idx p input ↔ ParseDiverges idx p' input) := by
  obtain ⟨fuel, g, h1, h2⟩ := hp
  obtain ⟨tab, h3, ha, _⟩ := (emitted hm ht hs hstart ho hgo).2.1 fuel g h1
  rw [h2] at h3; cases h3
  obtain ⟨⟨fuel', hp1', _⟩, d', hp2'⟩ := hp'
  have hok := Means.ok hm hs
  have hb := ((new_spec ho' hok fuel').1 _ _ hp1').1
  have hrules : ∀ r rule, (gram direct start).rules'[r]? = some rule → r ≠ (gram direct start).rules.length → p'.rules[r]? = direct[r]? := by
    intro r rule hr hne
    have hl := (List.getElem?_eq_some_iff.1 hr).1
    rw [rules'_length] at hl
    have : r < direct.length := by
      simp only [gram, List.length_map] at hl hne
      omega
    rw [hp2', List.getElem?_append_left this]
  obtain ⟨k1, k2, k3⟩ := same_outcome (p := ⟨direct, tab⟩) (p' := p') ha hb hrules idx input
  obtain ⟨l1, l2, l3⟩ := same_outcome (p := p') (p' := ⟨direct, tab⟩) hb ha (fun r rule hr hne => (hrules r rule hr hne).symm) idx input
  refine ⟨?_, ⟨k2, l2⟩, ⟨k3, l3⟩⟩
  intro x l n
  constructor
  · rintro ⟨c, m1, m2, m3⟩
    obtain ⟨c', m4, m5, m6⟩ := k1 x c m1
    exact ⟨c', m4, m5.trans m2, m6.trans m3⟩
  · rintro ⟨c, m1, m2, m3⟩
    obtain ⟨c', m4, m5, m6⟩ := l1 x c m1
    exact ⟨c', m4, m5.trans m2, m6.trans m3⟩

/-- C36: `parser!` expands, into a function that does not panic, exactly if `LR1Parser::new` does not panic on the rules as written. -/
theorem c36_expands_iff (m : MacroInput N T E) (direct : List (Rule N T E)) (start : Nat) (hm : m.Means direct start)
    (ht : (m.tokens.map Prod.snd).Nodup) (hs : (m.symbols.map Prod.snd).Nodup) (hstart : ∃ r ∈ direct, r.lhs = start)
    (o o' : Seeds) (ho : o.Fair) (ho' : o'.Fair) (go : GSeeds) (hgo : go.Fair) :
    (MacroPanics o go m ↔ NewGives o' (gram direct start) .panic) ∧
    (¬ MacroPanics o go m → ∃ p, MacroGives o go m p ∧ p.rules = direct) ∧
    ∀ fuel g, macroParser fuel o go m = .ok g → ∃ p, g.run = some p := by
  obtain ⟨e1, e2, e3⟩ := emitted hm ht hs hstart ho hgo
  have hok := Means.ok hm hs
  obtain ⟨fuel, hf⟩ := e3
  refine ⟨⟨?_, ?_⟩, ?_, ?_⟩
  · rintro ⟨fuel, h⟩
    have hb := e1 fuel h
    obtain ⟨x, ⟨fuel', h1, h2⟩, _⟩ := c20_new_terminates o' ho' _ hok
    cases x with
    | fuel => exact absurd rfl h2
    | panic => exact ⟨fuel', h1, h2⟩
    | ok x => exact absurd hb ((new_spec ho' hok fuel').1 x.1 x.2 h1).2.2
  · rintro ⟨fuel', h1, _⟩
    have hb := (new_spec ho' hok fuel').2.1 h1
    cases hx : macroParser fuel o go m with
    | fuel => exact absurd hx hf
    | panic => exact ⟨fuel, hx⟩
    | ok g =>
      obtain ⟨tab, _, _, h3⟩ := e2 fuel g hx
      exact absurd hb h3
  · intro hn
    cases hx : macroParser fuel o go m with
    | fuel => exact absurd hx hf
    | panic => exact absurd ⟨fuel, hx⟩ hn
    | ok g =>
      obtain ⟨tab, h1, _⟩ := e2 fuel g hx
      exact ⟨_, ⟨fuel, g, hx, h1⟩, rfl⟩
  · intro fuel g hx
    obtain ⟨tab, h1, _⟩ := e2 fuel g hx
    exact ⟨_, h1⟩

/-- C36: if a name is not declared, the start symbol is not declared or the first rule begins with `|`, `parser!` panics. -/
theorem c36_undeclared_panics (m : MacroInput N T E) (hm : ¬ ∃ direct start, m.Means direct start) (o : Seeds) (go : GSeeds) :
    MacroPanics o go m := by
  refine ⟨0, ?_⟩
  unfold macroParser
  simp only
  cases h1 : bnfRules (nameMap (m.tokens.map Prod.fst)) (nameMap (m.symbols.map Prod.fst)) none m.rules with
  | none => rfl
  | some raw =>
    simp only
    cases h2 : get m.start (nameMap (m.symbols.map Prod.fst)) with
    | none => rfl
    | some st =>
      exfalso
      obtain ⟨d, d1, _⟩ := bnfRules_mean (m := m) (f := arrFun (m.tokens.map Prod.snd)) (h := arrFun (m.symbols.map Prod.snd))
        (fun i n => arrFun_get) (fun i n => arrFun_get) (by simp) h1
      obtain ⟨n, _, h3⟩ := nameMap_get h2
      exact hm ⟨d, n, d1, h3⟩

/-! ## Cases -/

/-- The macro writes maps in the order they have in the model. -/
def idGSeeds : GSeeds := ⟨id, id, id, id, id, id⟩

theorem idGSeeds_fair : idGSeeds.Fair :=
  ⟨fun l => .refl l, fun l => .refl l, fun l => .refl l, fun l => .refl l, fun l => .refl l, fun l => .refl l⟩

/-- The macro writes rows in the opposite order. -/
def revGSeeds : GSeeds := { idGSeeds with row := List.reverse }

theorem revGSeeds_fair : revGSeeds.Fair := { idGSeeds_fair with row := fun l => l.reverse_perm }

/-- ```
tokens { [X] = Tok 7, [Y] = Tok 5 }, symbols { <A> = Sym 3, <S> = Sym 4 }, start <S>,
<S> : [X] <A>
    | <A>
<A> : [Y]
``` -/
def macroEx : MacroInput Nat Nat Unit where
  tokens := [(.named "X", 7), (.named "Y", 5)]
  symbols := [("A", 3), ("S", 4)]
  start := "S"
  rules := [⟨.named "S", [.tok (.named "X"), .nt "A"], fun _ => .ok 1⟩, ⟨.follow, [.nt "A"], fun _ => .ok 2⟩,
    ⟨.named "A", [.tok (.named "Y")], fun _ => .ok 3⟩]

/-- The rules it stands for. -/
def macroExRules : List (Rule Nat Nat Unit) :=
  [⟨4, [.tm (.sym 7), .nt 3], fun _ => .ok 1⟩, ⟨4, [.nt 3], fun _ => .ok 2⟩, ⟨3, [.tm (.sym 5)], fun _ => .ok 3⟩]

theorem macroEx_means : macroEx.Means macroExRules 4 := by
  have hX : LastNamed macroEx.tokens (.named "X") 7 := ⟨[], _, rfl, by decide⟩
  have hY : LastNamed macroEx.tokens (.named "Y") 5 := ⟨[_], [], rfl, by decide⟩
  have hA : LastNamed macroEx.symbols "A" 3 := ⟨[], _, rfl, by decide⟩
  have hS : LastNamed macroEx.symbols "S" 4 := ⟨[_], [], rfl, by decide⟩
  refine ⟨.named _ _ _ _ _ _ _ _ hS (.cons _ _ _ _ (.tok _ _ hX) (.cons _ _ _ _ (.nt _ _ hA) .nil))
    (.follow _ _ _ _ _ _ (.cons _ _ _ _ (.nt _ _ hA) .nil) (.named _ _ _ _ _ _ _ _ hA (.cons _ _ _ _ (.tok _ _ hY) .nil) (.nil _))), hS⟩

/-- The hypotheses of the theorems can be met, and the emitted parser works. -/
example : macroEx.Means macroExRules 4 ∧ (macroEx.tokens.map Prod.snd).Nodup ∧ (macroEx.symbols.map Prod.snd).Nodup ∧
    (∃ r ∈ macroExRules, r.lhs = 4) ∧ ∃ p, MacroGives idSeeds idGSeeds macroEx p ∧ ∃ c, ParsesTo id p [7, 5] (.ok 1) c := by
  refine ⟨macroEx_means, by decide, by decide, ⟨_, List.mem_cons_self, rfl⟩, _, ⟨20, _, rfl, rfl⟩, _, 20, rfl⟩

/-- Undeclared names and a leading `|`. -/
example : MacroPanics idSeeds idGSeeds { macroEx with start := "B" } := ⟨0, rfl⟩
example : MacroPanics idSeeds idGSeeds ({ macroEx with rules := [⟨.follow, [], fun _ => .ok 0⟩] } : MacroInput Nat Nat Unit) := ⟨0, rfl⟩

/-- ```
tokens { [X] = Tok 0, [Y] = Tok 0, [Z] = Tok 1 }, symbols { <S> = Sym 0 }, start <S>,
<S> : [X]
    | [Y] [Z]
``` -/
def macroDup : MacroInput Nat Nat Unit where
  tokens := [(.named "X", 0), (.named "Y", 0), (.named "Z", 1)]
  symbols := [("S", 0)]
  start := "S"
  rules := [⟨.named "S", [.tok (.named "X")], fun _ => .ok 1⟩, ⟨.follow, [.tok (.named "Y"), .tok (.named "Z")], fun _ => .ok 2⟩]

def macroDupRules : List (Rule Nat Nat Unit) :=
  [⟨0, [.tm (.sym 0)], fun _ => .ok 1⟩, ⟨0, [.tm (.sym 0), .tm (.sym 1)], fun _ => .ok 2⟩]

theorem macroDup_means : macroDup.Means macroDupRules 0 := by
  have hX : LastNamed macroDup.tokens (.named "X") 0 := ⟨[], _, rfl, by decide⟩
  have hY : LastNamed macroDup.tokens (.named "Y") 0 := ⟨[_], _, rfl, by decide⟩
  have hZ : LastNamed macroDup.tokens (.named "Z") 1 := ⟨[_, _], [], rfl, by decide⟩
  have hS : LastNamed macroDup.symbols "S" 0 := ⟨[], _, rfl, by decide⟩
  exact ⟨.named _ _ _ _ _ _ _ _ hS (.cons _ _ _ _ (.tok _ _ hX) .nil)
    (.follow _ _ _ _ _ _ (.cons _ _ _ _ (.tok _ _ hY) (.cons _ _ _ _ (.tok _ _ hZ) .nil)) (.nil _)), hS⟩

/-- The parser that `new` makes from these rules. -/
def macroDupDirect : Parser Nat Nat Unit :=
  ⟨macroDupRules ++ [⟨1, [.nt 0], fun _ => .ok 0⟩],
    ⟨[(0, [(.sym 0, .shift 1)]), (1, [(.sym 1, .shift 3), (.eoi, .reduce 0)]), (2, [(.eoi, .accept)]), (3, [(.eoi, .reduce 1)])],
      [(0, [(0, 2)])], [], 0⟩⟩

/-- C36, the limit: if two names stand for the same enum variant, the emitted parser depends on the hash seeds of the
compiler run, and under each of them rejects a sentence that the parser made by `LR1Parser::new` accepts.  There is no warning. -/
theorem c36_duplicate_variant :
    macroDup.Means macroDupRules 0 ∧ (∃ r ∈ macroDupRules, r.lhs = 0) ∧ (macroDup.symbols.map Prod.snd).Nodup ∧
    MakesParser idSeeds macroDupRules 0 macroDupDirect [] ∧
    (∃ c, ParsesTo id macroDupDirect [0] (.ok 1) c) ∧ (∃ c, ParsesTo id macroDupDirect [0, 1] (.ok 2) c) ∧
    (∃ p, MacroGives idSeeds idGSeeds macroDup p ∧ (∃ e c, ParsesTo id p [0] (.error e) c) ∧ ∃ c, ParsesTo id p [0, 1] (.ok 2) c) ∧
    ∃ p, MacroGives idSeeds revGSeeds macroDup p ∧ (∃ c, ParsesTo id p [0] (.ok 1) c) ∧ ∃ e c, ParsesTo id p [0, 1] (.error e) c := by
  refine ⟨macroDup_means, ⟨_, List.mem_cons_self, rfl⟩, by decide, ⟨⟨20, rfl, by simp⟩, _, rfl⟩, ⟨_, 20, rfl⟩, ⟨_, 20, rfl⟩,
    ⟨_, ⟨20, _, rfl, rfl⟩, ⟨_, _, 20, rfl⟩, _, 20, rfl⟩, ⟨_, ⟨20, _, rfl, rfl⟩, ⟨_, 20, rfl⟩, _, _, 20, rfl⟩⟩

/-- ```
tokens { [X] = Tok 0 }, symbols { <A> = Sym 1, <S> = Sym 0 }, start <S>
``` -/
def macroNoStart : MacroInput Nat Nat Unit where
  tokens := [(.named "X", 0)]
  symbols := [("A", 1), ("S", 0)]
  start := "S"
  rules := []

/-- C36, the limit: if the start symbol has no rule, `parser!` may panic where `LR1Parser::new` does not. -/
theorem c36_no_start_rule : macroNoStart.Means [] 0 ∧ MacroPanics idSeeds idGSeeds macroNoStart ∧
    ∃ T ws, NewGives idSeeds (gram ([] : List (Rule Nat Nat Unit)) 0) (.ok (T, ws)) := by
  refine ⟨⟨.nil _, [_], [], rfl, by decide⟩, ⟨20, rfl⟩, _, _, 20, rfl, by simp⟩

end Verif.Par
