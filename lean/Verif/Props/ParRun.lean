import Verif.Par.SoundProof
import Verif.Props.ParTables

/-!
# Properties of `parse` for all grammars: C23, C29, C33, C34
-/

namespace Verif.Par

variable {N T E : Type}

/-! ## Example parsers -/

/-- `S → a S | b`, counting. -/
def rRight : List (Rule Nat Nat Nat) :=
  [⟨0, [.tm (.sym 0), .nt 0], fun l => match l with
      | [_, .nt n] => .ok (n + 1)
      | _ => .error 0⟩,
   ⟨0, [.tm (.sym 1)], fun _ => .ok 0⟩]

def pRight : Parser Nat Nat Nat := ⟨rRight ++ [⟨1, [.nt 0], fun _ => .error 0⟩], tRight⟩

theorem pRight_makes : MakesParser idSeeds rRight 0 pRight [] := ⟨gRight_new, _, rfl⟩

/-- Rules whose callbacks count their arguments. -/
def plainRules (g : Gram) : List (Rule Nat Nat Nat) := g.rules.map fun r => ⟨r.lhs, r.rhs, fun l => .ok l.length⟩

/-- `A → x y z | error y w` -/
def gOver : Gram := ⟨[⟨0, [.tm (.sym 0), .tm (.sym 1), .tm (.sym 2)]⟩, ⟨0, [.tm .err, .tm (.sym 1), .tm (.sym 3)]⟩], 0⟩

def tOver : Tables :=
  { action := [(0, [(.sym 0, .shift 1), (.err, .shift 2)]), (1, [(.sym 1, .shift 4)]), (2, [(.sym 1, .shift 5)]), (3, [(.eoi, .accept)]),
      (4, [(.sym 2, .shift 6)]), (5, [(.sym 3, .shift 7)]), (6, [(.eoi, .reduce 0)]), (7, [(.eoi, .reduce 1)])]
    goto := [(0, [(0, 3)])]
    errors := [(0, [1])]
    start := 0 }

def pOver : Parser Nat Nat Nat := ⟨plainRules gOver ++ [⟨1, [.nt 0], fun _ => .error 0⟩], tOver⟩

theorem pOver_makes : MakesParser idSeeds (plainRules gOver) 0 pOver [] := ⟨⟨10, by decide, by simp⟩, _, rfl⟩

/-- `F → error` -/
def gErr : Gram := ⟨[⟨0, [.tm .err]⟩], 0⟩

def pErr : Parser Nat Nat Nat :=
  ⟨plainRules gErr ++ [⟨1, [.nt 0], fun _ => .error 0⟩],
   { action := [(0, [(.err, .shift 1)]), (1, [(.eoi, .reduce 0)]), (2, [(.eoi, .accept)])]
     goto := [(0, [(0, 2)])]
     errors := [(0, [0])]
     start := 0 }⟩

theorem pErr_makes : MakesParser idSeeds (plainRules gErr) 0 pErr [] := ⟨⟨10, by decide, by simp⟩, _, rfl⟩

/-- `A → x error | x y` -/
def gTail : Gram := ⟨[⟨0, [.tm (.sym 0), .tm .err]⟩, ⟨0, [.tm (.sym 0), .tm (.sym 1)]⟩], 0⟩

def pTail : Parser Nat Nat Nat :=
  ⟨plainRules gTail ++ [⟨1, [.nt 0], fun _ => .error 0⟩],
   { action := [(0, [(.sym 0, .shift 1)]), (1, [(.err, .shift 3), (.sym 1, .shift 4)]), (2, [(.eoi, .accept)]), (3, [(.eoi, .reduce 0)]),
       (4, [(.eoi, .reduce 1)])]
     goto := [(0, [(0, 2)])]
     errors := [(1, [0])]
     start := 0 }⟩

theorem pTail_makes : MakesParser idSeeds (plainRules gTail) 0 pTail [] := ⟨⟨10, by decide, by simp⟩, _, rfl⟩

/-- `S → E x y | error; E → ε` -/
def gEps : Gram := ⟨[⟨0, [.nt 1, .tm (.sym 0), .tm (.sym 1)]⟩, ⟨0, [.tm .err]⟩, ⟨1, []⟩], 0⟩

def pEps : Parser Nat Nat Nat :=
  ⟨plainRules gEps ++ [⟨2, [.nt 0], fun _ => .error 0⟩],
   { action := [(0, [(.err, .shift 2), (.sym 0, .reduce 2)]), (1, [(.sym 0, .shift 4)]), (2, [(.eoi, .reduce 1)]), (3, [(.eoi, .accept)]),
       (4, [(.sym 1, .shift 5)]), (5, [(.eoi, .reduce 0)])]
     goto := [(0, [(1, 1), (0, 3)])]
     errors := [(0, [1])]
     start := 0 }⟩

theorem pEps_makes : MakesParser idSeeds (plainRules gEps) 0 pEps [] := ⟨⟨10, by decide, by simp⟩, _, rfl⟩

/-! ## C23 -/

/-- C23: if `parse` returns `Ok(v)` then there is a derivation tree of the start symbol (`Built`) that evaluates to `v`.
Its tokens are tokens of the input in input order; error leaves are non-empty contiguous pieces of the input.  If it has
no error leaf, its leaves are the whole input and the callbacks that were called are exactly those of the tree. -/
theorem c23_sound (o : Seeds) (ho : o.Fair) (rules : List (Rule N T E)) (start : Nat) (hok : (gram rules start).Ok)
    (p : Parser N T E) (ws : List Warning) (hp : MakesParser o rules start p ws) (idx : T → Nat) (input : List T) (v : N)
    (c : Cfg N T) (h : ParsesTo idx p input (.ok v) c) :
    ∃ f calls, Built (rules.map Rule.plain) idx input [.nt start] [f] ∧ Evals rules [f] calls (.ok [.nt v]) ∧
      (leaves [f]).Pairwise (fun x y => x.2 < y.2) ∧ calls.Sublist c.log.reverse ∧
      (errs [f] = [] → leaves [f] = input.zipIdx ∧ calls = c.log.reverse) := by
  obtain ⟨fresh, hx⟩ := ctx_of_makes ho hok hp
  obtain ⟨n, hn⟩ := h
  rcases Reach.run (idx := idx) hx (Reach.init (input := input)) n with ⟨c', h1, _⟩ | h1
  · rw [h1] at hn; cases hn
  · rw [hn] at h1
    cases h1 with
    | ok c v f lg h2 h3 h4 =>
      have hel := h2.seg.elems
      refine ⟨f, lg, hel.built ?_, hel.evals, h2.inc, h2.sub, ?_⟩
      · -- the only symbol on the stack is the start symbol
        intro lo hi hm
        exfalso
        have h5 := hel
        generalize c.stack.reverse.map Prod.snd = ys at h5 hm
        cases h5 with
        | cons X y f l a us ys fs lg as k1 k2 =>
          cases k2
          cases k1
          simp at hm
      · intro he
        obtain ⟨h5, h6, _⟩ := h2.clean he
        exact ⟨by rw [h5, List.take_length], h6⟩

/-- C23 for grammars without error rules: `Ok` means the input is a sentence. -/
theorem c23_sentence (o : Seeds) (ho : o.Fair) (rules : List (Rule N T E)) (start : Nat) (hok : (gram rules start).Ok)
    (hne : (gram rules start).NoError) (p : Parser N T E) (ws : List Warning) (hp : MakesParser o rules start p ws)
    (idx : T → Nat) (input : List T) (v : N) (c : Cfg N T) (h : ParsesTo idx p input (.ok v) c) :
    (gram rules start).Sentence (input.map idx) := by
  obtain ⟨fresh, hx⟩ := ctx_of_makes ho hok hp
  obtain ⟨f, calls, h1, h2, h3, h4, h5⟩ := c23_sound o ho rules start hok p ws hp idx input v c h
  have he : errs [f] = [] := by
    obtain ⟨n, hn⟩ := h
    apply Built.no_errs h1 (by simp)
    intro r hr
    exact hne r hr
  have := (h1.gen he)
  rw [(h5 he).1] at this
  have h6 : ((input.zipIdx).map fun x => Sym.tm (.sym (idx x.1))) = (input.map idx).map fun t => .tm (.sym t) := by
    rw [List.map_map]
    have : (fun x : T × Nat => Sym.tm (.sym (idx x.1))) = (fun t => Sym.tm (.sym (idx t))) ∘ Prod.fst := rfl
    rw [this, ← List.map_map, List.zipIdx_map_fst]
    rfl
  rw [h6] at this
  exact gen_iff.1 this

example : ∃ c, ParsesTo id pRight [0, 0, 1] (.ok 2) c := ⟨_, 20, rfl⟩
example : ∃ c, ParsesTo id pOver [0, 1, 3] (.ok 3) c := ⟨_, 20, rfl⟩
example : (gram rRight 0).Ok ∧ (gram rRight 0).NoError :=
  ⟨by decide, by simp [Gram.NoError, gram, rRight, Rule.plain]⟩

/-! ## C29 -/

/-- C29: `parse` does not panic on its own, unless the input is empty and the grammar has error rules. -/
theorem c29_no_panic (o : Seeds) (ho : o.Fair) (rules : List (Rule N T E)) (start : Nat) (hok : (gram rules start).Ok)
    (p : Parser N T E) (ws : List Warning) (hp : MakesParser o rules start p ws) (idx : T → Nat) (input : List T)
    (h : input ≠ [] ∨ (gram rules start).NoError) : ¬ ParsePanics idx p input := by
  obtain ⟨fresh, hx⟩ := ctx_of_makes ho hok hp
  rintro ⟨n, hn⟩
  rcases Reach.run (idx := idx) hx (Reach.init (input := input)) n with ⟨c', h1, _⟩ | h1
  · rw [h1] at hn; cases hn
  · rw [hn] at h1
    cases h1 with
    | panic h1 h2 =>
      rcases h with h | h
      · exact h h1
      · exact no_err_expected h h2

/-- C29, the exception: with the rule `F → error`, `parse` panics on the empty input. -/
theorem c29_panic_on_empty : ∃ (rules : List (Rule Nat Nat Nat)) (start : Nat) (p : Parser Nat Nat Nat),
    (gram rules start).Ok ∧ (gram rules start).Closed ∧ MakesParser idSeeds rules start p [] ∧ ParsePanics id p [] :=
  ⟨_, 0, pErr, by decide, ⟨⟨_, List.mem_cons_self, rfl⟩, by
    intro r hr n hn
    simp [gram, plainRules, gErr, Rule.plain] at hr
    subst hr
    simp at hn⟩, pErr_makes, 20, rfl⟩

example : ¬ ParsePanics id pErr [7, 8] :=
  c29_no_panic idSeeds idSeeds_fair _ 0 (by decide) pErr [] pErr_makes id [7, 8] (Or.inl (by simp))

/-! ## C33 -/

/-- C33: at every moment of every parse, each call of a callback so far was for a derivation forest of the right-hand side
of its rule (`Built`: tokens of the input, error symbols that are non-empty contiguous pieces of the input), the arguments are
the values of that forest, and its tokens are in input order, none twice. -/
theorem c33_calls (o : Seeds) (ho : o.Fair) (rules : List (Rule N T E)) (start : Nat) (hok : (gram rules start).Ok)
    (p : Parser N T E) (ws : List Warning) (hp : MakesParser o rules start p ws) (idx : T → Nat) (input : List T) (n : Nat)
    (c : Cfg N T) (h : run idx p n (Cfg.init p input) = .more c ∨ ∃ r, run idx p n (Cfg.init p input) = .done r c) :
    ∀ r args, (r, args) ∈ c.log → ∃ rule cs calls, rules[r]? = some rule ∧
      Built (rules.map Rule.plain) idx input rule.rhs cs ∧ Evals rules cs calls (.ok args) ∧
      (leaves cs).Pairwise fun x y => x.2 < y.2 := by
  obtain ⟨fresh, hx⟩ := ctx_of_makes ho hok hp
  have hre : ∀ c', Reach p rules idx input start fresh c' → ∀ x ∈ c'.log, CallOk rules idx input x := by
    rintro c' ⟨_, _, _, _, _, hi, _⟩
    exact hi.calls
  intro r args hm
  rcases Reach.run (idx := idx) hx (Reach.init (input := input)) n with ⟨c', h1, h2⟩ | h1
  · rcases h with h | ⟨x, h⟩
    · rw [h1] at h; cases h; exact hre _ h2 _ hm
    · rw [h1] at h; cases h
  · rcases h with h | ⟨x, h⟩
    · rw [h] at h1; cases h1
    · rw [h] at h1
      cases h1 with
      | ok c v f lg h2 => exact h2.calls _ hm
      | reducer c e r' args' rule h2 h3 h4 h5 =>
        rcases List.mem_cons.1 hm with hm | hm
        · cases hm; exact h5
        · exact hre _ h2 _ hm
      | noRecovery c h2 => exact hre _ h2 _ hm

/-- C33: every error symbol given to a callback is a non-empty contiguous piece of the input. -/
theorem c33_error_slices (o : Seeds) (ho : o.Fair) (rules : List (Rule N T E)) (start : Nat) (hok : (gram rules start).Ok)
    (p : Parser N T E) (ws : List Warning) (hp : MakesParser o rules start p ws) (idx : T → Nat) (input : List T) (n : Nat)
    (c : Cfg N T) (h : run idx p n (Cfg.init p input) = .more c ∨ ∃ r, run idx p n (Cfg.init p input) = .done r c)
    (r : Nat) (args : List (Arg N T)) (l : List T) (hm : (r, args) ∈ c.log) (hl : .err l ∈ args) :
    l ≠ [] ∧ ∃ before after, input = before ++ l ++ after := by
  obtain ⟨rule, cs, calls, h1, h2, h3, _⟩ := c33_calls o ho rules start hok p ws hp idx input n c h r args hm
  obtain ⟨lo, hlo⟩ := h3.err_mem hl
  obtain ⟨h4, h5⟩ := h2.slices _ hlo
  refine ⟨h4, input.take lo, (input.drop lo).drop l.length, ?_⟩
  have : input = input.take lo ++ ((input.drop lo).take l.length ++ (input.drop lo).drop l.length) := by
    rw [List.take_append_drop, List.take_append_drop]
  rw [h5] at this
  rw [List.append_assoc]
  exact this

/-- C33, a limit: the error slice can overlap tokens that are handed over separately.  `A → x y z | error y w` on `x y w`
gives the callback the error slice `x y w` and then the tokens `y` and `w` again. -/
theorem c33_overlap : ∃ c, ParsesTo id pOver [0, 1, 3] (.ok 3) c ∧ c.log = [(1, [.err [0, 1, 3], .tok 1, .tok 3])] := ⟨_, ⟨20, rfl⟩, rfl⟩

/-- C33, another limit: the error slice can miss tokens that were given up.  `S → E x y | error; E → ε` on `x z` gives the
slice `z`; the token `x` is not handed to any callback. -/
theorem c33_lost : ∃ c, ParsesTo id pEps [0, 5] (.ok 1) c ∧ c.log = [(1, [.err [5]]), (2, [])] := ⟨_, ⟨20, rfl⟩, rfl⟩

/-! ## C34 -/

/-- C34: whenever an error is met at the end of input and `parse` goes on, the error symbol is the slice `0..=0`: the first
token of the input, wherever the error was. -/
theorem c34_error_at_end (o : Seeds) (ho : o.Fair) (rules : List (Rule N T E)) (start : Nat) (hok : (gram rules start).Ok)
    (p : Parser N T E) (ws : List Warning) (hp : MakesParser o rules start p ws) (idx : T → Nat) (input : List T) (n : Nat)
    (c c' : Cfg N T) (h : run idx p n (Cfg.init p input) = .more c) (hb : (fill idx c).buffer = [(.eoi, 0)])
    (ha : p.tab.act c.state .eoi = none) (hs : step idx p c = .more c') : ∃ q, c'.stack = (q, .err 0 0) :: c.stack := by
  obtain ⟨fresh, hx⟩ := ctx_of_makes ho hok hp
  rcases Reach.run (idx := idx) hx (Reach.init (input := input)) n with ⟨c1, h1, h2⟩ | h1
  · rw [h] at h1
    cases h1
    obtain ⟨j, γ, fs, lg, as, hi, _⟩ := h2
    obtain ⟨a, h3, h4, h5, h6⟩ := step_cases hx hi
    have hae : a = .eoi := by
      obtain ⟨_, hb'⟩ := hi.fill
      rcases hb' with ⟨t, hb', _⟩ | ⟨_, _, hj, _⟩
      · rw [hb] at hb'; cases hb'
      · exact h3.unique (Or.inr ⟨rfl, hj⟩)
    subst hae
    rcases h6 with ⟨t, s, k1, _⟩ | ⟨r, k1, _⟩ | ⟨v, k1, _⟩ | ⟨_, k1 | ⟨c2, _, _, _, _, _, k1, _, _, _, _, _, _, _, k2⟩⟩
    · cases k1
    · rw [ha] at k1; cases k1
    · rw [ha] at k1; cases k1
    · rw [hs] at k1; cases k1
    · rw [hs] at k1
      cases k1
      exact k2 rfl
  · rw [h] at h1; cases h1

/-- C34: so the error symbol can name a token that was accepted as something else: `A → x error | x y` on `x`. -/
theorem c34_wrong_token : ∃ c, ParsesTo id pTail [0] (.ok 2) c ∧ c.log = [(0, [.tok 0, .err [0]])] := ⟨_, ⟨20, rfl⟩, rfl⟩

end Verif.Par
