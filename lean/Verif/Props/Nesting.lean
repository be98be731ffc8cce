import Verif.Props.TokPump
import Verif.Props.ParFamily
import Verif.Props.ParContract
import Verif.Props.ParResidue

/-!
# Property C103: nesting needs rules
-/

namespace Verif.Tok

variable {π ρ α E : Type} {parse : π → Except ρ Hir} {s : Seeds} {ps : List (π × (List Nat → List α → E))}
  {t : Tokenizer α E} {ws : List (Nat × Nat)}

/-- C103: a tokenizer cannot tell many texts apart: of a list of texts that has at least two more entries than there are states, two
entries are such that whatever comes behind them the same pattern wins. -/
theorem c103_same (hparse : ParserOk parse) (hs : s.Fair) (hb : BuildsTo s parse ps (.ok (t, ws))) (us : List (List Nat))
    (hl : t.dfa.rows.length + 2 ≤ us.length) :
    ∃ (i j : Nat) (u u' : List Nat), i < j ∧ us[i]? = some u ∧ us[j]? = some u' ∧ ∀ z, t.accepts (u ++ z) = t.accepts (u' ++ z) := by
  obtain ⟨_, _, _, _, h4⟩ := builds_spec hparse hs hb
  let f : List Nat → Option Nat := fun u => t.dfa.run t.dfa.b u
  have hnd : ¬ (us.map f).Nodup := by
    intro hn
    have := length_le_of_nodup_subset hn (t := none :: (List.range t.dfa.rows.length).map some) (by
      intro a ha
      obtain ⟨u, _, rfl⟩ := List.mem_map.1 ha
      cases hf : f u with
      | none => simp
      | some q => simp [run_lt h4.wf _ _ _ h4.wf.b hf])
    simp at this
    omega
  obtain ⟨i, j, hij, hj, e⟩ : ∃ i j, ∃ (hij : i < j) (hj : j < us.length), f (us[i]'(by omega)) = f us[j] := by
    apply Classical.byContradiction
    intro hno
    apply hnd
    rw [List.Nodup, List.pairwise_map, List.pairwise_iff_getElem]
    intro i j h1 h2 h3 e
    exact hno ⟨i, j, h3, h2, e⟩
  refine ⟨i, j, _, _, hij, List.getElem?_eq_getElem (by omega), List.getElem?_eq_getElem hj, fun z => ?_⟩
  unfold Tokenizer.accepts DFA.obs
  rw [DFA.run_append, DFA.run_append]
  have e : t.dfa.run t.dfa.b us[i] = t.dfa.run t.dfa.b us[j] := e
  rw [e]

/-- C103: a tokenizer for which a pattern wins for exactly the balanced ones among the texts `aa…a m bb…b`, as long as there are at most
`N` letters on both sides, has at least `N` states. -/
theorem c103_depth (hparse : ParserOk parse) (hs : s.Fair) (hb : BuildsTo s parse ps (.ok (t, ws))) (k a b : Nat) (m : List Nat) (N : Nat)
    (h : ∀ n n', n ≤ N → n' ≤ N → (t.accepts (List.replicate n a ++ m ++ List.replicate n' b) = some k ↔ n = n')) :
    N ≤ t.dfa.rows.length := by
  apply Nat.le_of_not_lt
  intro hlt
  obtain ⟨i, j, u, u', hij, hi, hj, hz⟩ := c103_same hparse hs hb ((List.range (N + 1)).map fun n => List.replicate n a) (by simp; omega)
  have hget : ∀ {i u}, ((List.range (N + 1)).map fun n => List.replicate n a)[i]? = some u → i ≤ N ∧ u = List.replicate i a := by
    intro i u hu
    obtain ⟨hlt, rfl⟩ := List.getElem?_eq_some_iff.1 hu
    simp at hlt
    exact ⟨by omega, by simp⟩
  obtain ⟨hi', rfl⟩ := hget hi
  obtain ⟨hj', rfl⟩ := hget hj
  have h1 := (h i i hi' hi').2 rfl
  rw [List.append_assoc, hz, ← List.append_assoc] at h1
  have := (h j i hj' hi').1 h1
  omega

/-- C103: no pattern, whatever other patterns there are, wins for exactly the balanced ones among all texts `aa…a m bb…b`. -/
theorem c103_tokenizer (hparse : ParserOk parse) (hs : s.Fair) (hb : BuildsTo s parse ps (.ok (t, ws))) (k a b : Nat) (m : List Nat) :
    ¬ ∀ n n', t.accepts (List.replicate n a ++ m ++ List.replicate n' b) = some k ↔ n = n' := by
  intro h
  have := c103_depth hparse hs hb k a b m (t.dfa.rows.length + 1) fun n n' _ _ => h n n'
  omega

/-- C103: without hash collisions: no pattern is the first to match for exactly the balanced ones among these texts. -/
theorem c103_first (hparse : ParserOk parse) (hs : s.Fair) (hc : Calm s parse ps) (hb : BuildsTo s parse ps (.ok (t, ws))) (k a b : Nat)
    (m : List Nat) : ¬ ∀ n n', Least (PatCode parse ps) k (List.replicate n a ++ m ++ List.replicate n' b) ↔ n = n' := by
  simp only [← accepts_least hparse hs hc hb]
  exact c103_tokenizer hparse hs hb k a b m

end Verif.Tok

namespace Verif.Par

variable {T E : Type}

/-- `S → ( S ) | a` with `(`, `)`, `a` = 0, 1, 2; the callbacks compute the depth. -/
def rBrackets (T E : Type) : List (Rule Nat T E) :=
  [⟨0, [.tm (.sym 0), .nt 0, .tm (.sym 1)], fun l => match l with
      | [_, .nt n, _] => .ok (n + 1)
      | _ => .ok 0⟩,
   ⟨0, [.tm (.sym 2)], fun _ => .ok 0⟩]

/-- `n` opening brackets, `a`, `n` closing brackets. -/
def nested (n : Nat) : List Nat := List.replicate n 0 ++ [2] ++ List.replicate n 1

theorem rBrackets_gram : gram (rBrackets T E) 0 = gBrackets := rfl

theorem gBrackets_fruitful : gBrackets.Fruitful := c71_ranked _ (fun _ => 0) (by decide)

theorem gBrackets_lr1 : gBrackets.LR1 := by
  have hst : ∃ r ∈ gBrackets.rules, r.lhs = gBrackets.start := by decide
  have h := c79_family gBrackets hst
  exact h.2.2 (h.2.1 (h.1 ((c79_check _ cBrackets).1 (by decide +kernel))))

theorem nested_succ (n : Nat) : nested (n + 1) = 0 :: (nested n ++ [1]) := by
  unfold nested
  rw [List.replicate_succ, List.replicate_succ']
  simp

theorem spans_tm {N : Type} {idx : T → Nat} {Q : Nat → List T → N → Prop} {k : Nat} {us : List Sym} {args : List (Arg N T)} {w : List T}
    (h : Spans idx Q (.tm (.sym k) :: us) args w) :
    ∃ t args' w', args = .tok t :: args' ∧ w = t :: w' ∧ idx t = k ∧ Spans idx Q us args' w' := by
  generalize hu : Sym.tm (.sym k) :: us = us' at h
  cases h with
  | nil => cases hu
  | tok t us args w h => cases hu; exact ⟨t, args, w, rfl, rfl, rfl, h⟩
  | nt => cases hu

theorem rBrackets_computes (idx : T → Nat) : Computes idx (fun _ u v => u.map idx = nested v) (rBrackets T E) := by
  intro rule hr args w v hs hg
  simp only [rBrackets, List.mem_cons, List.not_mem_nil, or_false] at hr
  rcases hr with rfl | rfl
  · obtain ⟨t, args, w, rfl, rfl, h1, hs⟩ := spans_tm hs
    cases hs with
    | nt n v' u us args1 w1 h2 hs1 =>
      obtain ⟨t', args2, w2, rfl, rfl, h3, hs2⟩ := spans_tm hs1
      cases hs2
      cases hg
      simp [nested_succ, h1, h2, h3]
  · obtain ⟨t, args, w, rfl, rfl, h1, hs⟩ := spans_tm hs
    cases hs
    cases hg
    simp [nested, h1]

theorem nested_sentence (n : Nat) : gBrackets.Sentence (nested n) := by
  unfold Gram.Sentence
  have e : ∀ w : List Nat, (w.map fun t => Sym.tm (.sym t)) = tms (syms w) := fun w => by simp [tms, syms]
  rw [e, ← gen_iff]
  induction n with
  | zero => exact Gen.rule (R := gBrackets.rules) (r := ⟨0, [.tm (.sym 2)]⟩) (by decide)
  | succ n ih =>
    have h1 : (⟨0, [.tm (.sym 0), .nt 0, .tm (.sym 1)]⟩ : PRule) ∈ gBrackets.rules := by decide
    have h2 := (Gen.rule h1).trans ((Gen.refl [.tm (.sym 0)]).append (ih.append (Gen.refl [.tm (.sym 1)])))
    rw [nested_succ]
    simpa [syms, gBrackets] using h2

/-- C103: two rules do it.  For the rules `S → ( S ) | a` `LR1Parser::new` gives a parser and no warnings, for all hash seeds; the parser
accepts exactly the inputs `((…( a )…))` with as many brackets on both sides, and the callbacks can count them. -/
theorem c103_parser (o : Seeds) (ho : o.Fair) :
    (∃ p : Parser Nat T E, MakesParser o (rBrackets T E) 0 p []) ∧
    ∀ (p : Parser Nat T E) (ws : List Warning), MakesParser o (rBrackets T E) 0 p ws → ws = [] ∧ ∀ (idx : T → Nat) (input : List T),
      (∀ n, (∃ c, ParsesTo idx p input (.ok n) c) ↔ input.map idx = nested n) ∧
      ((∃ c, ParsesTo idx p input (.error .noRecovery) c) ↔ ∀ n, input.map idx ≠ nested n) := by
  have hok : (gram (rBrackets T E) 0).Ok := by rw [rBrackets_gram]; decide
  have hne : (gram (rBrackets T E) 0).NoError := by rw [rBrackets_gram]; unfold Gram.NoError; decide
  have hpr : (gram (rBrackets T E) 0).Productive := gBrackets_fruitful.productive hok hne
  have hg : ∀ r ∈ rBrackets T E, ∀ l, ∃ v, r.gen l = .ok v := by
    intro r hr l
    simp only [rBrackets, List.mem_cons, List.not_mem_nil, or_false] at hr
    rcases hr with rfl | rfl
    · simp only
      split <;> exact ⟨_, rfl⟩
    · exact ⟨_, rfl⟩
  constructor
  · obtain ⟨tab, htab⟩ := c79_builds o ho gBrackets (by decide) gBrackets_fruitful gBrackets_lr1
    exact ⟨⟨rBrackets T E ++ [⟨freshSym ((rBrackets T E).map Rule.plain), [.nt 0], fun _ => .ok 0⟩], tab⟩, htab, _, rfl⟩
  · intro p ws hm
    obtain rfl := c79_no_warnings o ho gBrackets (by decide) gBrackets_lr1 _ _ hm.1
    refine ⟨rfl, fun idx input => ?_⟩
    have hat : ∀ v c, ParsesTo idx p input (.ok v) c → input.map idx = nested v :=
      fun v c h => c48_attributes o ho _ 0 hok hne p [] hm idx _ (rBrackets_computes idx) input v c h
    obtain ⟨d1, d2⟩ := c26_decides o ho _ 0 hok hne hpr hg p hm idx input
    have hinj : ∀ {n n'}, nested n = nested n' → n = n' := by
      intro n n' h
      have := congrArg List.length h
      simp [nested] at this
      omega
    refine ⟨fun n => ⟨fun ⟨c, h⟩ => hat n c h, fun h => ?_⟩, d2.symm.trans ⟨fun h n hn => ?_, fun h hs => ?_⟩⟩
    · obtain ⟨v, c, hv⟩ := d1.1 (by rw [h]; exact nested_sentence n)
      obtain rfl := hinj ((hat v c hv).symm.trans h)
      exact ⟨c, hv⟩
    · exact h (by rw [hn]; exact nested_sentence n)
    · obtain ⟨v, c, hv⟩ := d1.1 hs
      exact h v (hat v c hv)

/-! ## Examples -/

/-- `((a))` has depth 2; `((a)` is not accepted. -/
example (o : Seeds) (ho : o.Fair) : ∃ p : Parser Nat Nat Unit, MakesParser o (rBrackets Nat Unit) 0 p [] ∧
    (∃ c, ParsesTo id p [0, 0, 2, 1, 1] (.ok 2) c) ∧ ∃ c, ParsesTo id p [0, 0, 2, 1] (.error .noRecovery) c := by
  obtain ⟨⟨p, hp⟩, h⟩ := c103_parser (T := Nat) (E := Unit) o ho
  obtain ⟨_, h⟩ := h p [] hp
  refine ⟨p, hp, ((h id _).1 2).2 rfl, (h id _).2.2 fun n hn => ?_⟩
  have := congrArg List.length hn
  simp [nested] at this
  omega

end Verif.Par

namespace Verif.Tok

/-- `a*b` and `a`: the first pattern wins for `ab`, which is not balanced, if `a` stands for both brackets. -/
example : ∃ r, BuildsTo seeds0 parse0 (tagged [.concat [.rep .zeroOrMore ra, rb], ra]) (.ok r) ∧ r.1.accepts [97, 98] = some 0 ∧
    ¬ ∀ n n', r.1.accepts (List.replicate n 97 ++ [98] ++ List.replicate n' 97) = some 0 ↔ n = n' := by
  obtain ⟨r, hb, e⟩ := tok0_spec (s := seeds0) (hs := [.concat [.rep .zeroOrMore ra, rb], ra])
    (g := fun r => r.1.accepts [97, 98]) (x := some 0) (by decide +kernel)
  exact ⟨r, hb, e, c103_tokenizer parse0_ok seeds0_fair hb 0 97 97 [98]⟩

/-- Up to a given depth a pattern will do: `b|aba|aabaa`. -/
example : (tok0 seeds0 [.alt [rb, .concat [ra, rb, ra], .concat [ra, ra, rb, ra, ra]]]).map (fun r => (List.range 3).map fun n =>
    (List.range 3).map fun n' => r.1.accepts (List.replicate n 97 ++ [98] ++ List.replicate n' 97)) =
    some [[some 0, none, none], [none, some 0, none], [none, none, some 0]] := by decide +kernel

end Verif.Tok
