import Verif.Calc.Proof
import Verif.Calc.Lex
import Verif.Props.Pipe
import Verif.Props.TokSmooth

/-!
# Property C49: the calculator of `example/src/main.rs`
-/

namespace Verif.Calc

open Verif.Par

variable {V : Type}

/-! ## C49 -/

/-- The callbacks of the example do not fail. -/
theorem no_failure (A : Arith V) (o : Par.Seeds) (ho : o.Fair) (p : Parser (Val V) (Token V) Unit) (ws : List Warning)
    (hm : MakesParser o (rules A) start p ws) (input : List (Token V)) (e : Unit) (c : Cfg (Val V) (Token V)) :
    ¬ ParsesTo Token.index p input (.error (.reducer e)) c := by
  intro h
  obtain ⟨r, args, rest, rule, h1, h2, h3, _⟩ := (c30_first_failure o ho (rules A) start gCalc_ok p ws hm Token.index input _ c h).1 e rfl
  obtain ⟨n, hn⟩ := h
  obtain ⟨rule', h4, h5⟩ := (c48_contract o ho (rules A) start gCalc_ok p ws hm Token.index Shape (keeps A) input).1 n c (Or.inr ⟨_, hn⟩)
    r args (by
      have : (r, args) ∈ c.log.reverse := by rw [h1]; simp
      simpa using this)
  rw [h2] at h4
  cases h4
  obtain ⟨v, h6, _⟩ := gen_fit A rule (List.mem_of_getElem? h2) args h5
  rw [h6] at h3
  cases h3

/-- C49: the calculator on tokens, for all hash seeds.  `new` succeeds and gives no warnings.  Exactly the expressions are accepted, with
their value (`*` and `/` before `+` and `-`, and to the left); on everything else the answer is `RecoveryRuleNotFound`.  So the two
`unreachable!()` (of the callbacks, and of the answer) are not reached, and `parse` ends without panic. -/
theorem c49_calculator (A : Arith V) (o : Par.Seeds) (ho : o.Fair) :
    (∃ p ws, MakesParser o (rules A) start p ws) ∧
    ∀ (p : Parser (Val V) (Token V) Unit) (ws : List Warning), MakesParser o (rules A) start p ws → ws = [] ∧
      ∀ input : List (Token V),
        (∀ e : Ex V, e.Wf → e.toks = input → ∃ c, ParsesTo Token.index p input (.ok (.sum (some (e.eval A)))) c) ∧
        ((¬ ∃ e : Ex V, e.Wf ∧ e.toks = input) → ∃ c, ParsesTo Token.index p input (.error .noRecovery) c) ∧
        (∀ v c, ParsesTo Token.index p input (.ok v) c → ∃ e : Ex V, e.Wf ∧ e.toks = input ∧ v = .sum (some (e.eval A))) ∧
        (∀ x c, ParsesTo Token.index p input (.error x) c → x = .noRecovery ∧ ¬ ∃ e : Ex V, e.Wf ∧ e.toks = input) ∧
        ¬ ParsePanics Token.index p input ∧ ¬ ParseDiverges Token.index p input := by
  refine ⟨makes_exists A o ho, fun p ws hm => ?_⟩
  obtain rfl := no_warnings A o ho p ws hm
  refine ⟨rfl, fun input => ?_⟩
  have hwf : ∀ e : Ex V, e.Wf → e.toks = input → ∃ c, ParsesTo Token.index p input (.ok (.sum (some (e.eval A)))) c := by
    intro e he ht
    obtain ⟨fs, lg, h1, h2, h3, h4⟩ := grows_ex (A := A) (inp := input) e [] [] he (by simp [ht]) 0 (Nat.zero_le _)
    have hlen := h1.length
    match fs, hlen with
    | [f], _ =>
      have htree : IsTree ((rules A).map Rule.plain) start Token.index input f := ⟨h1, h2, by rw [h3, ht]; rfl⟩
      obtain ⟨c, hc, _⟩ := ((c30_evaluation o ho (rules A) start gCalc_ok p hm gCalc_notCyclic Token.index input f htree lg).1 _).1 h4
      exact ⟨c, hc⟩
  have hback : ∀ v c, ParsesTo Token.index p input (.ok v) c → ∃ e : Ex V, e.Wf ∧ e.toks = input ∧ v = .sum (some (e.eval A)) := by
    intro v c h
    obtain ⟨e, h1, _, h3, h4⟩ := c48_attributes o ho (rules A) start gCalc_ok gCalc_noError p [] hm Token.index (Means A) (computes A) input v c h
    exact ⟨e, h1, h3, h4⟩
  obtain ⟨x, c, hx⟩ := c27_terminates o ho (rules A) start gCalc_ok gCalc_noError gCalc_productive p hm Token.index input
  refine ⟨hwf, ?_, hback, ?_, c29_no_panic o ho (rules A) start gCalc_ok p [] hm Token.index input (Or.inr gCalc_noError), ?_⟩
  · intro hno
    cases x with
    | ok v =>
      obtain ⟨e, h1, h2, _⟩ := hback v c hx
      exact absurd ⟨e, h1, h2⟩ hno
    | error x =>
      cases x with
      | noRecovery => exact ⟨c, hx⟩
      | reducer e => exact absurd hx (no_failure A o ho p [] hm input e c)
  · intro x c h
    cases x with
    | reducer e => exact absurd h (no_failure A o ho p [] hm input e c)
    | noRecovery =>
      refine ⟨rfl, ?_⟩
      rintro ⟨e, h1, h2⟩
      obtain ⟨c', h3⟩ := hwf e h1 h2
      exact absurd (h.unique h3).1 (by simp)
  · intro hd
    obtain ⟨n, hn⟩ := hx
    obtain ⟨c', hc'⟩ := hd n
    rw [hn] at hc'
    cases hc'

/-- C49: so a row of tokens has at most one value, whatever the arithmetic. -/
theorem c49_unambiguous (A : Arith V) (e e' : Ex V) (he : e.Wf) (he' : e'.Wf) (h : e.toks = e'.toks) : e.eval A = e'.eval A := by
  obtain ⟨⟨p, ws, hm⟩, hall⟩ := c49_calculator A idSeeds idSeeds_fair
  obtain ⟨_, h1⟩ := hall p ws hm
  obtain ⟨c, hc⟩ := (h1 e.toks).1 e he rfl
  obtain ⟨c', hc'⟩ := (h1 e.toks).1 e' he' h.symm
  have := (hc.unique hc').1
  simpa using this

/-- C49: the tokenizer of the example is built, for all hash seeds. -/
theorem c49_tokenizer_builds (A : Arith V) (ts : Tok.Seeds) (hs : ts.Fair) : ∃ t tws, Tok.BuildsTo ts Tok.parse0 (pats A) (.ok (t, tws)) := by
  refine ((Tok.c03_build_errors Tok.parse0_ok hs (pats A)).2.2.1).2 ?_
  intro p hp
  refine ⟨p.1, by unfold Tok.parse0; rw [if_pos (pats_ok A p hp)], ?_⟩
  intro e he
  rw [← Tok.has_iff] at he
  have : p.1.unsupported = [] := by
    simp only [pats, List.mem_cons, List.not_mem_nil, or_false] at hp
    rcases hp with rfl | rfl | rfl | rfl | rfl | rfl | rfl | rfl | rfl <;> rfl
  rw [this] at he
  cases he

/-- No hash collision disturbs the tokenizer of the calculator. -/
theorem pats_calm (A : Arith V) (ts : Tok.Seeds) (hs : ts.Fair) : Tok.Calm ts Tok.parse0 (pats A) := by
  refine Tok.c77_check Tok.parse0_ok (fuel := 60) ?_ ts hs
  have : Tok.smoothCheck 60 Tok.parse0 ([numberH, .literalU 43, .literalU 45, .literalU 42, .literalU 47, .literalU 40, .literalU 41,
      .concat [.literalU 115, .literalU 113, .literalU 114, .literalU 116], .alt [.classU [(0, 9), (11, 0x10FFFF)], .literalU 10]].map
      fun h => (h, ())) = true := by decide +kernel
  unfold Tok.smoothCheck at this ⊢
  exact this

/-- C49: the callback of the number pattern (`s.parse().unwrap()`) is only called with numerals. -/
theorem c49_numerals (A : Arith V) (ts : Tok.Seeds) (hs : ts.Fair) (t : Tok.Tokenizer Nat (Option (Token V)))
    (tws : List (Nat × Nat)) (hb : Tok.BuildsTo ts Tok.parse0 (pats A) (.ok (t, tws))) (w : List Nat) : t.accepts w = some 0 ↔ Numeral w := by
  rw [(Tok.c41_translated_language Tok.parse0_ok hs (pats_calm A ts hs) hb w).1 0, patCode_iff]
  simp [Matches]

theorem not_matches_nil (k : Nat) : ¬ Matches k [] := by
  unfold Matches
  split
  · intro h
    obtain ⟨_, _, h, _⟩ := numeral_head h
    cases h
  all_goals simp

section Text

variable (A : Arith V) (o : Par.Seeds) (ho : o.Fair) (p : Parser (Val V) (Token V) Unit) (ws : List Warning) (hm : MakesParser o (rules A) start p ws)
  (ts : Tok.Seeds) (hs : ts.Fair) (t : Tok.Tokenizer Nat (Option (Token V)))
  (tws : List (Nat × Nat)) (hb : Tok.BuildsTo ts Tok.parse0 (pats A) (.ok (t, tws)))
  (f : Source (Tok.It Nat) (Token V)) (hf : Flattens (tokSource t id) f)
include ho hm hs hb hf

/-- C49: an expression written down with any blanks (spaces, line ends and all other characters that are no part of tokens) before,
between and behind its tokens is computed. -/
theorem c49_text (e : Ex (List Nat)) (he : e.Wf) (text : List Nat) (hw : Written e.toks text) :
    ∃ c it, ParsesFrom Token.index f p (Tok.It.start text) (.ok (.sum (some ((e.value A).eval A)))) c it := by
  obtain ⟨es, h1, h2⟩ := written_tokens (A := A) hw (toks_apart e)
  have hn : Tok.NoToken (Tok.PatCode Tok.parse0 (pats A)) id ([] : List Nat) := by
    intro n j
    rw [patCode_iff]
    rw [List.take_nil, List.map_nil]
    exact not_matches_nil _
  obtain ⟨_, k2, _, _⟩ := c47_flatten Tok.parse0_ok hs (pats_calm A ts hs) hb o ho (rules A) start gCalc_ok p ws hm Token.index id text es [] h1 hn f hf
  obtain ⟨c, hc⟩ := (((c49_calculator A o ho).2 p ws hm).2 (es.filterMap id)).1 (e.value A) ((value_wf e).2 he) (by rw [h2, value_toks])
  exact k2 _ _ hc

/-- C49: on every text the calculator prints a number or `RecoveryRuleNotFound`; a number is the value of an expression whose tokens occur
in the text in this order, with nothing but single ignored characters around them. -/
theorem c49_any_text (text : List Nat) (hu : ∀ c ∈ text, c < 0x110000) :
    (∃ x c it, ParsesFrom Token.index f p (Tok.It.start text) x c it) ∧
    ¬ PanicsFrom Token.index f p (Tok.It.start text) ∧ ¬ DivergesFrom Token.index f p (Tok.It.start text) ∧
    (∀ v c it, ParsesFrom Token.index f p (Tok.It.start text) (.ok v) c it →
      ∃ e : Ex (List Nat), e.Wf ∧ Within e.toks text ∧ v = .sum (some ((e.value A).eval A))) ∧
    (∀ x c it, ParsesFrom Token.index f p (Tok.It.start text) (.error x) c it → x = .noRecovery) := by
  have hnil : ∀ k, ¬ Tok.PatCode Tok.parse0 (pats A) k [] := by
    intro j
    rw [patCode_iff]
    exact not_matches_nil _
  obtain ⟨es, h1, h2⟩ := c47_whole_text Tok.parse0_ok hs (pats_calm A ts hs) hb id text hnil (fun x hx => ⟨8, by
    rw [patCode_iff]; exact ⟨x, rfl, hu x hx⟩⟩)
  obtain ⟨k1, k2, k3, k4⟩ := c47_flatten Tok.parse0_ok hs (pats_calm A ts hs) hb o ho (rules A) start gCalc_ok p ws hm Token.index id text es [] h1 h2 f hf
  obtain ⟨d1, d2, d3, d4, d5, d6⟩ := ((c49_calculator A o ho).2 p ws hm).2 (es.filterMap id)
  refine ⟨?_, fun h => d5 (k3.1 h), fun h => d6 (k4.1 h), ?_, ?_⟩
  · by_cases hex : ∃ e : Ex V, e.Wf ∧ e.toks = es.filterMap id
    · obtain ⟨e, e1, e2⟩ := hex
      obtain ⟨c, hc⟩ := d1 e e1 e2
      exact ⟨_, k2 _ _ hc⟩
    · obtain ⟨c, hc⟩ := d2 hex
      exact ⟨_, k2 _ _ hc⟩
  · intro v c it h
    obtain ⟨_, c0, h3, _⟩ := k1 _ _ _ h
    obtain ⟨e, e1, e2, e3⟩ := d3 v c0 h3
    obtain ⟨ts, t1, t2⟩ := tokens_within h1 rfl
    obtain ⟨e', f1, f2⟩ := lift_toks (A := A) e ts (by rw [← t2, e2])
    subst f2
    exact ⟨e', (value_wf e').1 e1, by rw [f1]; exact t1, e3⟩
  · intro x c it h
    obtain ⟨_, c0, h3, _⟩ := k1 _ _ _ h
    exact (d4 x c0 h3).1

end Text

/-! ## Examples -/

/-- Arithmetic on natural numbers, for examples. -/
def natArith : Arith Nat :=
  { zero := 0, add := (· + ·), sub := (· - ·), mul := (· * ·), div := (· / ·), neg := id, sqrt := id,
    read := List.foldl (fun n c => n * 10 + (c - 48)) 0 }

/-- `8-2-1`, `1+2*3`, `(1+2)*3` -/
example : (Ex.sub (.sub (.num 8) (.num 2)) (.num 1)).Wf ∧ (Ex.sub (.sub (.num 8) (.num 2)) (.num 1)).eval natArith = 5 := ⟨by simp [Ex.Wf, Ex.level], rfl⟩
example : ¬ (Ex.sub (.num 8) (.sub (.num 2) (.num 1))).Wf := by simp [Ex.Wf, Ex.level]
example : (Ex.add (.num 1) (.mul (.num 2) (.num 3))).Wf ∧ (Ex.add (.num 1) (.mul (.num 2) (.num 3))).eval natArith = 7 := ⟨by simp [Ex.Wf, Ex.level], rfl⟩
example : ¬ (Ex.mul (.add (.num 1) (.num 2)) (.num 3)).Wf ∧ (Ex.mul (.paren (.add (.num 1) (.num 2))) (.num 3)).Wf := by simp [Ex.Wf, Ex.level]

/-- `12 x+3` is written like `12+3`: other characters are ignored without notice. -/
example : Written (Ex.add (.num [49, 50]) (.num [51])).toks [49, 50, 32, 120, 43, 51] :=
  .token (.number [49, 50]) _ _ ⟨[49, 50], [], rfl, Or.inl ⟨by simp, by simp [Digit]⟩, Or.inl rfl⟩ <|
  .blank 32 _ _ (by unfold Blank Digit; simp) <| .blank 120 _ _ (by unfold Blank Digit; simp) <|
  .token .add _ _ trivial <| .token (.number [51]) _ _ ⟨[51], [], rfl, Or.inl ⟨by simp, by simp [Digit]⟩, Or.inl rfl⟩ .nil

example : (Ex.add (.num [49, 50]) (.num [51])).Wf ∧ ((Ex.add (.num [49, 50]) (.num [51])).value natArith).eval natArith = 15 :=
  ⟨by simp [Ex.Wf, Ex.level], rfl⟩

/-- A sign must be followed by a number: `-(1)` is refused. -/
theorem c49_sign_refused (A : Arith V) (o : Par.Seeds) (ho : o.Fair) (p : Parser (Val V) (Token V) Unit) (ws : List Warning)
    (hm : MakesParser o (rules A) start p ws) (rest : List (Token V)) :
    ∃ c, ParsesTo Token.index p (.sub :: .bracket :: rest) (.error .noRecovery) c := by
  refine (((c49_calculator A o ho).2 p ws hm).2 _).2.1 ?_
  rintro ⟨e, _, he⟩
  have nonempty : ∀ e : Ex V, e.toks ≠ [] := by intro e; cases e <;> simp [Ex.toks]
  have key : ∀ (e : Ex V) r, e.toks = .sub :: r → ∃ v r', r = .number v :: r' := by
    intro e
    have bin : ∀ (a : Ex V) (x r : List (Token V)), (∀ r, a.toks = .sub :: r → ∃ v r', r = .number v :: r') → a.toks ++ x = .sub :: r →
        ∃ v r', r = .number v :: r' := by
      intro a x r ih h
      cases ha : a.toks with
      | nil => exact absurd ha (nonempty a)
      | cons t l =>
        rw [ha] at h
        simp at h
        obtain ⟨rfl, rfl⟩ := h
        obtain ⟨v, r', rfl⟩ := ih l ha
        exact ⟨v, r' ++ x, rfl⟩
    induction e with
    | num v => intro r h; simp [Ex.toks] at h
    | pos v => intro r h; simp [Ex.toks] at h
    | neg v => intro r h; simp [Ex.toks] at h; exact ⟨v, [], h.symm⟩
    | paren e ih => intro r h; simp [Ex.toks] at h
    | sqrt e ih => intro r h; simp [Ex.toks] at h
    | mul a b iha ihb => intro r h; exact bin a _ r iha (by simpa [Ex.toks] using h)
    | div a b iha ihb => intro r h; exact bin a _ r iha (by simpa [Ex.toks] using h)
    | add a b iha ihb => intro r h; exact bin a _ r iha (by simpa [Ex.toks] using h)
    | sub a b iha ihb => intro r h; exact bin a _ r iha (by simpa [Ex.toks] using h)
  obtain ⟨v, r', h⟩ := key e _ he
  cases h

end Verif.Calc
