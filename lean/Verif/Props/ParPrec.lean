import Verif.Par.PrecProof
import Verif.Props.ParEnds

/-!
# Grammars of expressions with levels of precedence: C67
-/

namespace Verif.Par

variable {N T E : Type} {P : Prec}

theorem Prec.gram {rules : List (Rule N T E)} (h : (rules.map Rule.plain).Perm P.rules) : PG P (gram rules 0) :=
  ⟨rfl, fun r => by rw [← Prec.mem_rules]; exact h.mem_iff⟩

theorem Prec.prs {rules : List (Rule N T E)} (h : (rules.map Rule.plain).Perm P.rules) : PRs P rules := by
  intro l rhs
  rw [← (Prec.gram h).2 ⟨l, rhs⟩]
  constructor
  · rintro ⟨r, hr, rfl, rfl⟩
    exact List.mem_map.2 ⟨r, hr, rfl⟩
  · intro hm
    obtain ⟨r, hr, e⟩ := List.mem_map.1 hm
    exact ⟨r, hr, congrArg PRule.lhs e, congrArg PRule.rhs e⟩

theorem PG.ok {g : Gram} (hg : PG P g) : g.Ok := by
  intro r hr hm
  have := (hg.2 r).1 hr
  generalize r.lhs = l at this
  generalize r.rhs = rhs at this hm
  cases this <;> simp at hm

theorem PG.noError {g : Gram} (hg : PG P g) : g.NoError := by
  intro r hr hm
  have := (hg.2 r).1 hr
  generalize r.lhs = l at this
  generalize r.rhs = rhs at this hm
  cases this <;> simp at hm

theorem PG.not_empty {g : Gram} (hg : PG P g) : ∀ r ∈ g.rules, r.rhs ≠ [] := by
  intro r hr
  have := (hg.2 r).1 hr
  generalize r.lhs = l at this
  generalize r.rhs = rhs at this
  cases this <;> simp

theorem PG.unit {g : Gram} (hg : PG P g) {a b : Nat} (h : (⟨a, [.nt b]⟩ : PRule) ∈ g.rules) : b = a + 1 := by
  have := (hg.2 _).1 h
  simp only at this
  cases this
  rfl

theorem PG.chain {g : Gram} (hg : PG P g) {a b : Nat} (h : g.Chain a b) : a < b := by
  induction h with
  | one h => have := hg.unit h; omega
  | more h _ ih => have := hg.unit h; omega

theorem PG.no_cycle {g : Gram} (hg : PG P g) : ¬ g.Cyclic := by
  rintro ⟨x, r, y, hr, _, h⟩
  have hne := hg.not_empty r hr
  have hl := congrArg List.length h
  simp only [List.length_append, List.length_singleton] at hl
  have := List.length_pos_iff.2 hne
  have hx : x = [] := List.eq_nil_of_length_eq_zero (by omega)
  have hy : y = [] := List.eq_nil_of_length_eq_zero (by omega)
  subst hx hy
  simp only [List.nil_append, List.append_nil] at h
  obtain ⟨l, rhs⟩ := r
  simp only at h
  subst h
  have := hg.unit hr
  rw [hg.1] at this
  omega

theorem PG.makes {g : Gram} (hg : PG P g) (hP : P.Ok) : ∃ tab ws, NewGives idSeeds g (.ok (tab, ws)) := by
  refine c20_new_no_panic idSeeds idSeeds_fair g hg.ok ⟨by rw [hg.1]; exact hg.defined hP (Nat.zero_le _), ?_⟩
  intro r hr n hn
  apply hg.defined hP
  have := (hg.2 r).1 hr
  generalize r.lhs = l at this
  generalize r.rhs = rhs at this hn
  cases this with
  | unit i h => simp at hn; omega
  | bin i f t a b h hs =>
    have := h.lt
    have := Fix.sides_pos hs
    simp at hn
    omega
  | pre i t h => have := h.lt; simp at hn; omega
  | post i t h => have := h.lt; simp at hn; omega
  | atom => simp at hn
  | par => simp at hn; omega

/-- C67: the grammar with one non-terminal for each level, with any number of levels and operators and with the rules in any order, has no
conflicts. -/
theorem c67_no_warnings (s : Seeds) (hs : s.Fair) (P : Prec) (hP : P.Ok) (rules : List (Rule N T E)) (hr : (rules.map Rule.plain).Perm P.rules)
    (p : Parser N T E) (ws : List Warning) (hp : MakesParser s rules 0 p ws) : ws = [] := by
  have hg := Prec.gram hr
  obtain ⟨⟨fresh, hf, _, hw⟩, _⟩ := And.intro (c22_warnings_exact s hs (gram rules 0) hg.ok _ ws hp.1) hp.2
  exact (warn_iff Gram.aug_start hw).2 (hg.no_clash hP (hr.nodup_iff.2 hP.nodup) hf)

/-- C67: `parse` reads an expression that is grouped as the levels demand with the value its operators give. -/
theorem c67_reads (s : Seeds) (hs : s.Fair) (P : Prec) (hP : P.Ok) (rules : List (Rule N T E)) (hr : (rules.map Rule.plain).Perm P.rules)
    (ht : Transparent rules) (p : Parser N T E) (ws : List Warning) (hp : MakesParser s rules 0 p ws) (idx : T → Nat) (i : Nat) (e : Ex T)
    (he : Grp P idx i e) (v : N) (hv : Value rules idx e v) : ∃ c, ParsesTo idx p e.tokens (.ok v) c := by
  have hg := Prec.gram hr
  obtain rfl := c67_no_warnings s hs P hP rules hr p ws hp
  have h := (Grp.hasTree hP (Prec.prs hr) ht hv he).lower (Prec.prs hr) ht (Nat.zero_le _) he.le
  obtain ⟨f, lg, h1, h2⟩ := h.isTree
  obtain ⟨c, h3, _⟩ := ((c30_evaluation s hs rules 0 hg.ok p hp hg.no_cycle idx e.tokens f h1 lg).1 v).1 h2
  exact ⟨c, h3⟩

theorem prec_parser (hP : P.Ok) (T : Type) : ∃ p ws, MakesParser idSeeds (exRules T P.rules) 0 p ws := by
  have hg : PG P ⟨P.rules, 0⟩ := ⟨rfl, fun r => Prec.mem_rules⟩
  obtain ⟨tab, ws, h⟩ := hg.makes hP
  exact ⟨⟨_, tab⟩, ws, by rw [gram, exRules_plain]; exact h, fun _ => .error (), rfl⟩

theorem Grp.tokens_inj (hP : P.Ok) {idx : T → Nat} {i j : Nat} {e e' : Ex T} (h : Grp P idx i e) (h' : Grp P idx j e') (ht : e.tokens = e'.tokens) : e = e' := by
  have hg : PG P ⟨P.rules, 0⟩ := ⟨rfl, fun r => Prec.mem_rules⟩
  obtain ⟨p, ws, hp⟩ := prec_parser hP T
  have key : ∀ {i : Nat} {e : Ex T}, Grp P idx i e → ∃ c, ParsesTo idx p e.tokens (.ok e) c := fun h =>
    c67_reads idSeeds idSeeds_fair P hP (exRules T P.rules) (by rw [exRules_plain]) (exRules_transparent _) p ws hp idx _ _ h _ (Ex.value_self hg h.uses)
  obtain ⟨c, h1⟩ := key h
  obtain ⟨c', h2⟩ := key h'
  rw [ht] at h1
  have := (h1.unique h2).1
  injection this

/-- C67: for every input, if callbacks do not fail: it is the text of exactly one expression that is grouped as the levels demand, and `parse`
returns the value of this expression; or it is not the text of one, and `parse` returns `RecoveryRuleNotFound`. -/
theorem c67_every (s : Seeds) (hs : s.Fair) (P : Prec) (hP : P.Ok) (rules : List (Rule N T E)) (hr : (rules.map Rule.plain).Perm P.rules)
    (ht : Transparent rules) (hgen : ∀ r ∈ rules, ∀ l, ∃ v, r.gen l = .ok v) (p : Parser N T E) (ws : List Warning)
    (hp : MakesParser s rules 0 p ws) (idx : T → Nat) (input : List T) :
    (∃ i e, Grp P idx i e ∧ e.tokens = input ∧ (∀ j e', Grp P idx j e' → e'.tokens = input → e' = e) ∧
      ∃ v c, Value rules idx e v ∧ ParsesTo idx p input (.ok v) c) ∨
    ((∀ i e, Grp P idx i e → e.tokens ≠ input) ∧ ∃ c, ParsesTo idx p input (.error .noRecovery) c) := by
  have hg := Prec.gram hr
  have hr' := Prec.prs hr
  by_cases h : ∃ i e, Grp P idx i e ∧ e.tokens = input
  · obtain ⟨i, e, h1, h2⟩ := h
    obtain ⟨v, hv⟩ := h1.value hr' hgen
    obtain ⟨c, h3⟩ := c67_reads s hs P hP rules hr ht p ws hp idx i e h1 v hv
    exact .inl ⟨i, e, h1, h2, fun j e' k1 k2 => k1.tokens_inj hP h1 (k2.trans h2.symm), v, c, hv, h2 ▸ h3⟩
  · have hn : ¬ (gram rules 0).Sentence (input.map idx) := by
      intro hse
      obtain ⟨f, hf⟩ := (sentence_iff (idx := idx) (input := input)).1 hse
      obtain ⟨j, e, k1, _, k2⟩ := hf.ex (fun r hr => (hg.2 r).1 hr)
      exact h ⟨j, e, k1, k2⟩
    refine .inr ⟨fun i e k1 k2 => h ⟨i, e, k1, k2⟩, ?_⟩
    rcases c64_rejects s hs rules 0 hg.ok hg.noError (fun r hr => hg.not_empty r.plain (List.mem_map.2 ⟨r, hr, rfl⟩))
      (fun a h => Nat.lt_irrefl _ (hg.chain h)) p ws hp idx input hn with h | ⟨e, c, h⟩
    · exact h
    · obtain ⟨r, args, rest, rule, _, k1, k2, _⟩ := (c30_first_failure s hs rules 0 hg.ok p ws hp idx input _ c h).1 e rfl
      obtain ⟨v, hv⟩ := hgen rule (List.mem_of_getElem? k1) args
      rw [hv] at k2
      cases k2

/-- C67: an expression of any shape, written with brackets where the levels need them, is read with its value (if the brackets hand on the
value); where none are needed none are written. -/
theorem c67_round_trip (s : Seeds) (hs : s.Fair) (P : Prec) (hP : P.Ok) (rules : List (Rule N T E)) (hr : (rules.map Rule.plain).Perm P.rules)
    (ht : Transparent rules) (p : Parser N T E) (ws : List Warning) (hp : MakesParser s rules 0 p ws) (idx : T → Nat) (o c : T)
    (hoc : (idx o, idx c) ∈ P.pars) (hpar : ∀ r ∈ rules, ∀ a, r.rhs = [tk (idx o), .nt a, tk (idx c)] → ∀ v, r.gen [.tok o, .nt v, .tok c] = .ok v)
    (e : Ex T) (he : e.Uses P idx) :
    (∀ v, Value rules idx e v → ∃ cf, ParsesTo idx p (e.close P idx o c).tokens (.ok v) cf) ∧ (∀ i, Grp P idx i e → e.close P idx o c = e) := by
  refine ⟨fun v hv => ?_, fun i h => h.close hP⟩
  obtain ⟨i, hi⟩ := Ex.close_grp hP hoc he
  refine c67_reads s hs P hP rules hr ht p ws hp idx i _ hi v (hv.close fun v => ?_)
  obtain ⟨r, h1, _, h2⟩ := ((Prec.prs hr) _ _).2 (.par _ _ hoc)
  exact ⟨r, h1, ⟨_, h2⟩, hpar r h1 _ h2 v⟩

/-! ## Examples -/

/-- `=` (right), `<` (not associative), `+ -` (left), `*` (left), `-` (in front), `^` (right), `!` (behind); numbers and names; `( )`, `[ ]`. -/
def pFull : Prec :=
  { levels := [⟨.right, [2]⟩, ⟨.non, [3]⟩, ⟨.left, [4, 5]⟩, ⟨.left, [6]⟩, ⟨.pre, [5]⟩, ⟨.right, [7]⟩, ⟨.post, [8]⟩]
    atoms := [0, 1]
    pars := [(9, 10), (11, 12)] }

theorem pFull_ok : pFull.Ok := ⟨by decide, by decide, by decide, by decide⟩

example : pFull.rules.length = 19 := by decide

/-- The theorems apply: there is a parser for these rules whose callbacks build the expression. -/
example : ∃ p ws, MakesParser idSeeds (exRules Nat pFull.rules) 0 p ws := prec_parser pFull_ok Nat

/-- `a - b - c * d` is `(a - b) - (c * d)`. -/
example : Grp pFull id 2 (.bin (.bin (.atom 0) 5 (.atom 0)) 5 (.bin (.atom 0) 6 (.atom 0))) :=
  .left 2 _ _ _ 2 3 ⟨_, rfl, rfl, by decide⟩
    (.left 2 _ _ _ 7 7 ⟨_, rfl, rfl, by decide⟩ (.atom _ (by decide)) (.atom _ (by decide)) (by decide) (by decide))
    (.left 3 _ _ _ 7 7 ⟨_, rfl, rfl, by decide⟩ (.atom _ (by decide)) (.atom _ (by decide)) (by decide) (by decide)) (by decide) (by decide)

/-- `- a ^ b` is `- (a ^ b)`, `a = b = c` is `a = (b = c)`. -/
example : Grp pFull id 4 (.pre 5 (.bin (.atom 0) 7 (.atom 0))) ∧ Grp pFull id 0 (.bin (.atom 0) 2 (.bin (.atom 0) 2 (.atom 0))) :=
  ⟨.pre 4 _ _ 5 ⟨_, rfl, rfl, by decide⟩
      (.right 5 _ _ _ 7 7 ⟨_, rfl, rfl, by decide⟩ (.atom _ (by decide)) (.atom _ (by decide)) (by decide) (by decide)) (by decide),
    .right 0 _ _ _ 7 0 ⟨_, rfl, rfl, by decide⟩ (.atom _ (by decide))
      (.right 0 _ _ _ 7 7 ⟨_, rfl, rfl, by decide⟩ (.atom _ (by decide)) (.atom _ (by decide)) (by decide) (by decide)) (by decide) (by decide)⟩

/-- `a - (b - c)` needs brackets, `(a - b) - c` does not, `(- a) ^ b` does, `(a < b) < c` does. -/
example : ((Ex.bin (.atom 0) 5 (.bin (.atom 0) 5 (.atom 0))).close pFull id 9 10).tokens = [0, 5, 9, 0, 5, 0, 10] ∧
    ((Ex.bin (.bin (.atom 0) 5 (.atom 0)) 5 (.atom 0)).close pFull id 9 10).tokens = [0, 5, 0, 5, 0] ∧
    ((Ex.bin (.pre 5 (.atom 0)) 7 (.atom 0)).close pFull id 9 10).tokens = [9, 5, 0, 10, 7, 0] ∧
    ((Ex.bin (.bin (.atom 0) 3 (.atom 0)) 3 (.atom 0)).close pFull id 9 10).tokens = [9, 0, 3, 0, 10, 3, 0] := by decide

/-- These are read back as they were meant. -/
example : ∃ p ws, MakesParser idSeeds (exRules Nat pFull.rules) 0 p ws ∧ ∀ i (e : Ex Nat), Grp pFull id i e → ∃ c, ParsesTo id p e.tokens (.ok e) c := by
  obtain ⟨p, ws, hp⟩ := prec_parser pFull_ok Nat
  exact ⟨p, ws, hp, fun i e h => c67_reads idSeeds idSeeds_fair pFull pFull_ok (exRules Nat pFull.rules) (by rw [exRules_plain]) (exRules_transparent _)
    p ws hp id i e h e (Ex.value_self (g := ⟨pFull.rules, 0⟩) ⟨rfl, fun r => Prec.mem_rules⟩ h.uses)⟩

/-- The condition is needed: if a token is both an operator between operands and one behind an operand there are conflicts. -/
theorem c67_roles : ∃ P : Prec, P.atoms ≠ [] ∧ P.before.Nodup ∧ (∀ x ∈ P.pars, x.2 ∉ P.after) ∧ ¬ P.after.Nodup ∧
    ∃ p ws, MakesParser idSeeds (exRules Nat P.rules) 0 p ws ∧ ws ≠ [] := by
  refine ⟨⟨[⟨.left, [1]⟩, ⟨.post, [1]⟩], [0], []⟩, by decide, by decide, by decide, by decide, ?_⟩
  have key : (match newTables 20 idSeeds ⟨(⟨[⟨.left, [1]⟩, ⟨.post, [1]⟩], [0], []⟩ : Prec).rules, 0⟩ with
    | .ok (_, ws) => !ws.isEmpty
    | _ => false) = true := by decide +kernel
  split at key
  · rename_i tab ws h
    refine ⟨⟨_, tab⟩, ws, ⟨⟨20, ?_, by simp⟩, fun _ => .error (), rfl⟩, ?_⟩
    · rw [gram, exRules_plain]
      exact h
    · rintro rfl
      simp at key
  · cases key

end Verif.Par
