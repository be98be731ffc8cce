import Verif.Par.GiveUp
import Verif.Props.ParRightmost
import Verif.Props.ParReject
import Verif.Props.ParSource

/-!
# When `parse` gives up: C61
-/

namespace Verif.Par

variable {N T E : Type}

/-- Some error rule can begin its `error` at the very beginning. -/
def Gram.ErrorFirst (g : Gram) : Prop := ∃ r, g.ErrorAt r []

/-- Error rules come in groups: at two places that have an error rule in common, the same error rules can begin. -/
def Gram.ErrorsGrouped (g : Gram) : Prop :=
  ∀ γ γ' r r', g.ErrorAt r γ → g.ErrorAt r γ' → g.ErrorAt r' γ → g.ErrorAt r' γ'

theorem Gram.ErrorsGrouped.grouped {g : Gram} {fresh : Nat} (h : g.ErrorsGrouped) (hfr : g.Fruitful) (hf : ¬ g.Used fresh) :
    Grouped (g.aug fresh) g.rules.length := by
  intro γ γ' r r' h1 h2 h3
  rw [Gram.errRule_iff hfr hf] at h1 h2 h3 ⊢
  exact h γ γ' r r' h1 h2 h3

/-- C61: if some error rule can begin at the very beginning, then `parse` does not return `RecoveryRuleNotFound` before it has read the
whole input and has been told that it ends.  This needs a condition on which error rules there are at the same place: they come in
groups, or they all can begin at the beginning. -/
theorem c61_only_at_end (o : Seeds) (ho : o.Fair) (rules : List (Rule N T E)) (start : Nat) (hok : (gram rules start).Ok)
    (hfr : (gram rules start).Fruitful) (h0 : (gram rules start).ErrorFirst)
    (hg : (gram rules start).ErrorsGrouped ∨ ∀ γ r, (gram rules start).ErrorAt r γ → (gram rules start).ErrorAt r [])
    (p : Parser N T E) (ws : List Warning) (hm : MakesParser o rules start p ws) (idx : T → Nat) (input : List T) (c : Cfg N T)
    (h : ParsesTo idx p input (.error .noRecovery) c) : c.pulls = input.length + 1 := by
  have hle : c.pulls ≤ input.length + 1 := by
    obtain ⟨n, hn⟩ := h
    exact c31_pulls o ho rules start hok p ws hm idx input n c (.inr ⟨_, hn⟩)
  obtain ⟨fresh, hx⟩ := ctx_of_makes ho hok hm
  have hl : (gram rules start).rules.length = rules.length := by simp [gram]
  have herr : ∀ γ r, ErrRule ((gram rules start).aug fresh) rules.length γ r ↔ (gram rules start).ErrorAt r γ := by
    intro γ r
    rw [← hl]
    exact Gram.errRule_iff hfr hx.unused
  obtain ⟨n, hn⟩ := h
  obtain ⟨⟨o', h1⟩, h2⟩ := (MachSim.init (p := p) (idx := idx) (input := input)).run hx n
  have h3 := h2 o' h1
  rw [hn] at h3
  cases o' with
  | more m => exact absurd h3 id
  | panic => exact absurd h3 id
  | done x m' =>
    have hx' : x = .error .noRecovery := h3.1.symm
    subst hx'
    have hpulls : c.pulls = m'.pulls := h3.2.2
    obtain ⟨r0, hr0⟩ := h0
    have hnever : ∃ m1 : Mach N T, (¬ ∀ keep drop, m1.pieces = keep ++ drop → ∀ r, ¬ Choice ((gram rules start).aug fresh) rules.length m1.pending (keep.map (Piece.sym idx)) r) ∧
        MStep rules ((gram rules start).aug fresh) rules.length start idx input m1 (.done (.error .noRecovery) m') := by
      rcases hg with hg | hg
      · have hgr := hg.grouped hfr hx.unused
        rw [hl] at hgr
        have hinv := h1.invariant (P := Held ((gram rules start).aug fresh) rules.length idx) (by
          intro m m' hm hs
          refine hm.step ?_ ?_ hgr hs
          · intro r rule hr
            exact (Gram.aug_get (by simp [gram, hr])).1
          · exact ⟨⟨fresh, [.nt start]⟩, by rw [← hl]; simp [Gram.aug, gram]⟩) (.inl fun r h => h)
        obtain ⟨m1, h4, h5⟩ := hinv.2 _ _ rfl
        exact ⟨m1, fun hch => h4.giveUp hch [] m1.pieces rfl r0 ((herr _ _).2 hr0), h5⟩
      · have hinv := h1.invariant (P := fun m => ∀ r, m.pending r → ∃ γ, ErrRule ((gram rules start).aug fresh) rules.length γ r)
          (fun m m' hm hs => pending_errRule hm hs) (fun r h => absurd h id)
        obtain ⟨m1, h4, h5⟩ := hinv.2 _ _ rfl
        refine ⟨m1, fun hch => ?_, h5⟩
        by_cases hp : ∃ r, m1.pending r
        · obtain ⟨r, hr⟩ := hp
          obtain ⟨γ, hγ⟩ := h4 r hr
          exact hch [] m1.pieces rfl r ⟨(herr _ _).2 (hg γ r ((herr _ _).1 hγ)), .inr hr⟩
        · exact hch [] m1.pieces rfl r0 ⟨(herr _ _).2 hr0, .inl fun r hr => hp ⟨r, hr⟩⟩
    obtain ⟨m1, h4, h5⟩ := hnever
    cases h5 with
    | giveUp t k1 k2 k3 => exact absurd k3 h4
    | giveUpEnd k1 k2 k3 =>
      have := look_pulls k1
      omega

/-- C61: in front of a token, `parse` returns `RecoveryRuleNotFound` only if no error rule can begin behind any part of what has been read
(if error rules come in groups); in particular once an error symbol has been read, further errors are recovered until its rule is
complete. -/
theorem c61_no_place (o : Seeds) (ho : o.Fair) (rules : List (Rule N T E)) (start : Nat) (hok : (gram rules start).Ok)
    (hfr : (gram rules start).Fruitful) (hg : (gram rules start).ErrorsGrouped)
    (p : Parser N T E) (ws : List Warning) (hm : MakesParser o rules start p ws) :
    ∃ fresh, ¬ (gram rules start).Used fresh ∧ ∀ (idx : T → Nat) (input : List T) (c : Cfg N T),
      ParsesTo idx p input (.error .noRecovery) c → c.pulls ≤ input.length →
      ∃ n m m', MRun rules ((gram rules start).aug fresh) rules.length start idx input n Mach.init (.more m) ∧
        MStep rules ((gram rules start).aug fresh) rules.length start idx input m (.done (.error .noRecovery) m') ∧
        m'.calls = c.log.reverse ∧ m'.pulls = c.pulls ∧ (∀ r, ¬ m.pending r) ∧
        ∀ γ, γ <+: m.read idx → ∀ r, ¬ (gram rules start).ErrorAt r γ := by
  obtain ⟨fresh, hx⟩ := ctx_of_makes ho hok hm
  refine ⟨fresh, hx.unused, ?_⟩
  intro idx input c ⟨n, hn⟩ hc
  have hl : (gram rules start).rules.length = rules.length := by simp [gram]
  obtain ⟨⟨o', h1⟩, h2⟩ := (MachSim.init (p := p) (idx := idx) (input := input)).run hx n
  have h3 := h2 o' h1
  rw [hn] at h3
  cases o' with
  | more m => exact absurd h3 id
  | panic => exact absurd h3 id
  | done x m' =>
    have hx' : x = .error .noRecovery := h3.1.symm
    subst hx'
    have hpulls : c.pulls = m'.pulls := h3.2.2
    have hgr := hg.grouped hfr hx.unused
    rw [hl] at hgr
    have hlast : ∀ {n : Nat} {m : Mach N T} {o'}, MRun rules ((gram rules start).aug fresh) rules.length start idx input n m o' →
        ∀ x m', o' = .done x m' → ∃ k m1, MRun rules ((gram rules start).aug fresh) rules.length start idx input k m (.more m1) ∧
          MStep rules ((gram rules start).aug fresh) rules.length start idx input m1 (.done x m') := by
      intro n m o' hr
      induction hr with
      | zero m => intro x m' h; cases h
      | more n m m1 o' k1 _ ih =>
        intro x m' h
        obtain ⟨k, m2, k2, k3⟩ := ih x m' h
        exact ⟨k + 1, m2, .more _ _ _ _ k1 k2, k3⟩
      | done n m x m' k1 => intro x m' h; cases h; exact ⟨0, m, .zero m, k1⟩
      | panic => intro x m' h; cases h
    obtain ⟨k, m, k1, k2⟩ := hlast h1 _ _ rfl
    have hheld : Held ((gram rules start).aug fresh) rules.length idx m := by
      refine (k1.invariant (P := Held ((gram rules start).aug fresh) rules.length idx) ?_ (.inl fun r h => h)).1 _ rfl
      intro m m' hm hs
      refine hm.step ?_ ?_ hgr hs
      · intro r rule hr
        exact (Gram.aug_get (by simp [gram, hr])).1
      · exact ⟨⟨fresh, [.nt start]⟩, by rw [← hl]; simp [Gram.aug, gram]⟩
    refine ⟨k, m, m', k1, k2, h3.2.1.symm, hpulls.symm, ?_⟩
    cases k2 with
    | giveUpEnd j1 j2 j3 =>
      have := look_pulls j1
      omega
    | giveUp t j1 j2 j3 =>
      have hall := hheld.giveUp j3
      refine ⟨?_, ?_⟩
      · rcases hheld with h | ⟨keep, lo, hi, rest, e1, e2⟩
        · exact h
        · intro r hr
          exact hall keep _ e1 r ((e2 r).1 hr)
      · intro γ hγ r hr
        have e : ∃ keep drop, m.pieces = keep ++ drop ∧ keep.map (Piece.sym idx) = γ := by
          refine ⟨m.pieces.take γ.length, m.pieces.drop γ.length, (List.take_append_drop _ _).symm, ?_⟩
          rw [List.map_take]
          exact (List.prefix_iff_eq_take.1 hγ).symm
        obtain ⟨keep, drop, e1, rfl⟩ := e
        refine hall keep drop e1 r ?_
        rw [← hl]
        exact (Gram.errRule_iff hfr hx.unused).2 hr

/-- The conditions of `c61_only_at_end` hold if the start symbol has a rule that begins with `error` and no other rule contains `error`. -/
theorem one_error_rule {g : Gram} {r0 : Nat} {rule : PRule} (h0 : g.rules[r0]? = some rule) (hs : rule.lhs = g.start)
    (he : rule.rhs.head? = some (.tm .err)) (h1 : ∀ r' rule', g.rules[r']? = some rule' → .tm .err ∈ rule'.rhs → r' = r0) :
    g.ErrorFirst ∧ g.ErrorsGrouped := by
  have hone : ∀ γ r, g.ErrorAt r γ → r = r0 := by
    rintro γ r ⟨rule', x, v, α, β, k1, _, k3, _⟩
    exact h1 r rule' k1 (by rw [k3]; simp)
  refine ⟨⟨r0, rule, [], [], [], rule.rhs.tail, h0, ⟨rule, 0, h0, ?_⟩, ?_, rfl⟩, ?_⟩
  · rw [hs]; exact .zero
  · cases hr : rule.rhs with
    | nil => rw [hr] at he; cases he
    | cons X β => rw [hr] at he; simp at he; rw [he]; rfl
  · intro γ γ' r r' k1 k2 k3
    rw [hone _ _ k3, ← hone _ _ k2]
    exact k2

/-- C61: on an endless source, such a parser never returns `RecoveryRuleNotFound`. -/
theorem c61_endless (o : Seeds) (ho : o.Fair) (rules : List (Rule N T E)) (start : Nat) (hok : (gram rules start).Ok)
    (hfr : (gram rules start).Fruitful) (h0 : (gram rules start).ErrorFirst)
    (hg : (gram rules start).ErrorsGrouped ∨ ∀ γ r, (gram rules start).ErrorAt r γ → (gram rules start).ErrorAt r [])
    (p : Parser N T E) (ws : List Warning) (hm : MakesParser o rules start p ws) (idx : T → Nat) (nxt : Source σ T) (s : σ)
    (he : Endless nxt s) (c : Cfg N T) (s' : σ) : ¬ ParsesFrom idx nxt p s (.error .noRecovery) c s' := by
  intro h
  obtain ⟨l, hl, hb⟩ := he.begins c.pulls
  obtain ⟨c0, h1, _, h2⟩ := ((c46_endless o ho rules start hok p ws hm idx nxt s he).2.2 _ c s' h).2 l hb (by omega)
  have := c61_only_at_end o ho rules start hok hfr h0 hg p ws hm idx l c0 h1
  omega

/-! ## Examples -/

theorem gList_error_first : gList.ErrorFirst :=
  ⟨3, _, [], [], [], [.tm (.sym 1)], rfl, ⟨_, 1, rfl, .step 0 [] ⟨0, [.nt 1]⟩ [] .zero (by simp [gList])⟩, rfl, rfl⟩

theorem gList_grouped : gList.ErrorsGrouped := by
  have hone : ∀ γ r, gList.ErrorAt r γ → r = 3 := by
    rintro γ r ⟨rule, x, v, α, β, h1, _, h3, _⟩
    have hr : .tm .err ∈ rule.rhs := by rw [h3]; simp
    rcases r with _ | _ | _ | _ | r <;> simp [gList] at h1 <;> subst h1 <;> simp at hr ⊢
  intro γ γ' r r' h1 h2 h3
  rw [hone _ _ h3, ← hone _ _ h2]
  exact h2

/-- With the list grammar `parse` reads any input to the end; it gives up if the last item is not terminated, … -/
example (input : List Nat) (c : Cfg Nat Nat) (h : ParsesTo id pList input (.error .noRecovery) c) : c.pulls = input.length + 1 :=
  c61_only_at_end idSeeds idSeeds_fair (plainRules gList) 0 (by decide) gList_fruitful gList_error_first (.inl gList_grouped) pList [] pList_makes
    id input c h

/-- … as here. -/
example : ∃ c, ParsesTo id pList [0, 1, 2, 1, 2] (.error .noRecovery) c ∧ c.pulls = 6 := ⟨_, ⟨40, rfl⟩, rfl⟩

/-- `c61_endless` for the list grammar and the source that answers `a a a …`. -/
example (c : Cfg Nat Nat) (s' : Unit) : ¬ ParsesFrom id (fun _ => (some 0, ())) pList () (.error .noRecovery) c s' :=
  c61_endless idSeeds idSeeds_fair (plainRules gList) 0 (by decide) gList_fruitful gList_error_first (.inl gList_grouped) pList [] pList_makes id _ ()
    (fun k => by simp [answer]) c s'

/-- `A → x error | x y` on `y x`: behind nothing at all there is no error rule, and `parse` gives up in front of the first token. -/
example : ∃ fresh n m m', MRun (plainRules gTail) (gTail.aug fresh) 2 0 id [1, 0] n (Mach.init : Mach Nat Nat) (.more m) ∧
    MStep (plainRules gTail) (gTail.aug fresh) 2 0 id [1, 0] m (.done (.error .noRecovery) m') ∧ m'.pulls = 1 ∧
    ∀ γ, γ <+: m.read id → ∀ r, ¬ gTail.ErrorAt r γ := by
  have hfr : gTail.Fruitful := by
    intro x n y h
    have := h.mem (.nt n) (by simp)
    simp [gTail] at this
    subst this
    exact ⟨[.sym 0, .sym 1], gen_iff.1 (Gen.rule (r := ⟨0, [.tm (.sym 0), .tm (.sym 1)]⟩) (by simp [gTail]))⟩
  have hg : gTail.ErrorsGrouped := by
    have hone : ∀ γ r, gTail.ErrorAt r γ → r = 0 := by
      rintro γ r ⟨rule, x, v, α, β, h1, _, h3, _⟩
      have hr : .tm .err ∈ rule.rhs := by rw [h3]; simp
      rcases r with _ | _ | r <;> simp [gTail] at h1 <;> subst h1 <;> simp at hr ⊢
    intro γ γ' r r' h1 h2 h3
    rw [hone _ _ h3, ← hone _ _ h2]
    exact h2
  obtain ⟨fresh, _, h⟩ := c61_no_place idSeeds idSeeds_fair (plainRules gTail) 0 (by decide) hfr hg pTail [] pTail_makes
  obtain ⟨n, m, m', h1, h2, _, h3, _, h4⟩ := h id [1, 0] _ ⟨10, rfl⟩ (by decide)
  exact ⟨fresh, n, m, m', h1, h2, h3, h4⟩

/-! ## Without groups: an abandoned rule stays pending -/

/-- `Z → S d d | error d; S → b P; P → error A | Q; Q → error q; A → Q | error v` -/
def gLost : Gram := ⟨[⟨0, [.nt 1, .tm (.sym 0), .tm (.sym 0)]⟩, ⟨0, [.tm .err, .tm (.sym 0)]⟩, ⟨1, [.tm (.sym 1), .nt 2]⟩, ⟨2, [.tm .err, .nt 4]⟩, ⟨2, [.nt 3]⟩,
  ⟨3, [.tm .err, .tm (.sym 2)]⟩, ⟨4, [.nt 3]⟩, ⟨4, [.tm .err, .tm (.sym 3)]⟩], 0⟩

def pLost : Parser Nat Nat Nat :=
  ⟨plainRules gLost ++ [⟨5, [.nt 0], fun _ => .error 0⟩],
   { action := [(0, [(.err, .shift 2), (.sym 1, .shift 3)]), (1, [(.sym 0, .shift 5)]), (2, [(.sym 0, .shift 6)]), (3, [(.err, .shift 8)]),
       (4, [(.eoi, .accept)]), (5, [(.sym 0, .shift 10)]), (6, [(.eoi, .reduce 1)]), (7, [(.sym 0, .reduce 2)]),
       (8, [(.err, .shift 12), (.sym 2, .shift 13)]), (9, [(.sym 0, .reduce 4)]), (10, [(.eoi, .reduce 0)]), (11, [(.sym 0, .reduce 3)]),
       (12, [(.sym 2, .shift 13), (.sym 3, .shift 15)]), (13, [(.sym 0, .reduce 5)]), (14, [(.sym 0, .reduce 6)]), (15, [(.sym 0, .reduce 7)])]
     goto := [(0, [(1, 1), (0, 4)]), (3, [(2, 7), (3, 9)]), (8, [(4, 11), (3, 14)])]
     errors := [(0, [1]), (3, [3, 5]), (8, [5, 7])]
     start := 0 }⟩

theorem pLost_makes : MakesParser idSeeds (plainRules gLost) 0 pLost [] := ⟨⟨60, by decide, by simp⟩, _, rfl⟩

/-- C61: without the condition on groups it fails.  Here the start symbol has the rule `Z → error d`, and there are no warnings.
In `b ! v d ! d` two errors have been completed when the second `!` is read, but a rule that was given up in favour of another
(`Q → error q`) is still pending, so `Z → error d` is not taken and `parse` gives up in front of the second `!`.
In `b ! q d ! d` that rule is completed, and `parse` recovers from the same second error. -/
theorem c61_lost : MakesParser idSeeds (plainRules gLost) 0 pLost [] ∧ gLost.ErrorFirst ∧
    (∃ c, ParsesTo id pLost [1, 4, 3, 0, 4, 0] (.error .noRecovery) c ∧ c.pulls = 5 ∧
      c.log.reverse = [(7, [.err [4], .tok 3]), (3, [.err [4], .nt 2]), (2, [.tok 1, .nt 2])]) ∧
    ∃ v c, ParsesTo id pLost [1, 4, 2, 0, 4, 0] (.ok v) c :=
  ⟨pLost_makes, ⟨1, _, [], [], [], [.tm (.sym 0)], rfl, ⟨_, 0, rfl, .zero⟩, rfl, rfl⟩, ⟨_, ⟨60, rfl⟩, rfl, rfl⟩, ⟨_, _, ⟨60, rfl⟩⟩⟩

end Verif.Par
