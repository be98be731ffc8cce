import Verif.Replay.Par
import Verif.Par.ContractProof
import Verif.Par.LL1Check

/-!
# The parser with error rules of `parser/src/iter.rs:230-321`, for every input

The types and rules are those of `Verif/Replay/Par.lean`, where the assertions of the test are replayed.  Specification: how the
values look and how they are written.
-/

namespace Verif.TestErr

open Verif.Par Verif.Replay.Par

/-- The values without error nodes that the rules can make for `Add`, `Prod` and `Item` (numbers 0, 1 and 2). -/
inductive Whole : Nat → Nn → Prop
  | add (l) : l ≠ [] → (∀ x ∈ l, Whole 1 x) → Whole 0 (.add l)
  | prod (l) : l ≠ [] → (∀ x ∈ l, Whole 2 x) → Whole 1 (.prod l)
  | number (n) : Whole 2 (.number n)
  | inner (x) : Whole 0 x → Whole 2 (.inner x)

mutual
/-- How a value is written. -/
def text : Nn → List Tm
  | .add l => texts .plus l
  | .prod l => texts .star l
  | .number n => [.i n]
  | .inner x => .bracket :: (text x ++ [.closeBracket])
  | .bad l => l
/-- Values with a token between any two of them. -/
def texts (s : Tm) : List Nn → List Tm
  | [] => []
  | x :: l => text x ++ more s l
/-- Values with a token before each of them. -/
def more (s : Tm) : List Nn → List Tm
  | [] => []
  | x :: l => s :: (text x ++ more s l)
end

mutual
/-- There is an error node in the value. -/
def marked : Nn → Bool
  | .add l => anyMarked l
  | .prod l => anyMarked l
  | .number _ => false
  | .inner x => marked x
  | .bad _ => true
def anyMarked : List Nn → Bool
  | [] => false
  | x :: l => marked x || anyMarked l
end

/-- What the callbacks take apart. -/
def Variant : Nat → Nn → Prop
  | 0, v => ∃ l, v = .add l
  | 1, v => ∃ l, v = .prod l
  | _, _ => True

theorem anyMarked_append (l l' : List Nn) : anyMarked (l ++ l') = (anyMarked l || anyMarked l') := by
  induction l with
  | nil => simp [anyMarked]
  | cons x l ih => simp [anyMarked, ih, Bool.or_assoc]

theorem more_append (s : Tm) (l l' : List Nn) : more s (l ++ l') = more s l ++ more s l' := by
  induction l with
  | nil => simp [more]
  | cons x l ih => simp [more, ih]

theorem texts_concat (s : Tm) {l : List Nn} (hl : l ≠ []) (x : Nn) : texts s (l ++ [x]) = texts s l ++ s :: text x := by
  cases l with
  | nil => exact absurd rfl hl
  | cons y l => simp [texts, more_append, more]

/-! ## Arguments -/

section
variable {N T : Type} {idx : T → Nat} {Q : Nat → N → Prop}

theorem fit_cons {u : Sym} {us : List Sym} {args : List (Arg N T)} (h : ArgsFit idx Q (u :: us) args) :
    ∃ a as, args = a :: as ∧ a.Fits idx Q u ∧ ArgsFit idx Q us as := by
  obtain ⟨h1, h2⟩ := h
  cases args with
  | nil => simp at h1
  | cons a as =>
    exact ⟨a, as, rfl, h2 0 u a rfl rfl, by simpa using h1, fun i x b hx hb => h2 (i + 1) x b (by simpa using hx) (by simpa using hb)⟩

theorem fit_nil {args : List (Arg N T)} (h : ArgsFit idx Q [] args) : args = [] := by
  have := h.1
  cases args with
  | nil => rfl
  | cons a as => simp at this

theorem fits_nt {n : Nat} {a : Arg N T} (h : a.Fits idx Q (.nt n)) : ∃ v, a = .nt v ∧ Q n v := by
  cases a with
  | nt v => exact ⟨v, rfl, h⟩
  | tok t => exact absurd h (by simp [Arg.Fits])
  | err l => exact absurd h (by simp [Arg.Fits])

theorem fits_tok {k : Nat} {a : Arg N T} (h : a.Fits idx Q (.tm (.sym k))) : ∃ t, a = .tok t ∧ idx t = k := by
  cases a with
  | nt v => exact absurd h (by simp [Arg.Fits])
  | tok t => exact ⟨t, rfl, h⟩
  | err l => exact absurd h (by simp [Arg.Fits])

theorem fits_err {a : Arg N T} (h : a.Fits idx Q (.tm .err)) : ∃ l, a = .err l ∧ l ≠ [] := by
  cases a with
  | nt v => exact absurd h (by simp [Arg.Fits])
  | tok t => exact absurd h (by simp [Arg.Fits])
  | err l => exact ⟨l, rfl, h⟩
end

/-- An argument is an error slice or has an error node. -/
def Notes (a : Arg Nn Tm) : Prop := (∃ l, a = .err l) ∨ ∃ v, a = .nt v ∧ marked v = true

theorem index_i {t : Tm} (h : Tm.index t = 4) : ∃ n, t = .i n := by cases t <;> simp [Tm.index] at h; exact ⟨_, rfl⟩

/-- Given fitting arguments no callback runs into `unreachable!()`; the result is of the right variant, and error nodes are kept. -/
theorem gen_fit (rule : Rule Nn Tm Unit) (hr : rule ∈ errRules) (args : List (Arg Nn Tm))
    (ha : ArgsFit Tm.index Variant rule.rhs args) :
    ∃ v, rule.gen args = .ok v ∧ Variant rule.lhs v ∧ ∀ a ∈ args, Notes a → marked v = true := by
  simp only [errRules, List.mem_cons, List.not_mem_nil, or_false] at hr
  rcases hr with rfl | rfl | rfl | rfl | rfl | rfl | rfl | rfl | rfl
  all_goals simp only at ha ⊢
  all_goals obtain ⟨a, _, rfl, ha1, ha⟩ := fit_cons ha
  · obtain ⟨b, _, rfl, hb1, ha⟩ := fit_cons ha
    obtain ⟨c, _, rfl, hc1, ha⟩ := fit_cons ha
    obtain rfl := fit_nil ha
    obtain ⟨_, rfl, l, rfl⟩ := fits_nt ha1
    obtain ⟨t, rfl, _⟩ := fits_tok hb1
    obtain ⟨y, rfl, _⟩ := fits_nt hc1
    refine ⟨_, rfl, ⟨_, rfl⟩, ?_⟩
    simp [Notes, marked, anyMarked_append, anyMarked]
    exact ⟨.inl, .inr⟩
  · obtain ⟨b, _, rfl, hb1, ha⟩ := fit_cons ha
    obtain ⟨c, _, rfl, hc1, ha⟩ := fit_cons ha
    obtain rfl := fit_nil ha
    obtain ⟨l, rfl, _⟩ := fits_err ha1
    obtain ⟨t, rfl, _⟩ := fits_tok hb1
    obtain ⟨y, rfl, _⟩ := fits_nt hc1
    exact ⟨_, rfl, ⟨_, rfl⟩, by simp [marked, anyMarked]⟩
  · obtain ⟨b, _, rfl, hb1, ha⟩ := fit_cons ha
    obtain ⟨c, _, rfl, hc1, ha⟩ := fit_cons ha
    obtain rfl := fit_nil ha
    obtain ⟨l, rfl, _⟩ := fits_err ha1
    obtain ⟨t, rfl, _⟩ := fits_tok hb1
    obtain ⟨y, rfl, _⟩ := fits_err hc1
    exact ⟨_, rfl, ⟨_, rfl⟩, by simp [marked, anyMarked]⟩
  · obtain rfl := fit_nil ha
    obtain ⟨y, rfl, _⟩ := fits_nt ha1
    exact ⟨_, rfl, ⟨_, rfl⟩, by simp [Notes, marked, anyMarked]⟩
  · obtain ⟨b, _, rfl, hb1, ha⟩ := fit_cons ha
    obtain ⟨c, _, rfl, hc1, ha⟩ := fit_cons ha
    obtain rfl := fit_nil ha
    obtain ⟨_, rfl, l, rfl⟩ := fits_nt ha1
    obtain ⟨t, rfl, _⟩ := fits_tok hb1
    obtain ⟨y, rfl, _⟩ := fits_nt hc1
    refine ⟨_, rfl, ⟨_, rfl⟩, ?_⟩
    simp [Notes, marked, anyMarked_append, anyMarked]
    exact ⟨.inl, .inr⟩
  · obtain rfl := fit_nil ha
    obtain ⟨y, rfl, _⟩ := fits_nt ha1
    exact ⟨_, rfl, ⟨_, rfl⟩, by simp [Notes, marked, anyMarked]⟩
  · obtain ⟨b, _, rfl, hb1, ha⟩ := fit_cons ha
    obtain ⟨c, _, rfl, hc1, ha⟩ := fit_cons ha
    obtain rfl := fit_nil ha
    obtain ⟨t, rfl, _⟩ := fits_tok ha1
    obtain ⟨y, rfl, _⟩ := fits_nt hb1
    obtain ⟨t', rfl, _⟩ := fits_tok hc1
    exact ⟨_, rfl, trivial, by simp [Notes, marked]⟩
  · obtain ⟨b, _, rfl, hb1, ha⟩ := fit_cons ha
    obtain ⟨c, _, rfl, hc1, ha⟩ := fit_cons ha
    obtain rfl := fit_nil ha
    obtain ⟨t, rfl, _⟩ := fits_tok ha1
    obtain ⟨y, rfl, _⟩ := fits_err hb1
    obtain ⟨t', rfl, _⟩ := fits_tok hc1
    exact ⟨_, rfl, trivial, by simp [marked]⟩
  · obtain rfl := fit_nil ha
    obtain ⟨t, rfl, ht⟩ := fits_tok ha1
    obtain ⟨n, rfl⟩ := index_i ht
    exact ⟨_, rfl, trivial, by simp [Notes]⟩

theorem keeps : Keeps Tm.index Variant errRules := by
  intro rule hr args v ha hg
  obtain ⟨v', h1, h2, _⟩ := gen_fit rule hr args ha
  rw [h1] at hg
  cases hg
  exact h2

/-- Error leaves are seen in the values. -/
theorem evals_notes {input : List Tm} {fs : List (Tree Tm)} {lg : List (Call Nn Tm)} {r : Except Unit (List (Arg Nn Tm))}
    (he : Evals errRules fs lg r) : ∀ {us args}, r = .ok args → Built (errRules.map Rule.plain) Tm.index input us fs → errs fs ≠ [] →
      ∃ a ∈ args, Notes a := by
  induction he with
  | nil => intro us args _ _ h; exact absurd rfl h
  | leaf i t fs lg as _ ih =>
    intro us args h hb hn
    cases h
    cases hb with
    | leaf _ _ us _ _ hb =>
      obtain ⟨a, h1, h2⟩ := ih rfl hb (by simpa [errs, Tree.errs] using hn)
      exact ⟨a, .tail _ h1, h2⟩
  | err lo l fs lg as _ ih =>
    intro us args h hb hn
    cases h
    exact ⟨_, .head _, .inl ⟨l, rfl⟩⟩
  | node r rule cs lg1 args v fs lg2 as hr h1 hg _ ih1 ih2 =>
    intro us args' h hb hn
    cases h
    cases hb with
    | node _ rule' _ us _ hr' hb1 hb2 =>
      simp only [errs, Tree.errs] at hn
      have hrr : rule' = rule.plain := by
        rw [List.getElem?_map, hr] at hr'
        exact (Option.some.inj hr').symm
      subst hrr
      by_cases hc : errs cs = []
      · obtain ⟨a, h3, h4⟩ := ih2 rfl hb2 (by simpa [hc] using hn)
        exact ⟨a, .tail _ h3, h4⟩
      · obtain ⟨a, h3, h4⟩ := ih1 rfl hb1 hc
        obtain ⟨v', h5, _, h6⟩ := gen_fit rule (List.mem_of_getElem? hr) args (evals_fit keeps h1 rfl hb1)
        rw [hg] at h5
        cases h5
        exact ⟨_, .head _, .inr ⟨v, rfl, h6 a h3 h4⟩⟩
  | leafE => intro us args h; cases h
  | errE => intro us args h; cases h
  | nodeE => intro us args h; cases h
  | fail => intro us args h; cases h
  | inner => intro us args h; cases h

/-! ## What follows an error -/

/-- The terminals of the symbols are at the leaves. -/
theorem built_leaf {R : List PRule} {idx : T → Nat} {input : List T} {us : List Sym} {fs : List (Tree T)} (h : Built R idx input us fs)
    {k : Nat} (hk : .tm (.sym k) ∈ us) : ∃ x ∈ leaves fs, idx x.1 = k := by
  induction h with
  | nil => cases hk
  | leaf i t us fs _ _ ih =>
    simp only [leaves, Tree.leaves]
    rcases List.mem_cons.1 hk with e | hk
    · cases e
      exact ⟨(t, i), by simp, rfl⟩
    · obtain ⟨x, h1, h2⟩ := ih hk
      exact ⟨x, by simp [h1], h2⟩
  | err lo l us fs _ _ _ ih =>
    obtain ⟨x, h1, h2⟩ := ih (by simpa using hk)
    exact ⟨x, by simp [leaves, Tree.leaves, h1], h2⟩
  | node r rule cs us fs _ _ _ _ ih =>
    obtain ⟨x, h1, h2⟩ := ih (by simpa using hk)
    exact ⟨x, by simp [leaves, Tree.leaves, h1], h2⟩

/-- Leaves are tokens of the input. -/
theorem built_mem {R : List PRule} {idx : T → Nat} {input : List T} {us : List Sym} {fs : List (Tree T)} (h : Built R idx input us fs) :
    ∀ x ∈ leaves fs, x.1 ∈ input := by
  induction h with
  | nil => intro x hx; simp [leaves] at hx
  | leaf i t us fs hi _ ih =>
    intro x hx
    simp only [leaves, Tree.leaves, List.singleton_append, List.mem_cons] at hx
    rcases hx with rfl | hx
    · exact List.mem_of_getElem? hi
    · exact ih x hx
  | err lo l us fs _ _ _ ih =>
    intro x hx
    exact ih x (by simpa [leaves, Tree.leaves] using hx)
  | node r rule cs us fs _ _ _ ih1 ih2 =>
    intro x hx
    simp only [leaves, Tree.leaves, List.mem_append] at hx
    rcases hx with hx | hx
    · exact ih1 x hx
    · exact ih2 x hx

/-- With an error leaf there is a `+` or a `)`. -/
theorem built_after {input : List Tm} {us : List Sym} {fs : List (Tree Tm)} (h : Built (errRules.map Rule.plain) Tm.index input us fs)
    (he : errs fs ≠ []) : .tm .err ∈ us ∨ ∃ x ∈ leaves fs, Tm.index x.1 = 0 ∨ Tm.index x.1 = 3 := by
  induction h with
  | nil => exact absurd rfl he
  | leaf i t us fs _ _ ih =>
    rcases ih (by simpa [errs, Tree.errs] using he) with h | ⟨x, h1, h2⟩
    · exact .inl (.tail _ h)
    · exact .inr ⟨x, by simp [leaves, h1], h2⟩
  | err lo l us fs _ _ _ ih => exact .inl (.head _)
  | node r rule cs us fs hr hb _ ih1 ih2 =>
    by_cases hc : errs cs = []
    · rcases ih2 (by simpa [errs, Tree.errs, hc] using he) with h | ⟨x, h1, h2⟩
      · exact .inl (.tail _ h)
      · exact .inr ⟨x, by simp [leaves, h1], h2⟩
    · right
      rcases ih1 hc with h | ⟨x, h1, h2⟩
      · have key : ∀ r ∈ errRules.map Rule.plain, .tm .err ∈ r.rhs → Sym.tm (.sym 0) ∈ r.rhs ∨ Sym.tm (.sym 3) ∈ r.rhs := by decide
        rcases key rule (List.mem_of_getElem? hr) h with h | h
        · obtain ⟨x, h1, h2⟩ := built_leaf hb h
          exact ⟨x, by simp [leaves, Tree.leaves, h1], .inl h2⟩
        · obtain ⟨x, h1, h2⟩ := built_leaf hb h
          exact ⟨x, by simp [leaves, Tree.leaves, h1], .inr h2⟩
      · exact ⟨x, by simp [leaves, Tree.leaves, h1], h2⟩

/-! ## Values without error nodes stand for what is written -/

/-- The value is whole and is written like this. -/
def Stands (n : Nat) (w : List Tm) (v : Nn) : Prop := Whole n v ∧ text v = w

section
variable {T N : Type} {idx : T → Nat} {Q : Nat → List T → N → Prop}

theorem spans_nt {n : Nat} {us : List Sym} {args : List (Arg N T)} {w : List T} (h : Spans idx Q (.nt n :: us) args w) :
    ∃ v u as w', args = .nt v :: as ∧ w = u ++ w' ∧ Q n u v ∧ Spans idx Q us as w' := by
  cases h with
  | nt n v u us as w hq h => exact ⟨v, u, as, w, rfl, rfl, hq, h⟩

theorem spans_tok {k : Nat} {us : List Sym} {args : List (Arg N T)} {w : List T} (h : Spans idx Q (.tm (.sym k) :: us) args w) :
    ∃ t as w', args = .tok t :: as ∧ w = t :: w' ∧ idx t = k ∧ Spans idx Q us as w' := by
  cases h with
  | tok t us as w h => exact ⟨t, as, w, rfl, rfl, rfl, h⟩

theorem spans_nil {args : List (Arg N T)} {w : List T} (h : Spans idx Q [] args w) : args = [] ∧ w = [] := by
  cases h
  exact ⟨rfl, rfl⟩
end

theorem index_token {t : Tm} : (Tm.index t = 0 → t = .plus) ∧ (Tm.index t = 1 → t = .star) ∧ (Tm.index t = 2 → t = .bracket) ∧
    (Tm.index t = 3 → t = .closeBracket) := by cases t <;> simp [Tm.index]

theorem computes : Computes Tm.index Stands errRules := by
  intro rule hr args w v hs hg
  simp only [errRules, List.mem_cons, List.not_mem_nil, or_false] at hr
  rcases hr with rfl | rfl | rfl | rfl | rfl | rfl | rfl | rfl | rfl
  all_goals simp only at hs hg
  · obtain ⟨a, u, _, _, rfl, rfl, ha, hs⟩ := spans_nt hs
    obtain ⟨t, _, _, rfl, rfl, ht, hs⟩ := spans_tok hs
    obtain ⟨b, u', _, _, rfl, rfl, hb, hs⟩ := spans_nt hs
    obtain ⟨rfl, rfl⟩ := spans_nil hs
    obtain rfl := index_token.1 ht
    obtain ⟨hw, rfl⟩ := ha
    obtain ⟨hw', rfl⟩ := hb
    cases hw with
    | add l h1 h2 =>
      cases hg
      refine ⟨.add _ (by simp) fun x hx => ?_, by simp [text, texts_concat _ h1]⟩
      rcases List.mem_append.1 hx with hx | hx
      · exact h2 x hx
      · rw [List.mem_singleton.1 hx]; exact hw'
  · cases hs
  · cases hs
  · obtain ⟨a, u, _, _, rfl, rfl, ha, hs⟩ := spans_nt hs
    obtain ⟨rfl, rfl⟩ := spans_nil hs
    obtain ⟨hw, rfl⟩ := ha
    cases hg
    exact ⟨.add _ (by simp) (by simpa using hw), by simp [text, texts, more]⟩
  · obtain ⟨a, u, _, _, rfl, rfl, ha, hs⟩ := spans_nt hs
    obtain ⟨t, _, _, rfl, rfl, ht, hs⟩ := spans_tok hs
    obtain ⟨b, u', _, _, rfl, rfl, hb, hs⟩ := spans_nt hs
    obtain ⟨rfl, rfl⟩ := spans_nil hs
    obtain rfl := index_token.2.1 ht
    obtain ⟨hw, rfl⟩ := ha
    obtain ⟨hw', rfl⟩ := hb
    cases hw with
    | prod l h1 h2 =>
      cases hg
      refine ⟨.prod _ (by simp) fun x hx => ?_, by simp [text, texts_concat _ h1]⟩
      rcases List.mem_append.1 hx with hx | hx
      · exact h2 x hx
      · rw [List.mem_singleton.1 hx]; exact hw'
  · obtain ⟨a, u, _, _, rfl, rfl, ha, hs⟩ := spans_nt hs
    obtain ⟨rfl, rfl⟩ := spans_nil hs
    obtain ⟨hw, rfl⟩ := ha
    cases hg
    exact ⟨.prod _ (by simp) (by simpa using hw), by simp [text, texts, more]⟩
  · obtain ⟨t, _, _, rfl, rfl, ht, hs⟩ := spans_tok hs
    obtain ⟨a, u, _, _, rfl, rfl, ha, hs⟩ := spans_nt hs
    obtain ⟨t', _, _, rfl, rfl, ht', hs⟩ := spans_tok hs
    obtain ⟨rfl, rfl⟩ := spans_nil hs
    obtain rfl := index_token.2.2.1 ht
    obtain rfl := index_token.2.2.2 ht'
    obtain ⟨hw, rfl⟩ := ha
    cases hg
    exact ⟨.inner _ hw, by simp [text]⟩
  · obtain ⟨t, _, _, rfl, rfl, ht, hs⟩ := spans_tok hs
    cases hs
  · obtain ⟨t, _, _, rfl, rfl, ht, hs⟩ := spans_tok hs
    obtain ⟨rfl, rfl⟩ := spans_nil hs
    obtain ⟨n, rfl⟩ := index_i ht
    cases hg
    exact ⟨.number _, by simp [text]⟩

/-! ## What is written has a derivation tree -/

/-- A tree for the tokens from `i` on that evaluates to `v`. -/
def Grown (input : List Tm) (n : Nat) (v : Nn) (i : Nat) (w : List Tm) : Prop :=
  ∃ f lg, Built (errRules.map Rule.plain) Tm.index input [.nt n] [f] ∧ errs [f] = [] ∧ leaves [f] = w.zipIdx i ∧
    Evals errRules [f] lg (.ok [.nt v])

theorem pieces {input pre a b post : List Tm} (h : input = pre ++ (a ++ b) ++ post) :
    input = pre ++ a ++ (b ++ post) ∧ input = (pre ++ a) ++ b ++ post := by subst h; simp

theorem built_one {R : List PRule} {idx : T → Nat} {input : List T} {X : Sym} {f : Tree T} (h : Built R idx input [X] [f]) {us fs}
    (h' : Built R idx input us fs) : Built R idx input (X :: us) (f :: fs) := by
  cases h with
  | leaf i t _ _ h1 _ => exact .leaf _ _ _ _ h1 h'
  | err lo l _ _ h1 h2 _ => exact .err _ _ _ _ h1 h2 h'
  | node r rule cs _ _ h1 h2 _ => exact .node _ _ _ _ _ h1 h2 h'

theorem evals_one {f : Tree Tm} {lg : List (Call Nn Tm)} {v : Nn} (h : Evals errRules [f] lg (.ok [.nt v])) {fs lg' as}
    (h' : Evals errRules fs lg' (.ok as)) : ∃ lg'', Evals errRules (f :: fs) lg'' (.ok (.nt v :: as)) := by
  cases h with
  | node r rule cs lg1 args _ _ lg2 _ h1 h2 h3 _ => exact ⟨_, .node _ _ _ _ _ _ _ _ _ h1 h2 h3 h'⟩

theorem grown_three {input : List Tm} {r n m : Nat} {k : Tm} {u x v : Nn} {i : Nat} {a b : List Tm} {rule : Rule Nn Tm Unit}
    (hr : errRules[r]? = some rule) (hrhs : rule.rhs = [.nt n, .tm (.sym (Tm.index k)), .nt m]) (hu : Grown input n u i a)
    (hk : input[i + a.length]? = some k) (hx : Grown input m x (i + a.length + 1) b) (hg : rule.gen [.nt u, .tok k, .nt x] = .ok v) :
    Grown input rule.lhs v i (a ++ k :: b) := by
  obtain ⟨f, lg, h1, h2, h3, h4⟩ := hu
  obtain ⟨f', lg', h1', h2', h3', h4'⟩ := hx
  obtain ⟨lg2, h5⟩ := evals_one h4 (.leaf (i + a.length) k [f'] _ _ h4')
  have hb : Built (errRules.map Rule.plain) Tm.index input rule.rhs [f, .leaf (i + a.length) k, f'] := by
    rw [hrhs]
    exact built_one h1 (.leaf _ _ _ _ hk h1')
  refine ⟨.node r [f, .leaf (i + a.length) k, f'], _, .node r rule.plain _ _ _ (by rw [List.getElem?_map, hr]; rfl) hb .nil, ?_, ?_,
    .node _ _ _ _ _ _ _ _ _ hr h5 hg .nil⟩
  · simp [errs, Tree.errs] at h2 h2' ⊢
    exact ⟨h2, h2'⟩
  · simp [leaves, Tree.leaves] at h3 h3' ⊢
    simp [List.zipIdx_append, h3, h3', List.zipIdx_cons]

theorem grown_single {input : List Tm} {r n : Nat} {u v : Nn} {i : Nat} {a : List Tm} {rule : Rule Nn Tm Unit}
    (hr : errRules[r]? = some rule) (hrhs : rule.rhs = [.nt n]) (hu : Grown input n u i a) (hg : rule.gen [.nt u] = .ok v) :
    Grown input rule.lhs v i a := by
  obtain ⟨f, lg, h1, h2, h3, h4⟩ := hu
  refine ⟨.node r [f], _, .node r rule.plain _ _ _ (by rw [List.getElem?_map, hr]; rfl) (by rw [show rule.plain.rhs = _ from hrhs]; exact h1) .nil, ?_, ?_,
    .node _ _ _ _ _ _ _ _ _ hr h4 hg .nil⟩
  · simpa [errs, Tree.errs] using h2
  · simpa [leaves, Tree.leaves] using h3

theorem grown_list {input : List Tm} {r r' m : Nat} {k : Tm} {rule rule' : Rule Nn Tm Unit} {mk : List Nn → Nn}
    (hr : errRules[r]? = some rule) (hr' : errRules[r']? = some rule') (hl' : rule'.lhs = rule.lhs)
    (hrhs : rule.rhs = [.nt rule.lhs, .tm (.sym (Tm.index k)), .nt m]) (hrhs' : rule'.rhs = [.nt m])
    (hg : ∀ l x, rule.gen [.nt (mk l), .tok k, .nt x] = .ok (mk (l ++ [x]))) (hg' : ∀ x, rule'.gen [.nt x] = .ok (mk [x])) :
    ∀ (n : Nat) (l : List Nn), l.length = n → l ≠ [] →
      (∀ x ∈ l, ∀ pre post, input = pre ++ text x ++ post → Grown input m x pre.length (text x)) →
      ∀ pre post, input = pre ++ texts k l ++ post → Grown input rule.lhs (mk l) pre.length (texts k l) := by
  intro n
  induction n with
  | zero => intro l hl hne; exact absurd (List.length_eq_zero_iff.1 hl) hne
  | succ n ih =>
    intro l hl hne hx pre post hin
    rcases List.eq_nil_or_concat l with rfl | ⟨l', x, rfl⟩
    · exact absurd rfl hne
    · rw [List.concat_eq_append] at *
      by_cases hn : l' = []
      · subst hn
        have ht : texts k ([] ++ [x]) = text x := by simp [texts, more]
        rw [ht] at hin ⊢
        have := grown_single (v := mk [x]) hr' hrhs' (hx x (by simp) pre post hin) (hg' x)
        rw [hl'] at this
        simpa using this
      · rw [texts_concat _ hn] at hin ⊢
        obtain ⟨h1, _⟩ := pieces hin
        have h2 : input = (pre ++ texts k l' ++ [k]) ++ text x ++ post := by rw [hin]; simp
        have g1 := ih l' (by simpa using hl) hn (fun y hy => hx y (by simp [hy])) pre _ h1
        have g2 := hx x (by simp) _ _ h2
        refine grown_three hr hrhs g1 ?_ (by simpa [Nat.add_assoc] using g2) (hg l' x)
        rw [h2]
        simp

theorem whole_grown {input : List Tm} {n : Nat} {v : Nn} (h : Whole n v) :
    ∀ pre post, input = pre ++ text v ++ post → Grown input n v pre.length (text v) := by
  induction h with
  | add l h1 _ ih =>
    intro pre post hin
    exact grown_list (r := 0) (r' := 3) (mk := .add) rfl rfl rfl rfl rfl (fun _ _ => rfl) (fun _ => rfl) _ l rfl h1 ih pre post hin
  | prod l h1 _ ih =>
    intro pre post hin
    exact grown_list (r := 4) (r' := 5) (mk := .prod) rfl rfl rfl rfl rfl (fun _ _ => rfl) (fun _ => rfl) _ l rfl h1 ih pre post hin
  | number k =>
    intro pre post hin
    simp only [text] at hin ⊢
    have hk : input[pre.length]? = some (.i k) := by rw [hin]; simp
    refine ⟨.node 8 [.leaf pre.length (.i k)], _, .node 8 ⟨2, [.tm (.sym 4)]⟩ _ _ _ rfl (.leaf _ (Tm.i k) _ _ hk .nil) .nil, rfl, ?_,
      .node _ _ _ _ _ _ _ _ _ rfl (.leaf _ _ _ _ _ .nil) rfl .nil⟩
    simp [leaves, Tree.leaves]
  | inner x _ ih =>
    intro pre post hin
    simp only [text] at hin ⊢
    have h1 : input = (pre ++ [.bracket]) ++ text x ++ (.closeBracket :: post) := by rw [hin]; simp
    obtain ⟨f, lg, k1, k2, k3, k4⟩ := ih _ _ h1
    have hb : input[pre.length]? = some .bracket := by rw [hin]; simp
    have hc : input[pre.length + 1 + (text x).length]? = some .closeBracket := by
      rw [h1, List.getElem?_append_right (by simp; omega)]
      have : pre.length + 1 + (text x).length - ((pre ++ [Tm.bracket]) ++ text x).length = 0 := by simp; omega
      rw [this]
      rfl
    obtain ⟨lg2, k5⟩ := evals_one k4 (.leaf (pre.length + 1 + (text x).length) .closeBracket [] _ _ .nil)
    refine ⟨.node 6 [.leaf pre.length .bracket, f, .leaf (pre.length + 1 + (text x).length) .closeBracket], _,
      .node 6 ⟨2, [.tm (.sym 2), .nt 0, .tm (.sym 3)]⟩ _ _ _ rfl (.leaf _ Tm.bracket _ _ hb (built_one k1 (.leaf _ Tm.closeBracket _ _ hc .nil))) .nil, ?_, ?_,
      .node _ _ _ _ _ _ _ _ _ rfl (.leaf _ _ _ _ _ k5) rfl .nil⟩
    · simpa [errs, Tree.errs] using k2
    · simp [leaves, Tree.leaves] at k3 ⊢
      simp [List.zipIdx_append, List.zipIdx_cons, k3]

/-! ## The grammar -/

theorem gErr_ok : (gram errRules 0).Ok := by decide

theorem gErr_notCyclic : ¬ (gram errRules 0).Cyclic := by
  rintro ⟨x, r, y, hr, _, h⟩
  have key : ∀ r ∈ (gram errRules 0).rules, r.rhs ≠ [] ∧ r.rhs ≠ [.nt 0] := by decide
  obtain ⟨h1, h2⟩ := key r hr
  cases x with
  | cons X x =>
    have := congrArg List.length h
    simp at this
    exact h1 this.2.1
  | nil =>
    cases hy : r.rhs with
    | nil => exact h1 hy
    | cons X l =>
      rw [hy] at h
      simp [gram] at h
      exact h2 (by rw [hy, h.1, h.2.1])

theorem gErr_fruitful : (gram errRules 0).Fruitful := Gram.ranked_fruitful (rank := fun n => 3 - n) (by decide)

theorem gErr_apart : (gram errRules 0).ErrorsApart := by
  intro r hr α β h ρ hd
  have key : ∀ r ∈ (gram errRules 0).rules, ∀ k, r.rhs[k]? = some (.tm .err) → r.rhs.drop (k + 1) = [] ∨
      ∃ t, (r.rhs.drop (k + 1)).head? = some (.tm (.sym t)) := by
    intro r hr
    simp only [gram, errRules, Rule.plain, List.map_cons, List.map_nil, List.mem_cons, List.not_mem_nil, or_false] at hr
    rcases hr with rfl | rfl | rfl | rfl | rfl | rfl | rfl | rfl | rfl <;> intro k hk <;>
      (match k with
       | 0 => simp at hk ⊢
       | 1 => simp at hk ⊢
       | 2 => simp at hk ⊢
       | k + 3 => simp at hk)
  have h1 : r.rhs[α.length]? = some (.tm .err) := by rw [h]; simp
  have h2 : r.rhs.drop (α.length + 1) = β := by rw [h]; simp
  have hg := gen_iff.2 hd
  rcases key r hr _ h1 with k | ⟨t, k⟩
  · rw [h2] at k
    subst k
    have := hg.nil_left
    cases this
  · rw [h2] at k
    cases β with
    | nil => cases k
    | cons X β =>
      simp at k
      subst k
      obtain ⟨v, e, _⟩ := hg.terminal
      cases e

end Verif.TestErr
