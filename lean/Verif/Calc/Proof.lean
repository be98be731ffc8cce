import Verif.Calc.Table

/-!
# Expressions and their derivation trees
-/

namespace Verif.Calc

open Verif.Par

variable {N T E V : Type}

/-- There is a forest for the symbols `us` over the tokens `ts` at position `i` that evaluates to `args`. -/
def Grows (rules : List (Rule N T E)) (idx : T → Nat) (input : List T) (i : Nat) (us : List Sym) (ts : List T) (args : List (Arg N T)) : Prop :=
  ∃ fs lg, Built (rules.map Rule.plain) idx input us fs ∧ errs fs = [] ∧ leaves fs = ts.zipIdx i ∧ Evals rules fs lg (.ok args)

variable {rules : List (Rule N T E)} {idx : T → Nat} {input : List T} {i : Nat}

theorem Grows.tok {t : T} (h : input[i]? = some t) : Grows rules idx input i [.tm (.sym (idx t))] [t] [.tok t] :=
  ⟨[.leaf i t], [], .leaf i t [] [] h .nil, by simp [errs, Tree.errs], by simp [leaves, Tree.leaves], .leaf i t [] [] [] .nil⟩

theorem Grows.append {us us' : List Sym} {ts ts' : List T} {as as' : List (Arg N T)} (h : Grows rules idx input i us ts as)
    (h' : Grows rules idx input (i + ts.length) us' ts' as') : Grows rules idx input i (us ++ us') (ts ++ ts') (as ++ as') := by
  obtain ⟨fs, lg, h1, h2, h3, h4⟩ := h
  obtain ⟨gs, lg', k1, k2, k3, k4⟩ := h'
  refine ⟨fs ++ gs, lg ++ lg', h1.append k1, by rw [errs_append, h2, k2]; rfl, ?_, h4.append k4⟩
  rw [leaves_append, h3, k3, List.zipIdx_append]

theorem Grows.node {r : Nat} {rule : Rule N T E} {ts : List T} {args : List (Arg N T)} {v : N} (hr : rules[r]? = some rule)
    (h : Grows rules idx input i rule.rhs ts args) (hg : rule.gen args = .ok v) : Grows rules idx input i [.nt rule.lhs] ts [.nt v] := by
  obtain ⟨fs, lg, h1, h2, h3, h4⟩ := h
  refine ⟨[.node r fs], lg ++ (r, args) :: [], ?_, by simp [errs, Tree.errs, h2], by simp [leaves, Tree.leaves, h3],
    .node r rule fs lg args v [] [] [] hr h4 hg .nil⟩
  exact .node r rule.plain fs [] [] (by rw [List.getElem?_map, hr]; rfl) h1 .nil

/-- The value at each level. -/
def valOf (k : Nat) (v : V) : Val V :=
  match k with
  | 0 => .sum (some v)
  | 1 => .product (some v)
  | _ => .block (some v)

/-- Numbers of levels. -/
theorem level_cases {k n : Nat} (h : k ≤ n) (hn : n ≤ 2) : k = n ∨ (n = 1 ∧ k = 0) ∨ (n = 2 ∧ k = 1) ∨ (n = 2 ∧ k = 0) := by omega

theorem Ex.level_le (e : Ex V) : e.level ≤ 2 := by cases e <;> simp [Ex.level]

variable {A : Arith V} {inp : List (Token V)}

theorem grows_rule (r n : Nat) (us : List Sym) (g : Args V → Except Unit (Val V)) (hr : (Calc.rules A)[r]? = some ⟨n, us, g⟩)
    {ts : List (Token V)} {args : Args V} {v : Val V} (h : Grows (Calc.rules A) Token.index inp i us ts args) (hg : g args = .ok v) :
    Grows (Calc.rules A) Token.index inp i [.nt n] ts [.nt v] := Grows.node hr h hg

/-- From a level to lower ones. -/
theorem grows_down {k n : Nat} {ts : List (Token V)} {v : V} (h : Grows (Calc.rules A) Token.index inp i [.nt n] ts [.nt (valOf n v)])
    (hk : k ≤ n) (hn : n ≤ 2) : Grows (Calc.rules A) Token.index inp i [.nt k] ts [.nt (valOf k v)] := by
  have d1 : ∀ {ts v}, Grows (Calc.rules A) Token.index inp i [.nt 1] ts [.nt (valOf 1 v)] →
      Grows (Calc.rules A) Token.index inp i [.nt 0] ts [.nt (valOf 0 v)] := fun h => grows_rule 2 0 [.nt 1] onSum rfl h rfl
  have d2 : ∀ {ts v}, Grows (Calc.rules A) Token.index inp i [.nt 2] ts [.nt (valOf 2 v)] →
      Grows (Calc.rules A) Token.index inp i [.nt 1] ts [.nt (valOf 1 v)] := fun h => grows_rule 5 1 [.nt 2] onProduct rfl h rfl
  rcases level_cases hk hn with rfl | ⟨rfl, rfl⟩ | ⟨rfl, rfl⟩ | ⟨rfl, rfl⟩
  · exact h
  · exact d1 h
  · exact d2 h
  · exact d1 (d2 h)

/-- An expression has a derivation tree that evaluates to its value. -/
theorem grows_ex (e : Ex V) : ∀ (pre post : List (Token V)), e.Wf → inp = pre ++ e.toks ++ post → ∀ k ≤ e.level,
    Grows (Calc.rules A) Token.index inp pre.length [.nt k] e.toks [.nt (valOf k (e.eval A))] := by
  have tk : ∀ (pre : List (Token V)) (t : Token V) (post : List (Token V)) n, inp = pre ++ t :: post → n = pre.length →
      Grows (Calc.rules A) Token.index inp n [.tm (.sym t.index)] [t] [.tok t] := by
    rintro pre t post n rfl rfl
    exact Grows.tok (by simp)
  induction e with
  | num v =>
    intro pre post _ hi k hk
    refine grows_down (n := 2) ?_ hk (Nat.le_refl _)
    exact grows_rule 6 2 [.tm (.sym 0)] onNumber rfl (tk pre (.number v) post _ (by simpa [Ex.toks] using hi) rfl) rfl
  | pos v =>
    intro pre post _ hi k hk
    refine grows_down (n := 2) ?_ hk (Nat.le_refl _)
    exact grows_rule 7 2 [.tm (.sym 1), .tm (.sym 0)] onPlus rfl ((tk pre .add (.number v :: post) _ (by simpa [Ex.toks] using hi) rfl).append
      (tk (pre ++ [.add]) (.number v) post _ (by simpa [Ex.toks] using hi) (by simp))) rfl
  | neg v =>
    intro pre post _ hi k hk
    refine grows_down (n := 2) ?_ hk (Nat.le_refl _)
    exact grows_rule 8 2 [.tm (.sym 2), .tm (.sym 0)] (onMinus A) rfl ((tk pre .sub (.number v :: post) _ (by simpa [Ex.toks] using hi) rfl).append
      (tk (pre ++ [.sub]) (.number v) post _ (by simpa [Ex.toks] using hi) (by simp))) rfl
  | paren e ih =>
    intro pre post hw hi k hk
    refine grows_down (n := 2) ?_ hk (Nat.le_refl _)
    have h1 := ih (pre ++ [.bracket]) (.closeBracket :: post) hw (by simpa [Ex.toks] using hi) 0 (Nat.zero_le _)
    exact grows_rule 9 2 [.tm (.sym 5), .nt 0, .tm (.sym 6)] onParen rfl (((tk pre .bracket (e.toks ++ .closeBracket :: post) _ (by simpa [Ex.toks] using hi) rfl).append
      (by simpa using h1)).append (tk (pre ++ [.bracket] ++ e.toks) .closeBracket post _ (by simpa [Ex.toks] using hi) (by simp))) rfl
  | sqrt e ih =>
    intro pre post hw hi k hk
    refine grows_down (n := 2) ?_ hk (Nat.le_refl _)
    have h1 := ih (pre ++ [.sqrt]) post hw.1 (by simpa [Ex.toks] using hi) 2 hw.2
    exact grows_rule 10 2 [.tm (.sym 7), .nt 2] (onSqrt A) rfl ((tk pre .sqrt (e.toks ++ post) _ (by simpa [Ex.toks] using hi) rfl).append (by simpa using h1)) rfl
  | mul a b iha ihb =>
    intro pre post hw hi k hk
    refine grows_down (n := 1) ?_ hk (by omega)
    have h1 := iha pre (.mul :: b.toks ++ post) hw.1 (by simpa [Ex.toks] using hi) 1 hw.2.2.1
    have h2 := ihb (pre ++ a.toks ++ [.mul]) post hw.2.1 (by simpa [Ex.toks] using hi) 2 hw.2.2.2
    exact grows_rule 3 1 [.nt 1, .tm (.sym 3), .nt 2] (onMul A) rfl ((h1.append (tk (pre ++ a.toks) .mul (b.toks ++ post) _ (by simpa [Ex.toks] using hi) (by simp))).append
      (by simpa [Nat.add_assoc] using h2)) rfl
  | div a b iha ihb =>
    intro pre post hw hi k hk
    refine grows_down (n := 1) ?_ hk (by omega)
    have h1 := iha pre (.div :: b.toks ++ post) hw.1 (by simpa [Ex.toks] using hi) 1 hw.2.2.1
    have h2 := ihb (pre ++ a.toks ++ [.div]) post hw.2.1 (by simpa [Ex.toks] using hi) 2 hw.2.2.2
    exact grows_rule 4 1 [.nt 1, .tm (.sym 4), .nt 2] (onDiv A) rfl ((h1.append (tk (pre ++ a.toks) .div (b.toks ++ post) _ (by simpa [Ex.toks] using hi) (by simp))).append
      (by simpa [Nat.add_assoc] using h2)) rfl
  | add a b iha ihb =>
    intro pre post hw hi k hk
    refine grows_down (n := 0) ?_ hk (by omega)
    have h1 := iha pre (.add :: b.toks ++ post) hw.1 (by simpa [Ex.toks] using hi) 0 (Nat.zero_le _)
    have h2 := ihb (pre ++ a.toks ++ [.add]) post hw.2.1 (by simpa [Ex.toks] using hi) 1 hw.2.2
    exact grows_rule 0 0 [.nt 0, .tm (.sym 1), .nt 1] (onAdd A) rfl ((h1.append (tk (pre ++ a.toks) .add (b.toks ++ post) _ (by simpa [Ex.toks] using hi) (by simp))).append
      (by simpa [Nat.add_assoc] using h2)) rfl
  | sub a b iha ihb =>
    intro pre post hw hi k hk
    refine grows_down (n := 0) ?_ hk (by omega)
    have h1 := iha pre (.sub :: b.toks ++ post) hw.1 (by simpa [Ex.toks] using hi) 0 (Nat.zero_le _)
    have h2 := ihb (pre ++ a.toks ++ [.sub]) post hw.2.1 (by simpa [Ex.toks] using hi) 1 hw.2.2
    exact grows_rule 1 0 [.nt 0, .tm (.sym 2), .nt 1] (onSub A) rfl ((h1.append (tk (pre ++ a.toks) .sub (b.toks ++ post) _ (by simpa [Ex.toks] using hi) (by simp))).append
      (by simpa [Nat.add_assoc] using h2)) rfl

/-- `v` is the value of an expression of level `n` that is written `u`. -/
def Means (A : Arith V) (n : Nat) (u : List (Token V)) (v : Val V) : Prop :=
  ∃ e : Ex V, e.Wf ∧ n ≤ e.level ∧ e.toks = u ∧ v = valOf n (e.eval A)

theorem index_number {t : Token V} (h : t.index = 0) : ∃ v, t = .number v := by cases t <;> simp_all [Token.index]
theorem index_add {t : Token V} (h : t.index = 1) : t = .add := by cases t <;> simp_all [Token.index]
theorem index_sub {t : Token V} (h : t.index = 2) : t = .sub := by cases t <;> simp_all [Token.index]
theorem index_mul {t : Token V} (h : t.index = 3) : t = .mul := by cases t <;> simp_all [Token.index]
theorem index_div {t : Token V} (h : t.index = 4) : t = .div := by cases t <;> simp_all [Token.index]
theorem index_bracket {t : Token V} (h : t.index = 5) : t = .bracket := by cases t <;> simp_all [Token.index]
theorem index_close {t : Token V} (h : t.index = 6) : t = .closeBracket := by cases t <;> simp_all [Token.index]
theorem index_sqrt {t : Token V} (h : t.index = 7) : t = .sqrt := by cases t <;> simp_all [Token.index]

theorem spans_nil {Q : Nat → List T → N → Prop} {args : List (Arg N T)} {w : List T} (h : Spans idx Q [] args w) : args = [] ∧ w = [] := by
  cases h; exact ⟨rfl, rfl⟩

theorem spans_tok {Q : Nat → List T → N → Prop} {a : Nat} {us : List Sym} {args : List (Arg N T)} {w : List T}
    (h : Spans idx Q (.tm (.sym a) :: us) args w) : ∃ t args' w', args = .tok t :: args' ∧ w = t :: w' ∧ idx t = a ∧ Spans idx Q us args' w' := by
  cases h with
  | tok t us args w h => exact ⟨t, args, w, rfl, rfl, rfl, h⟩

theorem spans_nt {Q : Nat → List T → N → Prop} {n : Nat} {us : List Sym} {args : List (Arg N T)} {w : List T}
    (h : Spans idx Q (.nt n :: us) args w) : ∃ v u args' w', args = .nt v :: args' ∧ w = u ++ w' ∧ Q n u v ∧ Spans idx Q us args' w' := by
  cases h with
  | nt n v u us args w h1 h => exact ⟨v, u, args, w, rfl, rfl, h1, h⟩

theorem computes (A : Arith V) : Computes Token.index (Means A) (Calc.rules A) := by
  intro rule hr args w v hs hg
  simp only [Calc.rules, List.mem_cons, List.not_mem_nil, or_false] at hr
  rcases hr with rfl | rfl | rfl | rfl | rfl | rfl | rfl | rfl | rfl | rfl | rfl
  all_goals simp only [mk, ruleNew, Val.index, Token.index, List.map_cons, List.map_nil] at hs hg ⊢
  · obtain ⟨_, _, _, _, rfl, rfl, ⟨e, h1, h2, rfl, rfl⟩, ks⟩ := spans_nt hs; replace hs := ks; clear ks
    obtain ⟨t, _, _, rfl, rfl, ht, ks⟩ := spans_tok hs; replace hs := ks; clear ks
    obtain ⟨_, _, _, _, rfl, rfl, ⟨e', k1, k2, rfl, rfl⟩, ks⟩ := spans_nt hs; replace hs := ks; clear ks
    obtain ⟨rfl, rfl⟩ := spans_nil hs
    obtain rfl := index_add ht
    cases hg
    exact ⟨.add e e', ⟨h1, k1, k2⟩, Nat.zero_le _, by simp [Ex.toks], rfl⟩
  · obtain ⟨_, _, _, _, rfl, rfl, ⟨e, h1, h2, rfl, rfl⟩, ks⟩ := spans_nt hs; replace hs := ks; clear ks
    obtain ⟨t, _, _, rfl, rfl, ht, ks⟩ := spans_tok hs; replace hs := ks; clear ks
    obtain ⟨_, _, _, _, rfl, rfl, ⟨e', k1, k2, rfl, rfl⟩, ks⟩ := spans_nt hs; replace hs := ks; clear ks
    obtain ⟨rfl, rfl⟩ := spans_nil hs
    obtain rfl := index_sub ht
    cases hg
    exact ⟨.sub e e', ⟨h1, k1, k2⟩, Nat.zero_le _, by simp [Ex.toks], rfl⟩
  · obtain ⟨_, _, _, _, rfl, rfl, ⟨e, h1, h2, rfl, rfl⟩, ks⟩ := spans_nt hs; replace hs := ks; clear ks
    obtain ⟨rfl, rfl⟩ := spans_nil hs
    cases hg
    exact ⟨e, h1, Nat.zero_le _, by simp, rfl⟩
  · obtain ⟨_, _, _, _, rfl, rfl, ⟨e, h1, h2, rfl, rfl⟩, ks⟩ := spans_nt hs; replace hs := ks; clear ks
    obtain ⟨t, _, _, rfl, rfl, ht, ks⟩ := spans_tok hs; replace hs := ks; clear ks
    obtain ⟨_, _, _, _, rfl, rfl, ⟨e', k1, k2, rfl, rfl⟩, ks⟩ := spans_nt hs; replace hs := ks; clear ks
    obtain ⟨rfl, rfl⟩ := spans_nil hs
    obtain rfl := index_mul ht
    cases hg
    exact ⟨.mul e e', ⟨h1, k1, h2, k2⟩, Nat.le_refl _, by simp [Ex.toks], rfl⟩
  · obtain ⟨_, _, _, _, rfl, rfl, ⟨e, h1, h2, rfl, rfl⟩, ks⟩ := spans_nt hs; replace hs := ks; clear ks
    obtain ⟨t, _, _, rfl, rfl, ht, ks⟩ := spans_tok hs; replace hs := ks; clear ks
    obtain ⟨_, _, _, _, rfl, rfl, ⟨e', k1, k2, rfl, rfl⟩, ks⟩ := spans_nt hs; replace hs := ks; clear ks
    obtain ⟨rfl, rfl⟩ := spans_nil hs
    obtain rfl := index_div ht
    cases hg
    exact ⟨.div e e', ⟨h1, k1, h2, k2⟩, Nat.le_refl _, by simp [Ex.toks], rfl⟩
  · obtain ⟨_, _, _, _, rfl, rfl, ⟨e, h1, h2, rfl, rfl⟩, ks⟩ := spans_nt hs; replace hs := ks; clear ks
    obtain ⟨rfl, rfl⟩ := spans_nil hs
    cases hg
    exact ⟨e, h1, by omega, by simp, rfl⟩
  · obtain ⟨t, _, _, rfl, rfl, ht, ks⟩ := spans_tok hs; replace hs := ks; clear ks
    obtain ⟨rfl, rfl⟩ := spans_nil hs
    obtain ⟨x, rfl⟩ := index_number ht
    cases hg
    exact ⟨.num x, trivial, Nat.le_refl _, rfl, rfl⟩
  · obtain ⟨t, _, _, rfl, rfl, ht, ks⟩ := spans_tok hs; replace hs := ks; clear ks
    obtain ⟨t', _, _, rfl, rfl, ht', ks⟩ := spans_tok hs; replace hs := ks; clear ks
    obtain ⟨rfl, rfl⟩ := spans_nil hs
    obtain rfl := index_add ht
    obtain ⟨x, rfl⟩ := index_number ht'
    cases hg
    exact ⟨.pos x, trivial, Nat.le_refl _, rfl, rfl⟩
  · obtain ⟨t, _, _, rfl, rfl, ht, ks⟩ := spans_tok hs; replace hs := ks; clear ks
    obtain ⟨t', _, _, rfl, rfl, ht', ks⟩ := spans_tok hs; replace hs := ks; clear ks
    obtain ⟨rfl, rfl⟩ := spans_nil hs
    obtain rfl := index_sub ht
    obtain ⟨x, rfl⟩ := index_number ht'
    cases hg
    exact ⟨.neg x, trivial, Nat.le_refl _, rfl, rfl⟩
  · obtain ⟨t, _, _, rfl, rfl, ht, ks⟩ := spans_tok hs; replace hs := ks; clear ks
    obtain ⟨_, _, _, _, rfl, rfl, ⟨e, h1, h2, rfl, rfl⟩, ks⟩ := spans_nt hs; replace hs := ks; clear ks
    obtain ⟨t', _, _, rfl, rfl, ht', ks⟩ := spans_tok hs; replace hs := ks; clear ks
    obtain ⟨rfl, rfl⟩ := spans_nil hs
    obtain rfl := index_bracket ht
    obtain rfl := index_close ht'
    cases hg
    exact ⟨.paren e, h1, Nat.le_refl _, by simp [Ex.toks], rfl⟩
  · obtain ⟨t, _, _, rfl, rfl, ht, ks⟩ := spans_tok hs; replace hs := ks; clear ks
    obtain ⟨_, _, _, _, rfl, rfl, ⟨e, h1, h2, rfl, rfl⟩, ks⟩ := spans_nt hs; replace hs := ks; clear ks
    obtain ⟨rfl, rfl⟩ := spans_nil hs
    obtain rfl := index_sqrt ht
    cases hg
    exact ⟨.sqrt e, ⟨h1, h2⟩, Nat.le_refl _, by simp [Ex.toks], rfl⟩

/-- Values of a non-terminal are of its variant, and there. -/
def Shape (n : Nat) (v : Val V) : Prop := ∃ x, v = valOf n x

theorem fit_nil {Q : Nat → N → Prop} {args : List (Arg N T)} (h : ArgsFit idx Q [] args) : args = [] := by
  cases args with
  | nil => rfl
  | cons a l => exact absurd h.1 (by simp)

theorem fit_cons {Q : Nat → N → Prop} {u : Sym} {us : List Sym} {args : List (Arg N T)} (h : ArgsFit idx Q (u :: us) args) :
    ∃ a args', args = a :: args' ∧ a.Fits idx Q u ∧ ArgsFit idx Q us args' := by
  obtain ⟨h1, h2⟩ := h
  cases args with
  | nil => cases h1
  | cons a l => exact ⟨a, l, rfl, h2 0 u a rfl rfl, by simpa using h1, fun i => h2 (i + 1)⟩

theorem fits_tok {Q : Nat → N → Prop} {a : Nat} {x : Arg N T} (h : x.Fits idx Q (.tm (.sym a))) : ∃ t, x = .tok t ∧ idx t = a := by
  cases x with
  | nt v => cases h
  | tok t => exact ⟨t, rfl, h⟩
  | err l => cases h

theorem fits_nt {Q : Nat → N → Prop} {n : Nat} {x : Arg N T} (h : x.Fits idx Q (.nt n)) : ∃ v, x = .nt v ∧ Q n v := by
  cases x with
  | nt v => exact ⟨v, rfl, h⟩
  | tok t => cases h
  | err l => cases h

/-- Given fitting arguments no callback runs into `unreachable!()`, and the result is of the right variant. -/
theorem gen_fit (A : Arith V) (rule : Rule (Val V) (Token V) Unit) (hr : rule ∈ Calc.rules A) (args : Args V)
    (ha : ArgsFit Token.index Shape rule.rhs args) : ∃ v, rule.gen args = .ok v ∧ Shape rule.lhs v := by
  simp only [Calc.rules, List.mem_cons, List.not_mem_nil, or_false] at hr
  rcases hr with rfl | rfl | rfl | rfl | rfl | rfl | rfl | rfl | rfl | rfl | rfl
  all_goals simp only [mk, ruleNew, Val.index, Token.index, List.map_cons, List.map_nil] at ha ⊢
  iterate 2
    obtain ⟨a, _, rfl, ha1, ha⟩ := fit_cons ha
    obtain ⟨b, _, rfl, hb1, ha⟩ := fit_cons ha
    obtain ⟨c, _, rfl, hc1, ha⟩ := fit_cons ha
    obtain rfl := fit_nil ha
    obtain ⟨_, rfl, x, rfl⟩ := fits_nt ha1
    obtain ⟨_, rfl, y, rfl⟩ := fits_nt hc1
    exact ⟨_, rfl, _, rfl⟩
  · obtain ⟨a, _, rfl, ha1, ha⟩ := fit_cons ha
    obtain rfl := fit_nil ha
    obtain ⟨_, rfl, x, rfl⟩ := fits_nt ha1
    exact ⟨_, rfl, _, rfl⟩
  iterate 2
    obtain ⟨a, _, rfl, ha1, ha⟩ := fit_cons ha
    obtain ⟨b, _, rfl, hb1, ha⟩ := fit_cons ha
    obtain ⟨c, _, rfl, hc1, ha⟩ := fit_cons ha
    obtain rfl := fit_nil ha
    obtain ⟨_, rfl, x, rfl⟩ := fits_nt ha1
    obtain ⟨_, rfl, y, rfl⟩ := fits_nt hc1
    exact ⟨_, rfl, _, rfl⟩
  · obtain ⟨a, _, rfl, ha1, ha⟩ := fit_cons ha
    obtain rfl := fit_nil ha
    obtain ⟨_, rfl, x, rfl⟩ := fits_nt ha1
    exact ⟨_, rfl, _, rfl⟩
  · obtain ⟨a, _, rfl, ha1, ha⟩ := fit_cons ha
    obtain rfl := fit_nil ha
    obtain ⟨t, rfl, ht⟩ := fits_tok ha1
    obtain ⟨x, rfl⟩ := index_number ht
    exact ⟨_, rfl, _, rfl⟩
  iterate 2
    obtain ⟨a, _, rfl, ha1, ha⟩ := fit_cons ha
    obtain ⟨b, _, rfl, hb1, ha⟩ := fit_cons ha
    obtain rfl := fit_nil ha
    obtain ⟨t, rfl, ht⟩ := fits_tok hb1
    obtain ⟨x, rfl⟩ := index_number ht
    exact ⟨_, rfl, _, rfl⟩
  · obtain ⟨a, _, rfl, ha1, ha⟩ := fit_cons ha
    obtain ⟨b, _, rfl, hb1, ha⟩ := fit_cons ha
    obtain ⟨c, _, rfl, hc1, ha⟩ := fit_cons ha
    obtain rfl := fit_nil ha
    obtain ⟨_, rfl, x, rfl⟩ := fits_nt hb1
    exact ⟨_, rfl, _, rfl⟩
  · obtain ⟨a, _, rfl, ha1, ha⟩ := fit_cons ha
    obtain ⟨b, _, rfl, hb1, ha⟩ := fit_cons ha
    obtain rfl := fit_nil ha
    obtain ⟨_, rfl, x, rfl⟩ := fits_nt hb1
    exact ⟨_, rfl, _, rfl⟩

theorem keeps (A : Arith V) : Keeps Token.index Shape (Calc.rules A) := by
  intro rule hr args v ha hg
  obtain ⟨v', h1, h2⟩ := gen_fit A rule hr args ha
  rw [h1] at hg
  cases hg
  exact h2

end Verif.Calc
