import Verif.Macro.Text

/-!
# The parsers of the macros accept exactly the syntax of `Text`
-/

namespace Verif.Macro

open Verif.Par (TokenKey BnfSym BnfKey)

variable {Vis Path Ty Pat Expr : Type}

section Prim
variable {α β : Type}

theorem bind_some {p : P α} {f : α → P β} {ts : List TT} {b : β} {r : List TT} :
    (p >>= f) ts = some (b, r) ↔ ∃ a r', p ts = some (a, r') ∧ f a r' = some (b, r) := by
  show (match p ts with
    | none => none
    | some (a, r) => f a r) = _ ↔ _
  cases h : p ts with
  | none => simp
  | some x =>
    obtain ⟨a, r'⟩ := x
    constructor
    · intro h; exact ⟨a, r', rfl, h⟩
    · rintro ⟨_, _, he, h⟩; cases he; exact h

theorem pure_some {a b : α} {ts r : List TT} : (pure a : P α) ts = some (b, r) ↔ b = a ∧ r = ts := by
  show some (a, ts) = some (b, r) ↔ _
  simp; constructor <;> (rintro ⟨rfl, rfl⟩; simp)

theorem ite_some {c : Bool} {p q : P α} {ts : List TT} {x : α × List TT} :
    (if c = true then p else q) ts = some x ↔ (c = true ∧ p ts = some x) ∨ (c = false ∧ q ts = some x) := by
  cases c <;> simp

theorem isEmpty_some {ts r : List TT} {b : Bool} : isEmpty ts = some (b, r) ↔ b = ts.isEmpty ∧ r = ts := by
  simp [isEmpty]; constructor <;> (rintro ⟨rfl, rfl⟩; simp)

theorem str_some {ts r : List TT} {s : String} : str ts = some (s, r) ↔ ts = .str s :: r := by
  unfold str; split
  · simp
  · rename_i h
    constructor
    · intro h; cases h
    · rintro rfl; exact absurd rfl (h _ _)

theorem ident_some {res : String → Bool} {ts r : List TT} {s : String} : ident res ts = some (s, r) ↔ ts = .ident s :: r ∧ res s = false := by
  unfold ident; split
  · split
    · simp_all
      rintro rfl; simp_all
    · simp_all
      rintro rfl; simp_all
  · rename_i h
    constructor
    · intro h; cases h
    · rintro ⟨rfl, _⟩; exact absurd rfl (h _ _)

theorem kw_some {k : String} {ts r : List TT} {a : Unit} : kw k ts = some (a, r) ↔ ts = .ident k :: r := by
  unfold kw; split
  · split
    · simp_all
    · rename_i h; simp; rintro rfl; exact absurd rfl h
  · rename_i h
    constructor
    · intro h; cases h
    · rintro rfl; exact absurd rfl (h _ _)

theorem punct_some {c : Char} {ts r : List TT} {a : Unit} : punct c ts = some (a, r) ↔ ∃ j, ts = .punct c j :: r := by
  unfold punct; split
  · split
    · simp_all
    · rename_i h
      simp only [reduceCtorEq, false_iff, not_exists]
      intro j hj
      cases hj
      exact h rfl
  · rename_i h
    constructor
    · intro h; cases h
    · rintro ⟨j, rfl⟩; exact absurd rfl (h _ _ _)

theorem punct2_some {c c' : Char} {ts r : List TT} {a : Unit} :
    punct2 c c' ts = some (a, r) ↔ ∃ j, ts = .punct c true :: .punct c' j :: r := by
  unfold punct2; split
  · split
    · rename_i h; obtain ⟨rfl, rfl⟩ := h; simp
    · rename_i h
      simp only [reduceCtorEq, false_iff, not_exists]
      intro j hj
      cases hj
      exact h ⟨rfl, rfl⟩
  · rename_i h
    constructor
    · intro h; cases h
    · rintro ⟨j, rfl⟩; exact absurd rfl (h _ _ _ _)

theorem inGroup_some {d : Delim} {p : P α} {ts r : List TT} {a : α} :
    inGroup d p ts = some (a, r) ↔ ∃ inner, ts = .group d inner :: r ∧ p inner = some (a, []) := by
  unfold inGroup; split
  · rename_i e inner r'
    split
    · rename_i h; subst h
      split
      · rename_i h
        simp
        constructor
        · rintro ⟨rfl, rfl⟩; exact ⟨_, ⟨rfl, rfl⟩, h⟩
        · rintro ⟨_, ⟨rfl, rfl⟩, h'⟩; rw [h] at h'; simpa using h'
      · rename_i h
        simp
        intro _ h'; exact h _ h'
    · rename_i h
      simp only [reduceCtorEq, false_iff, not_exists]
      rintro j ⟨hj, _⟩
      cases hj
      exact h rfl
  · rename_i h
    constructor
    · intro h; cases h
    · rintro ⟨_, rfl, _⟩; exact absurd rfl (h _ _ _)

theorem piece_some {p : Piece α} {ts r : List TT} {v : α} : p.run ts = some (v, r) ↔ ∃ u, ts = u ++ r ∧ p.Takes u v r := by
  constructor
  · intro h
    obtain ⟨u, rfl⟩ := p.suffix _ _ _ h
    exact ⟨u, rfl, h⟩
  · rintro ⟨u, rfl, h⟩; exact h

theorem whole_some {p : P α} {ts : List TT} {a : α} : whole p ts = some a ↔ p ts = some (a, []) := by
  unfold whole; split
  · rename_i h; rw [h]; simp
  · rename_i h
    constructor
    · intro h; cases h
    · intro h'; exact absurd h' (h _)

theorem peek_r {ts r : List TT} {b : Bool} : (peekStr ts = some (b, r) → r = ts) ∧ (∀ c, peekPunct c ts = some (b, r) → r = ts) ∧
    (∀ k, peekKw k ts = some (b, r) → r = ts) ∧ (∀ d, peekGroup d ts = some (b, r) → r = ts) := by
  refine ⟨?_, ?_, ?_, ?_⟩ <;> (intros; rename_i h; first | unfold peekStr at h | unfold peekPunct at h | unfold peekKw at h | unfold peekGroup at h)
  all_goals split at h <;> (cases h; rfl)

/-- The loop of `parse_terminated`, for items that are not empty. -/
theorem terminatedGo_some {item : P α} {I : α → List TT → List TT → Prop} {sep : Char}
    (hi : ∀ x ts r, item ts = some (x, r) ↔ ∃ u, ts = u ++ r ∧ I x u r) (hne : ∀ x u r, I x u r → u ≠ []) :
    ∀ n xs ts r, ts.length < n → (terminatedGo item sep n ts = some (xs, r) ↔ r = [] ∧ Listed I sep xs ts) := by
  intro n
  induction n with
  | zero => intro xs ts r h; omega
  | succ n ih =>
    intro xs ts r hn
    unfold terminatedGo
    simp only [bind_some, isEmpty_some, ite_some, pure_some, punct_some, hi]
    constructor
    · rintro ⟨b, r', ⟨rfl, rfl⟩, ⟨h, rfl, rfl⟩ | ⟨h, x, r1, ⟨u, rfl, hx⟩, b', r2, ⟨rfl, rfl⟩, ⟨h', rfl, rfl⟩ | ⟨h', _, r3, ⟨j, rfl⟩, ys, r4, hr, rfl, rfl⟩⟩⟩
      · cases r with
        | nil => exact ⟨rfl, .nil⟩
        | cons _ _ => simp at h
      · cases r with
        | nil => rw [List.append_nil]; exact ⟨rfl, .last _ _ hx (hne _ _ _ hx)⟩
        | cons _ _ => simp at h'
      · rw [ih] at hr
        · exact ⟨hr.1, .cons _ _ _ _ _ hx hr.2⟩
        · simp at hn; omega
    · rintro ⟨rfl, h⟩
      cases h with
      | nil => exact ⟨_, _, ⟨rfl, rfl⟩, Or.inl ⟨rfl, rfl, rfl⟩⟩
      | last x _ hx hu =>
        refine ⟨_, _, ⟨rfl, rfl⟩, Or.inr ⟨?_, x, [], ⟨ts, by simp, hx⟩, _, _, ⟨rfl, rfl⟩, Or.inl ⟨rfl, rfl, rfl⟩⟩⟩
        cases ts with
        | nil => exact absurd rfl hu
        | cons => rfl
      | cons x u j ys r hx hr =>
        refine ⟨_, _, ⟨rfl, rfl⟩, Or.inr ⟨?_, x, _, ⟨u, rfl, hx⟩, _, _, ⟨rfl, rfl⟩, Or.inr ⟨rfl, (), r, ⟨j, rfl⟩, ys, [], ?_, rfl, rfl⟩⟩⟩
        · cases u <;> rfl
        · rw [ih]
          · exact ⟨rfl, hr⟩
          · simp at hn; omega

theorem terminated_some {item : P α} {I : α → List TT → List TT → Prop} {sep : Char}
    (hi : ∀ x ts r, item ts = some (x, r) ↔ ∃ u, ts = u ++ r ∧ I x u r) (hne : ∀ x u r, I x u r → u ≠ []) {xs ts r} :
    terminated item sep ts = some (xs, r) ↔ r = [] ∧ Listed I sep xs ts :=
  terminatedGo_some hi hne _ _ _ _ (Nat.lt_succ_self _)

end Prim

variable (R : Rust Vis Path Ty Pat Expr)

theorem tokenKey_some {k ts r} : tokenKey R ts = some (k, r) ↔ ∃ u, ts = u ++ r ∧ KeyText R k u := by
  unfold tokenKey
  simp only [bind_some, ite_some, pure_some, str_some, ident_some]
  constructor
  · rintro ⟨b, r', hp, ⟨h, s, r1, rfl, rfl, rfl⟩ | ⟨h, s, r1, ⟨rfl, hs⟩, rfl, rfl⟩⟩
    · obtain rfl := peek_r.1 hp
      exact ⟨[_], rfl, .raw _⟩
    · obtain rfl := peek_r.1 hp
      exact ⟨[_], rfl, .named _ hs⟩
  · rintro ⟨u, rfl, h⟩
    cases h with
    | named s hs => exact ⟨false, _, rfl, Or.inr ⟨rfl, _, _, ⟨rfl, hs⟩, rfl, rfl⟩⟩
    | raw s => exact ⟨true, _, rfl, Or.inl ⟨rfl, _, _, rfl, rfl, rfl⟩⟩

theorem tokenItem_some (x ts r) : tokenItem R ts = some (x, r) ↔ ∃ u, ts = u ++ r ∧ TokenText R x u r := by
  unfold tokenItem
  simp only [bind_some, pure_some, punct_some, piece_some, tokenKey_some]
  constructor
  · rintro ⟨k, r1, ⟨u, rfl, hu⟩, _, r2, ⟨j, rfl⟩, e, r3, ⟨v, rfl, hv⟩, rfl, rfl⟩
    exact ⟨u ++ .punct '=' j :: v, by simp, .mk _ _ _ _ _ _ hu hv⟩
  · rintro ⟨u, rfl, h⟩
    cases h with
    | mk k u j e v rest hu hv => exact ⟨k, _, ⟨u, by simp, hu⟩, (), _, ⟨j, rfl⟩, e, r, ⟨v, rfl, hv⟩, rfl, rfl⟩

theorem symbolItem_some (x ts r) : symbolItem R ts = some (x, r) ↔ ∃ u, ts = u ++ r ∧ SymbolText R x u r := by
  unfold symbolItem
  simp only [bind_some, pure_some, punct_some, piece_some, ident_some]
  constructor
  · rintro ⟨k, r1, ⟨rfl, hk⟩, _, r2, ⟨j, rfl⟩, e, r3, ⟨v, rfl, hv⟩, rfl, rfl⟩
    exact ⟨.ident k :: .punct '=' j :: v, by simp, .mk _ _ _ _ _ hk hv⟩
  · rintro ⟨u, rfl, h⟩
    cases h with
    | mk k j e v rest hk hv => exact ⟨k, _, ⟨rfl, hk⟩, (), _, ⟨j, rfl⟩, e, r, ⟨v, rfl, hv⟩, rfl, rfl⟩

theorem tokens_some {xs ts r} : terminated (tokenItem R) ',' ts = some (xs, r) ↔ r = [] ∧ Listed (TokenText R) ',' xs ts := by
  refine terminated_some (tokenItem_some R) ?_
  intro x u r h; cases h; simp

theorem symbols_some {xs ts r} : terminated (symbolItem R) ',' ts = some (xs, r) ↔ r = [] ∧ Listed (SymbolText R) ',' xs ts := by
  refine terminated_some (symbolItem_some R) ?_
  intro x u r h; cases h; simp

theorem tokenList_some {x ts r} : tokenList R ts = some (x, r) ↔ ∃ u inner, ts = .ident "token" :: (u ++ .group .brace inner :: r) ∧
    R.path.Takes u x.1 (.group .brace inner :: r) ∧ Listed (TokenText R) ',' x.2 inner := by
  unfold tokenList
  simp only [bind_some, pure_some, kw_some, piece_some, inGroup_some, tokens_some]
  constructor
  · rintro ⟨_, r1, rfl, n, r2, ⟨u, rfl, hu⟩, l, r3, ⟨inner, rfl, _, hi⟩, rfl, rfl⟩
    exact ⟨u, inner, rfl, hu, hi⟩
  · rintro ⟨u, inner, rfl, hu, hi⟩
    exact ⟨(), _, rfl, x.1, _, ⟨u, rfl, hu⟩, x.2, r, ⟨inner, rfl, trivial, hi⟩, rfl, rfl⟩

theorem symbolList_some {x ts r} : symbolList R ts = some (x, r) ↔ ∃ u inner, ts = .ident "symbol" :: (u ++ .group .brace inner :: r) ∧
    R.path.Takes u x.1 (.group .brace inner :: r) ∧ Listed (SymbolText R) ',' x.2 inner := by
  unfold symbolList
  simp only [bind_some, pure_some, kw_some, piece_some, inGroup_some, symbols_some]
  constructor
  · rintro ⟨_, r1, rfl, n, r2, ⟨u, rfl, hu⟩, l, r3, ⟨inner, rfl, _, hi⟩, rfl, rfl⟩
    exact ⟨u, inner, rfl, hu, hi⟩
  · rintro ⟨u, inner, rfl, hu, hi⟩
    exact ⟨(), _, rfl, x.1, _, ⟨u, rfl, hu⟩, x.2, r, ⟨inner, rfl, trivial, hi⟩, rfl, rfl⟩

theorem bnfTerminal_some {k ts r} : bnfTerminal R ts = some (k, r) ↔
    (∃ s, k = .named s ∧ R.reserved s = false ∧ ts = .group .bracket [.ident s] :: r) ∨ (∃ s, k = .raw s ∧ ts = .str s :: r) := by
  unfold bnfTerminal
  simp only [bind_some, ite_some, pure_some, str_some, ident_some, inGroup_some]
  constructor
  · rintro ⟨b, r', hp, ⟨h, s, r1, ⟨inner, rfl, rfl, hs⟩, rfl, rfl⟩ | ⟨h, s, r1, rfl, rfl, rfl⟩⟩
    · obtain rfl := peek_r.2.2.2 _ hp
      exact Or.inl ⟨s, rfl, hs, rfl⟩
    · obtain rfl := peek_r.2.2.2 _ hp
      exact Or.inr ⟨s, rfl, rfl⟩
  · rintro (⟨s, rfl, hs, rfl⟩ | ⟨s, rfl, rfl⟩)
    · exact ⟨true, _, rfl, Or.inl ⟨rfl, s, r, ⟨_, rfl, rfl, hs⟩, rfl, rfl⟩⟩
    · exact ⟨false, _, rfl, Or.inr ⟨rfl, s, r, rfl, rfl, rfl⟩⟩

theorem bnfSymbol_some {x ts r} : bnfSymbol R ts = some (x, r) ↔ ∃ u, ts = u ++ r ∧ SymText R x u := by
  unfold bnfSymbol
  simp only [bind_some, ite_some, pure_some, punct_some, ident_some, kw_some, bnfTerminal_some]
  constructor
  · rintro ⟨b, r', hp, ⟨h, _, r1, ⟨j, rfl⟩, s, r2, ⟨rfl, hs⟩, _, r3, ⟨j', rfl⟩, rfl, rfl⟩ | ⟨h, b', r1, hp', ⟨h', _, r2, rfl, rfl, rfl⟩ | ⟨h', k, r2, hk, rfl, rfl⟩⟩⟩
    · obtain rfl := peek_r.2.1 _ hp
      exact ⟨[_, _, _], rfl, .nt _ _ _ hs⟩
    · obtain rfl := peek_r.2.1 _ hp
      obtain rfl := peek_r.2.2.1 _ hp'
      exact ⟨[_], rfl, .error⟩
    · obtain rfl := peek_r.2.1 _ hp
      obtain rfl := peek_r.2.2.1 _ hp'
      rcases hk with ⟨s, rfl, hs, rfl⟩ | ⟨s, rfl, rfl⟩
      · exact ⟨[_], rfl, .named _ hs⟩
      · exact ⟨[_], rfl, .raw _⟩
  · rintro ⟨u, rfl, h⟩
    cases h with
    | nt s j j' hs => exact ⟨true, _, rfl, Or.inl ⟨rfl, (), _, ⟨j, rfl⟩, s, _, ⟨rfl, hs⟩, (), _, ⟨j', rfl⟩, rfl, rfl⟩⟩
    | error => exact ⟨false, _, rfl, Or.inr ⟨rfl, true, _, by simp [peekKw], Or.inl ⟨rfl, (), _, rfl, rfl, rfl⟩⟩⟩
    | named s hs => exact ⟨false, _, rfl, Or.inr ⟨rfl, false, _, rfl, Or.inr ⟨rfl, _, _, Or.inl ⟨s, rfl, hs, rfl⟩, rfl, rfl⟩⟩⟩
    | raw s => exact ⟨false, _, rfl, Or.inr ⟨rfl, false, _, rfl, Or.inr ⟨rfl, _, _, Or.inr ⟨s, rfl, rfl⟩, rfl, rfl⟩⟩⟩

theorem bnfRuleKey_some {k ts r} : bnfRuleKey R ts = some (k, r) ↔ ∃ u, ts = u ++ r ∧ HeadText R k u := by
  unfold bnfRuleKey
  simp only [bind_some, ite_some, pure_some, punct_some, punct2_some, ident_some]
  constructor
  · rintro ⟨b, r', hp, ⟨h, _, r1, ⟨j, rfl⟩, s, r2, ⟨rfl, hs⟩, _, r3, ⟨j', rfl⟩, _, r4, ⟨j2, rfl⟩, _, r5, ⟨j3, rfl⟩, rfl, rfl⟩ | ⟨h, _, r1, ⟨j, rfl⟩, rfl, rfl⟩⟩
    · obtain rfl := peek_r.2.1 _ hp
      exact ⟨[_, _, _, _, _, _], rfl, .named _ _ _ _ _ hs⟩
    · obtain rfl := peek_r.2.1 _ hp
      exact ⟨[_], rfl, .follow _⟩
  · rintro ⟨u, rfl, h⟩
    cases h with
    | named s j j' j2 j3 hs =>
      exact ⟨true, _, rfl, Or.inl ⟨rfl, (), _, ⟨j, rfl⟩, s, _, ⟨rfl, hs⟩, (), _, ⟨j', rfl⟩, (), _, ⟨j2, rfl⟩, (), _, ⟨j3, rfl⟩, rfl, rfl⟩⟩
    | follow j => exact ⟨false, _, rfl, Or.inr ⟨rfl, (), _, ⟨j, rfl⟩, rfl, rfl⟩⟩

/-- The next token is a `:`. -/
def AtColon (ts : List TT) : Prop := ∃ j r, ts = .punct ':' j :: r

theorem peekColon {ts r b} : peekPunct ':' ts = some (b, r) ↔ r = ts ∧ (b = true ↔ AtColon ts) := by
  unfold peekPunct AtColon
  split
  · rename_i d j r'
    constructor
    · intro h; cases h; refine ⟨rfl, ?_⟩; simp
      constructor
      · rintro rfl; rfl
      · rintro rfl; rfl
    · rintro ⟨rfl, h⟩
      simp
      cases b
      · simp at h; simpa using fun h' => h (Eq.symm h')
      · simp at h; obtain ⟨rfl, _⟩ := h; rfl
  · rename_i h
    constructor
    · intro h'; cases h'
      refine ⟨rfl, by simp, ?_⟩
      rintro ⟨j, r, rfl⟩; exact absurd rfl (h _ _ _)
    · rintro ⟨rfl, h'⟩
      cases b
      · rfl
      · obtain ⟨j, r, rfl⟩ := h'.1 rfl; exact absurd rfl (h _ _ _)

theorem SymText.not_colon {x u} (h : SymText R x u) (r : List TT) : ¬ AtColon (u ++ r) := by
  rintro ⟨j, r', he⟩
  cases h <;> simp at he

theorem SymText.length {x u} (h : SymText R x u) : 1 ≤ u.length := by cases h <;> simp

theorem bnfSymbolsGo_some : ∀ n xs ts r, ts.length < n →
    (bnfSymbolsGo R n ts = some (xs, r) ↔ AtColon r ∧ ∃ u, ts = u ++ r ∧ SymsText R xs u) := by
  intro n
  induction n with
  | zero => intro xs ts r h; omega
  | succ n ih =>
    intro xs ts r hn
    unfold bnfSymbolsGo
    simp only [bind_some, ite_some, pure_some, bnfSymbol_some, peekColon]
    constructor
    · rintro ⟨b, r', ⟨rfl, hp⟩, ⟨rfl, rfl, rfl⟩ | ⟨rfl, x, r1, ⟨u, rfl, hu⟩, ys, r2, hys, rfl, rfl⟩⟩
      · exact ⟨hp.1 rfl, [], rfl, .nil⟩
      · have := hu.length
        rw [ih _ _ _ (by simp at hn; omega)] at hys
        obtain ⟨h1, us, rfl, hus⟩ := hys
        exact ⟨h1, u ++ us, by simp, .cons _ _ _ _ hu hus⟩
    · rintro ⟨hc, u, rfl, h⟩
      cases h with
      | nil => exact ⟨true, _, ⟨rfl, by simpa using hc⟩, Or.inl ⟨rfl, rfl, rfl⟩⟩
      | cons x u ys us hu hus =>
        have := hu.length
        refine ⟨false, _, ⟨rfl, by simpa using hu.not_colon R (us ++ r)⟩, Or.inr ⟨rfl, x, us ++ r, ⟨u, by simp, hu⟩, ys, r, ?_, rfl, rfl⟩⟩
        rw [ih _ _ _ (by simp at hn ⊢; omega)]
        exact ⟨hc, us, rfl, hus⟩

theorem bnfSymbols_some {xs ts r} : bnfSymbols R ts = some (xs, r) ↔ AtColon r ∧ ∃ u, ts = u ++ r ∧ SymsText R xs u :=
  bnfSymbolsGo_some R _ _ _ _ (Nat.lt_succ_self _)

theorem bnfRule_some {x ts r} : bnfRule R ts = some (x, r) ↔ ∃ u, ts = u ++ r ∧ RuleText R x u r := by
  unfold bnfRule
  simp only [bind_some, pure_some, punct_some, punct2_some, piece_some, bnfRuleKey_some, bnfSymbols_some]
  constructor
  · rintro ⟨k, r1, ⟨u, rfl, hu⟩, xs, r2, ⟨_, us, rfl, hus⟩, _, r3, ⟨j, rfl⟩, p, r4, ⟨pu, rfl, hp⟩, _, r5, ⟨j', rfl⟩, e, r6, ⟨eu, rfl, he⟩, _, r7, ⟨j2, rfl⟩, rfl, rfl⟩
    exact ⟨_, by simp, RuleText.mk k u xs us j p pu j' e eu j2 _ hu hus hp he⟩
  · rintro ⟨u, rfl, h⟩
    cases h with
    | mk k u xs us j p pu j' e eu j2 rest hu hus hp he =>
      exact ⟨k, _, ⟨u, by simp, hu⟩, xs, _, ⟨⟨j, _, rfl⟩, us, rfl, hus⟩, (), _, ⟨j, rfl⟩, p, _, ⟨pu, rfl, hp⟩, (), _, ⟨j', rfl⟩,
        e, _, ⟨eu, rfl, he⟩, (), _, ⟨j2, rfl⟩, rfl, rfl⟩

theorem RuleText.length {x u r} (h : RuleText R x u r) : 1 ≤ u.length := by cases h; simp; omega

theorem bnfRulesGo_some : ∀ n xs ts r, ts.length < n →
    (bnfRulesGo R n ts = some (xs, r) ↔ r = [] ∧ RulesText R xs ts) := by
  intro n
  induction n with
  | zero => intro xs ts r h; omega
  | succ n ih =>
    intro xs ts r hn
    unfold bnfRulesGo
    simp only [bind_some, isEmpty_some, ite_some, pure_some, bnfRule_some]
    constructor
    · rintro ⟨b, r', ⟨rfl, rfl⟩, ⟨h, rfl, rfl⟩ | ⟨h, x, r1, ⟨u, rfl, hu⟩, ys, r2, hys, rfl, rfl⟩⟩
      · cases r with
        | nil => exact ⟨rfl, .nil⟩
        | cons _ _ => simp at h
      · have := hu.length
        rw [ih _ _ _ (by simp at hn; omega)] at hys
        exact ⟨hys.1, .cons _ _ _ _ hu hys.2⟩
    · rintro ⟨rfl, h⟩
      cases h with
      | nil => exact ⟨_, _, ⟨rfl, rfl⟩, Or.inl ⟨rfl, rfl, rfl⟩⟩
      | cons x u ys us hu hus =>
        have := hu.length
        refine ⟨_, _, ⟨rfl, rfl⟩, Or.inr ⟨?_, x, us, ⟨u, rfl, hu⟩, ys, [], ?_, rfl, rfl⟩⟩
        · cases u with
          | nil => simp at this
          | cons => rfl
        · rw [ih _ _ _ (by simp at hn ⊢; omega)]
          exact ⟨rfl, hus⟩

theorem bnfRules_some {xs ts r} : bnfRules R ts = some (xs, r) ↔ r = [] ∧ RulesText R xs ts :=
  bnfRulesGo_some R _ _ _ _ (Nat.lt_succ_self _)

theorem parserItems_some {v f m ts r} : parserItems R v f ts = some (m, r) ↔ r = [] ∧ ParserBody R v f m ts := by
  unfold parserItems
  simp only [bind_some, pure_some, kw_some, punct_some, ident_some, piece_some, tokenList_some, symbolList_some, bnfRules_some]
  constructor
  · rintro ⟨⟨tp, toks⟩, r1, ⟨tpu, toksu, rfl, h1, h2⟩, ⟨sp, syms⟩, r2, ⟨spu, symsu, rfl, h3, h4⟩, _, r3, rfl, ty, r4, ⟨tyu, rfl, h5⟩, _, r5,
      ⟨j, rfl⟩, _, r6, rfl, s, r7, ⟨rfl, hs⟩, _, r8, ⟨j', rfl⟩, rules, r9, ⟨rfl, h6⟩, rfl, rfl⟩
    exact ⟨rfl, .mk _ _ _ _ _ _ _ _ _ _ _ _ _ _ _ h1 h2 h3 h4 h5 hs h6⟩
  · rintro ⟨rfl, h⟩
    cases h with
    | mk tp tpu toks toksu sp spu syms symsu ty tyu j s j' rules rulesu h1 h2 h3 h4 h5 hs h6 =>
      exact ⟨⟨tp, toks⟩, _, ⟨tpu, toksu, rfl, h1, h2⟩, ⟨sp, syms⟩, _, ⟨spu, symsu, rfl, h3, h4⟩, (), _, rfl, ty, _, ⟨tyu, rfl, h5⟩, (), _,
        ⟨j, rfl⟩, (), _, rfl, s, _, ⟨rfl, hs⟩, (), _, ⟨j', rfl⟩, rules, _, ⟨rfl, h6⟩, rfl, rfl⟩

theorem ParserBody.fields {v f m ts} (h : ParserBody R v f m ts) : v = m.visibility ∧ f = m.functionName := by cases h; exact ⟨rfl, rfl⟩

theorem readParser_some {m ts} : readParser R ts = some m ↔ ParserText R m ts := by
  unfold readParser parserInput ParserText
  simp only [whole_some, bind_some, pure_some, kw_some, punct2_some, ident_some, piece_some, inGroup_some, parserItems_some]
  constructor
  · rintro ⟨v, r1, ⟨vu, rfl, hv⟩, _, r2, rfl, f, r3, ⟨rfl, hf⟩, _, r4, ⟨_, rfl, _, rfl⟩, _, r5, ⟨j, rfl⟩, _, r6, rfl, body, rfl, _, hb⟩
    obtain ⟨rfl, rfl⟩ := hb.fields
    exact ⟨body, .mk _ _ _ _ _ hf hv, hb⟩
  · rintro ⟨body, h, hb⟩
    cases h with
    | mk vu _ _ _ hf hv =>
      exact ⟨_, _, ⟨vu, rfl, hv⟩, (), _, rfl, _, _, ⟨rfl, hf⟩, (), _, ⟨_, rfl, trivial, rfl⟩, (), _, ⟨_, rfl⟩, (), _, rfl, body, rfl, trivial, hb⟩

theorem tokenizerRule_some (x ts r) : tokenizerRule R ts = some (x, r) ↔ ∃ u, ts = u ++ r ∧ PatternText R x u r := by
  unfold tokenizerRule
  simp only [bind_some, pure_some, punct_some, piece_some, str_some]
  constructor
  · rintro ⟨k, r1, rfl, _, r2, ⟨j, rfl⟩, e, r3, ⟨v, rfl, hv⟩, rfl, rfl⟩
    exact ⟨.str k :: .punct ':' j :: v, by simp, .mk _ _ _ _ _ hv⟩
  · rintro ⟨u, rfl, h⟩
    cases h with
    | mk k j e v rest hv => exact ⟨k, _, rfl, (), _, ⟨j, rfl⟩, e, r, ⟨v, rfl, hv⟩, rfl, rfl⟩

theorem patterns_some {xs ts r} : terminated (tokenizerRule R) ';' ts = some (xs, r) ↔ r = [] ∧ Listed (PatternText R) ';' xs ts := by
  refine terminated_some (tokenizerRule_some R) ?_
  intro x u r h; cases h; simp

theorem tokenizerItems_some {v f m ts r} : tokenizerItems R v f ts = some (m, r) ↔ r = [] ∧ TokenizerBody R v f m ts := by
  unfold tokenizerItems
  simp only [bind_some, pure_some, kw_some, punct_some, piece_some, patterns_some]
  constructor
  · rintro ⟨_, r1, rfl, ct, r2, ⟨ctu, rfl, h1⟩, _, r3, ⟨j, rfl⟩, _, r4, rfl, tt, r5, ⟨ttu, rfl, h2⟩, _, r6, ⟨j', rfl⟩, rules, r7, ⟨rfl, h3⟩, rfl, rfl⟩
    exact ⟨rfl, .mk _ _ _ _ _ _ _ _ h1 h2 h3⟩
  · rintro ⟨rfl, h⟩
    cases h with
    | mk ct ctu j tt ttu j' rules rulesu h1 h2 h3 =>
      exact ⟨(), _, rfl, ct, _, ⟨ctu, rfl, h1⟩, (), _, ⟨j, rfl⟩, (), _, rfl, tt, _, ⟨ttu, rfl, h2⟩, (), _, ⟨j', rfl⟩, rules, _, ⟨rfl, h3⟩, rfl, rfl⟩

theorem TokenizerBody.fields {v f m ts} (h : TokenizerBody R v f m ts) : v = m.visibility ∧ f = m.functionName := by cases h; exact ⟨rfl, rfl⟩

theorem readTokenizer_some {m ts} : readTokenizer R ts = some m ↔ TokenizerText R m ts := by
  unfold readTokenizer tokenizerInput TokenizerText
  simp only [whole_some, bind_some, pure_some, kw_some, punct2_some, ident_some, piece_some, inGroup_some, tokenizerItems_some]
  constructor
  · rintro ⟨v, r1, ⟨vu, rfl, hv⟩, _, r2, rfl, f, r3, ⟨rfl, hf⟩, _, r4, ⟨_, rfl, _, rfl⟩, _, r5, ⟨j, rfl⟩, _, r6, rfl, body, rfl, _, hb⟩
    obtain ⟨rfl, rfl⟩ := hb.fields
    exact ⟨body, .mk _ _ _ _ _ hf hv, hb⟩
  · rintro ⟨body, h, hb⟩
    cases h with
    | mk vu _ _ _ hf hv =>
      exact ⟨_, _, ⟨vu, rfl, hv⟩, (), _, rfl, _, _, ⟨rfl, hf⟩, (), _, ⟨_, rfl, trivial, rfl⟩, (), _, ⟨_, rfl⟩, (), _, rfl, body, rfl, trivial, hb⟩

end Verif.Macro
