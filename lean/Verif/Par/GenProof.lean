import Verif.Par.Gen
import Verif.Par.RenProof
import Verif.Par.NodupProof
import Verif.Par.BisimProof

/-!
# The macro `parser!` makes the same parser
-/

namespace Verif.Par

variable {N T E : Type}

/-! ## Names -/

theorem lastNamed_snoc {κ : Type} {l : List (κ × Nat)} {x : κ × Nat} {k : κ} {n : Nat} :
    LastNamed (l ++ [x]) k n ↔ (x = (k, n)) ∨ (x.1 ≠ k ∧ LastNamed l k n) := by
  constructor
  · rintro ⟨l1, l2, h1, h2⟩
    rcases List.eq_nil_or_concat l2 with rfl | ⟨l3, y, hl2⟩
    · have := List.append_inj_right' h1 rfl
      simp at this
      exact Or.inl this
    · rw [List.concat_eq_append] at hl2
      subst hl2
      rw [← List.cons_append, ← List.append_assoc] at h1
      obtain ⟨h3, h4⟩ := List.append_inj' h1 rfl
      cases h4
      exact Or.inr ⟨h2 _ (by simp), l1, l3, h3, fun z hz => h2 z (by simp [hz])⟩
  · rintro (rfl | ⟨h, l1, l2, rfl, h2⟩)
    · exact ⟨l, [], rfl, by simp⟩
    · refine ⟨l1, l2 ++ [x], by simp, ?_⟩
      intro z hz
      rcases List.mem_append.1 hz with hz | hz
      · exact h2 z hz
      · simp at hz; subst hz; exact h

theorem nameMap_snoc {κ : Type} [DecidableEq κ] (l : List κ) (k : κ) : nameMap (l ++ [k]) = put k l.length (nameMap l) := by
  unfold nameMap
  rw [List.zipIdx_append, List.foldl_append]
  simp

theorem nameMap_lt {κ : Type} [DecidableEq κ] (l : List κ) {k : κ} {i : Nat} (h : get k (nameMap l) = some i) : i < l.length := by
  induction l using snoc_induction generalizing i with
  | hnil => cases h
  | hsnoc l a ih =>
    rw [nameMap_snoc, get_put] at h
    simp only [List.length_append, List.length_cons, List.length_nil]
    split at h
    · cases h; omega
    · have := ih h; omega

theorem nameMap_lastNamed {κ : Type} [DecidableEq κ] (l : List (κ × Nat)) (k : κ) (n : Nat) :
    LastNamed l k n ↔ ∃ i, get k (nameMap (l.map Prod.fst)) = some i ∧ (l.map Prod.snd)[i]? = some n := by
  induction l using snoc_induction with
  | hnil => simp [LastNamed, nameMap, get]
  | hsnoc l x ih =>
    rw [lastNamed_snoc, ih, List.map_append, List.map_cons, List.map_nil, nameMap_snoc]
    simp only [get_put]
    obtain ⟨a, b⟩ := x
    simp only [List.map_append, List.length_map]
    by_cases h : k = a
    · subst h
      simp
    · simp only [h, if_false, Prod.mk.injEq, ne_eq]
      constructor
      · rintro (⟨h1, _⟩ | ⟨_, i, h1, h2⟩)
        · exact absurd h1.symm h
        · refine ⟨i, h1, ?_⟩
          rw [List.getElem?_append_left (List.getElem?_eq_some_iff.1 h2).1]
          exact h2
      · rintro ⟨i, h1, h2⟩
        have := nameMap_lt _ h1
        rw [List.length_map] at this
        rw [List.getElem?_append_left (by simpa using this)] at h2
        exact Or.inr ⟨fun h' => h h'.symm, i, h1, h2⟩

theorem nameMap_get {κ : Type} [DecidableEq κ] {l : List (κ × Nat)} {k : κ} {i : Nat} (h : get k (nameMap (l.map Prod.fst)) = some i) :
    ∃ n, (l.map Prod.snd)[i]? = some n ∧ LastNamed l k n := by
  have h1 := nameMap_lt _ h
  rw [List.length_map] at h1
  have h2 : (l.map Prod.snd)[i]? = some ((l.map Prod.snd)[i]'(by simpa using h1)) := List.getElem?_eq_getElem _
  exact ⟨_, h2, (nameMap_lastNamed l k _).2 ⟨i, h, h2⟩⟩

theorem LastNamed.unique {κ : Type} [DecidableEq κ] {l : List (κ × Nat)} {k : κ} {n n' : Nat} (h : LastNamed l k n) (h' : LastNamed l k n') : n = n' := by
  obtain ⟨i, h1, h2⟩ := (nameMap_lastNamed l k n).1 h
  obtain ⟨i', h1', h2'⟩ := (nameMap_lastNamed l k n').1 h'
  rw [h1] at h1'; cases h1'
  rw [h2] at h2'; cases h2'
  rfl

/-! ## The meaning of a macro input is unique -/

theorem SymsMean.unique {m : MacroInput N T E} {l : List BnfSym} {w w' : List Sym} (h : SymsMean m l w) (h' : SymsMean m l w') : w = w' := by
  induction h generalizing w' with
  | nil => cases h'; rfl
  | cons x X l w hx _ ih =>
    cases h' with
    | cons _ X' _ w1 hx' h' =>
      rw [ih h']
      congr 1
      cases hx with
      | tok k n hk => cases hx' with | tok _ n' hk' => rw [hk.unique hk']
      | nt k n hk => cases hx' with | nt _ n' hk' => rw [hk.unique hk']
      | error => cases hx'; rfl

theorem RulesMean.unique {m : MacroInput N T E} {a : Option Nat} {l : List (BnfRule N T E)} {d d' : List (Rule N T E)}
    (h : RulesMean m a l d) (h' : RulesMean m a l d') : d = d' := by
  induction h generalizing d' with
  | nil => cases h'; rfl
  | named above name n syms rhs gen l l' h1 h2 _ ih =>
    cases h' with
    | named _ _ n' _ rhs' _ _ l'' k1 k2 k3 =>
      have := h1.unique k1
      subst this
      rw [ih k3, h2.unique k2]
  | follow n syms rhs gen l l' h2 _ ih =>
    cases h' with
    | follow _ _ rhs' _ _ l'' k2 k3 => rw [ih k3, h2.unique k2]

/-! ## Renaming by arrays -/

/-- The symbols of `new_raw`. -/
def rawSyms (l : List (USym Nat Nat)) : List Sym := l.map fun symbol => match symbol with
  | .nt n => .nt n
  | .tok t => .tm (.sym t)
  | .error => .tm .err

/-- An array as a renaming, continued injectively. -/
def arrFun (l : List Nat) (i : Nat) : Nat := (l[i]?).getD (l.sum + 1 + i)

theorem arrFun_get {l : List Nat} {i n : Nat} (h : l[i]? = some n) : arrFun l i = n := by simp [arrFun, h]

theorem le_sum {l : List Nat} {n : Nat} (h : n ∈ l) : n ≤ l.sum := by
  induction l with
  | nil => cases h
  | cons a l ih =>
    rw [List.sum_cons]
    rcases List.mem_cons.1 h with rfl | h
    · omega
    · have := ih h; omega

theorem arrFun_inj {l : List Nat} (hn : l.Nodup) (a b : Nat) (h : arrFun l a = arrFun l b) : a = b := by
  unfold arrFun at h
  cases ha : l[a]? with
  | none =>
    cases hb : l[b]? with
    | none => rw [ha, hb] at h; simp at h; exact h
    | some y =>
      rw [ha, hb] at h
      have := le_sum (List.mem_of_getElem? hb)
      simp at h; omega
  | some x =>
    cases hb : l[b]? with
    | none =>
      rw [ha, hb] at h
      have := le_sum (List.mem_of_getElem? ha)
      simp at h; omega
    | some y =>
      rw [ha, hb] at h
      simp at h
      subst h
      obtain ⟨h1, h2⟩ := List.getElem?_eq_some_iff.1 ha
      obtain ⟨h3, h4⟩ := List.getElem?_eq_some_iff.1 hb
      have hp := List.pairwise_iff_getElem.1 hn
      rcases Nat.lt_trichotomy a b with hab | hab | hab
      · exact absurd (h2.trans h4.symm) (hp a b h1 h3 hab)
      · exact hab
      · exact absurd (h4.trans h2.symm) (hp b a h3 h1 hab)

section
variable {m : MacroInput N T E} {f h : Nat → Nat}
variable (hf : ∀ (i n : Nat), (m.tokens.map Prod.snd)[i]? = some n → f i = n) (hh : ∀ (i n : Nat), (m.symbols.map Prod.snd)[i]? = some n → h i = n)

/-- Numbers of tokens and non-terminals are in range. -/
def InRange (t n : Nat) : Sym → Prop
  | .nt k => k < n
  | .tm (.sym k) => k < t
  | .tm _ => True

include hf hh

theorem bnfItems_mean {l : List BnfSym} {items : List (USym Nat Nat)}
    (he : bnfItems (nameMap (m.tokens.map Prod.fst)) (nameMap (m.symbols.map Prod.fst)) l = some items) :
    ∃ w, SymsMean m l w ∧ w = (rawSyms items).map (Sym.ren f h) ∧
      (∃ items', allSome (symOf (m.tokens.map Prod.snd) (m.symbols.map Prod.snd)) items = some items' ∧ rawSyms items' = w) ∧
      ∀ X ∈ rawSyms items, InRange m.tokens.length m.symbols.length X := by
  unfold bnfItems at he
  induction l generalizing items with
  | nil => cases he; exact ⟨[], .nil, rfl, ⟨[], rfl, rfl⟩, by simp [rawSyms]⟩
  | cons x l ih =>
    rw [allSome] at he
    split at he
    · cases he
    · rename_i y hy
      split at he
      · cases he
      rename_i it he1
      cases he
      obtain ⟨w, h1, h2, ⟨it', h3, h4⟩, h5⟩ := ih he1
      cases x with
      | tok k =>
        simp only [Option.map_eq_some_iff] at hy
        obtain ⟨i, hi, rfl⟩ := hy
        obtain ⟨n, hn, hl⟩ := nameMap_get hi
        refine ⟨.tm (.sym n) :: w, .cons _ _ _ _ (.tok _ _ hl) h1, ?_, ⟨.tok n :: it', ?_, ?_⟩, ?_⟩
        · simp only [rawSyms, List.map_cons, Sym.ren, Term.ren, hf i n hn, List.cons.injEq, true_and]; exact h2
        · simp only [allSome, symOf, hn, h3, Option.map_some]
        · simp only [rawSyms, List.map_cons, List.cons.injEq, true_and]; exact h4
        · intro X hX
          simp only [rawSyms, List.map_cons, List.mem_cons] at hX
          rcases hX with rfl | hX
          · have := nameMap_lt _ hi; simpa [InRange] using this
          · exact h5 X hX
      | nt k =>
        simp only [Option.map_eq_some_iff] at hy
        obtain ⟨i, hi, rfl⟩ := hy
        obtain ⟨n, hn, hl⟩ := nameMap_get hi
        refine ⟨.nt n :: w, .cons _ _ _ _ (.nt _ _ hl) h1, ?_, ⟨.nt n :: it', ?_, ?_⟩, ?_⟩
        · simp only [rawSyms, List.map_cons, Sym.ren, hh i n hn, List.cons.injEq, true_and]; exact h2
        · simp only [allSome, symOf, hn, h3, Option.map_some]
        · simp only [rawSyms, List.map_cons, List.cons.injEq, true_and]; exact h4
        · intro X hX
          simp only [rawSyms, List.map_cons, List.mem_cons] at hX
          rcases hX with rfl | hX
          · have := nameMap_lt _ hi; simpa [InRange] using this
          · exact h5 X hX
      | error =>
        cases hy
        refine ⟨.tm .err :: w, .cons _ _ _ _ .error h1, ?_, ⟨.error :: it', ?_, ?_⟩, ?_⟩
        · simp only [rawSyms, List.map_cons, Sym.ren, Term.ren, List.cons.injEq, true_and]; exact h2
        · simp only [allSome, symOf, h3]
        · simp only [rawSyms, List.map_cons, List.cons.injEq, true_and]; exact h4
        · intro X hX
          simp only [rawSyms, List.map_cons, List.mem_cons] at hX
          rcases hX with rfl | hX
          · trivial
          · exact h5 X hX

omit hf hh in
theorem bnfItems_of_mean {l : List BnfSym} {w : List Sym} (hm : SymsMean m l w) :
    ∃ items, bnfItems (nameMap (m.tokens.map Prod.fst)) (nameMap (m.symbols.map Prod.fst)) l = some items := by
  induction hm with
  | nil => exact ⟨[], rfl⟩
  | cons x X l w hx _ ih =>
    obtain ⟨items, hi⟩ := ih
    unfold bnfItems at hi ⊢
    cases hx with
    | tok k n hk =>
      obtain ⟨i, h1, _⟩ := (nameMap_lastNamed _ _ _).1 hk
      exact ⟨.tok i :: items, by simp only [allSome, h1, Option.map_some, hi]⟩
    | nt k n hk =>
      obtain ⟨i, h1, _⟩ := (nameMap_lastNamed _ _ _).1 hk
      exact ⟨.nt i :: items, by simp only [allSome, h1, Option.map_some, hi]⟩
    | error => exact ⟨.error :: items, by simp only [allSome, hi]⟩

theorem bnfRules_mean {a : Option Nat} {l : List (BnfRule N T E)} {raw : List (Nat × List (USym Nat Nat))}
    (ha : ∀ i, a = some i → i < m.symbols.length)
    (he : bnfRules (nameMap (m.tokens.map Prod.fst)) (nameMap (m.symbols.map Prod.fst)) a l = some raw) :
    ∃ d, RulesMean m (a.bind ((m.symbols.map Prod.snd)[·]?)) l d ∧ d.map Rule.plain = (raw.map rawRule).map (PRule.ren f h) ∧
      allSome (emitRule (m.tokens.map Prod.snd) (m.symbols.map Prod.snd)) ((raw.zip l).map fun x => (x.1.1, x.1.2, x.2.gen)) = some d ∧
      ∀ r ∈ raw.map rawRule, r.lhs < m.symbols.length ∧ ∀ X ∈ r.rhs, InRange m.tokens.length m.symbols.length X := by
  induction l generalizing a raw with
  | nil => cases he; exact ⟨[], .nil _, rfl, rfl, by simp⟩
  | cons r l ih =>
    obtain ⟨key, syms, gen⟩ := r
    rw [bnfRules] at he
    split at he
    · cases he
    · rename_i start hstart
      split at he
      · cases he
      · rename_i items hitems
        simp only [Option.map_eq_some_iff] at he
        obtain ⟨raw', he1, rfl⟩ := he
        obtain ⟨w, w1, w2, ⟨it', w3, w4⟩, w5⟩ := bnfItems_mean hf hh hitems
        have hlt : start < m.symbols.length := by
          cases key with
          | named name => have := nameMap_lt _ hstart; simpa using this
          | follow => exact ha _ hstart
        obtain ⟨n, hn⟩ : ∃ n, (m.symbols.map Prod.snd)[start]? = some n :=
          ⟨_, List.getElem?_eq_getElem (by simpa using hlt)⟩
        obtain ⟨d, d1, d2, d3, d4⟩ := ih (a := some start) (by rintro _ ⟨⟩; exact hlt) he1
        rw [Option.bind_some, hn] at d1
        refine ⟨⟨n, w, gen⟩ :: d, ?_, ?_, ?_, ?_⟩
        · cases key with
          | named name =>
            obtain ⟨n', hn', hl⟩ := nameMap_get hstart
            rw [hn] at hn'; cases hn'
            exact .named _ _ _ _ _ _ _ _ hl w1 d1
          | follow =>
            simp only at hstart
            rw [hstart, Option.bind_some, hn]
            exact .follow _ _ _ _ _ _ w1 d1
        · simp only [List.map_cons, d2, List.cons.injEq, and_true]
          simp only [Rule.plain, PRule.ren, rawRule, ruleNewRaw, hh start n hn, PRule.mk.injEq, true_and]
          exact w2
        · simp only [List.zip_cons_cons, List.map_cons, allSome, emitRule, hn, w3]
          rw [d3]
          simp only [ruleNewRaw, Option.some.injEq, List.cons.injEq, Rule.mk.injEq, true_and, and_true]
          exact w4
        · intro r hr
          rw [List.map_cons, List.mem_cons] at hr
          rcases hr with rfl | hr
          · exact ⟨hlt, w5⟩
          · exact d4 r hr

omit hf hh in
theorem bnfRules_of_mean {a' : Option Nat} {l : List (BnfRule N T E)} {d : List (Rule N T E)} (hm : RulesMean m a' l d) (a : Option Nat)
    (ha : ∀ n, a' = some n → ∃ i, a = some i) :
    ∃ raw, bnfRules (nameMap (m.tokens.map Prod.fst)) (nameMap (m.symbols.map Prod.fst)) a l = some raw := by
  induction hm generalizing a with
  | nil => exact ⟨[], rfl⟩
  | named above name n syms rhs gen l l' h1 h2 _ ih =>
    obtain ⟨i, k1, _⟩ := (nameMap_lastNamed _ _ _).1 h1
    obtain ⟨items, k2⟩ := bnfItems_of_mean h2
    obtain ⟨raw, k3⟩ := ih (some i) (fun _ _ => ⟨i, rfl⟩)
    exact ⟨(i, items) :: raw, by simp only [bnfRules, k1, k2, k3, Option.map_some]⟩
  | follow n syms rhs gen l l' h2 _ ih =>
    obtain ⟨i, rfl⟩ := ha n rfl
    obtain ⟨items, k2⟩ := bnfItems_of_mean h2
    obtain ⟨raw, k3⟩ := ih (some i) (fun _ _ => ⟨i, rfl⟩)
    exact ⟨(i, items) :: raw, by simp only [bnfRules, k2, k3, Option.map_some]⟩

end

/-! ## Writing tables out and reading them back -/

theorem get_perm {κ β : Type} [DecidableEq κ] {l l' : List (κ × β)} (hp : l'.Perm l) (hn : (l.map Prod.fst).Nodup) (k : κ) : get k l' = get k l := by
  have hn' : (l'.map Prod.fst).Nodup := (List.Perm.nodup_iff (hp.map Prod.fst)).2 hn
  cases h : get k l with
  | some v => exact get_of_mem hn' (hp.mem_iff.2 (get_mem h))
  | none =>
    cases h' : get k l' with
    | none => rfl
    | some v => rw [get_of_mem hn (hp.mem_iff.1 (get_mem h'))] at h; cases h

theorem get_mapSnd {κ α β : Type} [DecidableEq κ] (f : α → β) (l : List (κ × α)) (k : κ) : get k (l.map fun x => (x.1, f x.2)) = (get k l).map f := by
  induction l with
  | nil => rfl
  | cons x l ih =>
    obtain ⟨a, b⟩ := x
    simp only [List.map_cons, get]
    split
    · rfl
    · exact ih

theorem insertAllKeys_some {κ κ' β : Type} [DecidableEq κ'] {f : κ → Option κ'} {l : List (κ × β)} (h : ∀ x ∈ l, ∃ y, f x.1 = some y)
    (m : List (κ' × β)) : ∃ r, insertAllKeys f l m = some r := by
  induction l generalizing m with
  | nil => exact ⟨m, rfl⟩
  | cons x l ih =>
    obtain ⟨k, v⟩ := x
    obtain ⟨y, hy⟩ := h (k, v) (by simp)
    simp only at hy
    simp only [insertAllKeys, hy]
    exact ih (fun x hx => h x (by simp [hx])) _

theorem insertAllKeys_get {κ κ' β : Type} [DecidableEq κ] [DecidableEq κ'] {f : κ → Option κ'} (hf : ∀ a b c, f a = some c → f b = some c → a = b)
    {l : List (κ × β)} (hn : (l.map Prod.fst).Nodup) {m r : List (κ' × β)} (h : insertAllKeys f l m = some r) (k' : κ') (v : β) :
    get k' r = some v ↔ (∃ k, f k = some k' ∧ get k l = some v) ∨ ((∀ k, f k = some k' → k ∉ l.map Prod.fst) ∧ get k' m = some v) := by
  induction l generalizing m with
  | nil => cases h; simp [get]
  | cons x l ih =>
    obtain ⟨k, w⟩ := x
    rw [insertAllKeys] at h
    rw [List.map_cons, List.nodup_cons] at hn
    split at h
    · cases h
    · rename_i k1 hk1
      rw [ih hn.2 h, get_put]
      simp only [List.map_cons, List.mem_cons, not_or, get]
      constructor
      · rintro (⟨k2, h1, h2⟩ | ⟨h1, h2⟩)
        · refine Or.inl ⟨k2, h1, ?_⟩
          rw [if_neg]
          · exact h2
          · rintro rfl; exact hn.1 (List.mem_map.2 ⟨_, get_mem h2, rfl⟩)
        · split at h2
          · rename_i he
            subst he
            cases h2
            exact Or.inl ⟨k, hk1, by simp⟩
          · rename_i he
            refine Or.inr ⟨fun k2 h3 => ⟨?_, h1 k2 h3⟩, h2⟩
            rintro rfl
            rw [hk1] at h3; cases h3; exact he rfl
      · rintro (⟨k2, h1, h2⟩ | ⟨h1, h2⟩)
        · split at h2
          · rename_i he
            subst he
            cases h2
            rw [hk1] at h1; cases h1
            refine Or.inr ⟨?_, by simp⟩
            intro k3 h3
            rw [hf _ _ _ h3 hk1]; exact hn.1
          · exact Or.inl ⟨k2, h1, h2⟩
        · refine Or.inr ⟨fun k2 h3 => (h1 k2 h3).2, ?_⟩
          rw [if_neg]
          · exact h2
          · rintro rfl; exact (h1 k hk1).1 rfl

theorem insertRows_some {α β : Type} {f : α → Option β} {l : List (Nat × α)} (h : ∀ x ∈ l, ∃ y, f x.2 = some y) (m : List (Nat × β)) :
    ∃ r, insertRows f l m = some r := by
  induction l generalizing m with
  | nil => exact ⟨m, rfl⟩
  | cons x l ih =>
    obtain ⟨k, v⟩ := x
    obtain ⟨y, hy⟩ := h (k, v) (by simp)
    simp only at hy
    simp only [insertRows, hy]
    exact ih (fun x hx => h x (by simp [hx])) _

theorem insertRows_get {α β : Type} {f : α → Option β} {l : List (Nat × α)} (hn : (l.map Prod.fst).Nodup) {m r : List (Nat × β)}
    (h : insertRows f l m = some r) (k : Nat) : get k r = if k ∈ l.map Prod.fst then (get k l).bind f else get k m := by
  induction l generalizing m with
  | nil => cases h; simp
  | cons x l ih =>
    obtain ⟨k1, w⟩ := x
    rw [insertRows] at h
    rw [List.map_cons, List.nodup_cons] at hn
    split at h
    · cases h
    · rename_i v hv
      rw [ih hn.2 h, get_put]
      simp only [List.map_cons, List.mem_cons, get]
      by_cases h1 : k = k1
      · subst h1
        rw [if_neg hn.1]
        simp [hv]
      · simp only [h1, show ¬ k1 = k from fun h => h1 h.symm, if_false, false_or]

theorem insertRows_get' {α β : Type} {f : α → Option β} {l : List (Nat × α)} (hn : (l.map Prod.fst).Nodup) {r : List (Nat × β)}
    (h : insertRows f l [] = some r) (k : Nat) : get k r = (get k l).bind f := by
  rw [insertRows_get hn h]
  split
  · rfl
  · rename_i hk
    cases hg : get k l with
    | none => rfl
    | some v => exact absurd (List.mem_map.2 ⟨_, get_mem hg, rfl⟩) hk

theorem setFold_mem (l s : List Nat) (x : Nat) :
    x ∈ l.foldl (fun s v => if s.contains v then s else s ++ [v]) s ↔ x ∈ s ∨ x ∈ l := by
  induction l generalizing s with
  | nil => simp
  | cons a l ih =>
    rw [List.foldl_cons, ih, List.mem_cons]
    split
    · rename_i h
      simp only [List.contains_iff_mem] at h
      constructor
      · rintro (h1 | h1)
        · exact Or.inl h1
        · exact Or.inr (Or.inr h1)
      · rintro (h1 | rfl | h1)
        · exact Or.inl h1
        · exact Or.inl h
        · exact Or.inr h1
    · simp only [List.mem_append, List.mem_singleton, or_assoc]

/-! ## The emitted tables -/

theorem keyOf_iff {toks : List Nat} {f : Nat → Nat} (hf : ∀ i n, toks[i]? = some n → f i = n) {a a' : Term} (h : keyOf toks a = some a') : a' = a.ren f := by
  cases a with
  | sym s =>
    simp only [keyOf, Option.map_eq_some_iff] at h
    obtain ⟨n, h1, rfl⟩ := h
    simp [Term.ren, hf s n h1]
  | err => cases h; rfl
  | eoi => cases h; rfl

theorem nodup_mapSnd {κ α β : Type} {f : α → β} {l l' : List (κ × α)} (hp : l'.Perm l) (hn : (l.map Prod.fst).Nodup) :
    ((l'.map fun x => (x.1, f x.2)).map Prod.fst).Nodup := by
  rw [List.map_map]
  exact (List.Perm.nodup_iff (hp.map Prod.fst)).2 hn

/-- Writing tables out and reading them back. -/
theorem emit_tables {toks syms : List Nat} (ht : toks.Nodup) (hs : syms.Nodup) {T : Tables} (hk : T.Keys) {go : GSeeds} (hgo : go.Fair)
    (hact : ∀ q a x, T.act q a = some x → ∃ a', keyOf toks a = some a')
    (hgoto : ∀ q n x, (get q T.goto).bind (get n) = some x → ∃ n' : Nat, syms[n]? = some n')
    (hne : ∀ q es, get q T.errors = some es → es ≠ []) :
    ∃ A G Er, insertRows (fun row => insertAllKeys (keyOf toks) row []) ((go.action T.action).map fun x => (x.1, go.row x.2)) [] = some A ∧
      insertRows (fun row => insertAllKeys (syms[·]?) row []) ((go.goto T.goto).map fun x => (x.1, go.gotoRow x.2)) [] = some G ∧
      insertRows (fun set => some (set.foldl (fun s v => if s.contains v then s else s ++ [v]) [])) ((go.errors T.errors).map fun x => (x.1, go.errorRow x.2)) [] = some Er ∧
      TabRen (arrFun toks) (arrFun syms) T ⟨A, G, Er, T.start⟩ := by
  have hkey : ∀ a b c, keyOf toks a = some c → keyOf toks b = some c → a = b := by
    intro a b c h1 h2
    have e1 := keyOf_iff (fun i n => arrFun_get) h1
    have e2 := keyOf_iff (fun i n => arrFun_get) h2
    exact Term.ren_inj (arrFun_inj ht) (e1.symm.trans e2)
  have hsym : ∀ a b c, (fun n : Nat => syms[n]?) a = some c → (fun n : Nat => syms[n]?) b = some c → a = b := by
    intro a b c h1 h2
    exact arrFun_inj hs a b ((arrFun_get h1).trans (arrFun_get h2).symm)
  have hrowkeys : ∀ q row, get q T.action = some row → ((go.row row).map Prod.fst).Nodup ∧ ∀ k, get k (go.row row) = get k row := by
    intro q row h
    have := hk.row _ (get_mem h)
    exact ⟨(List.Perm.nodup_iff ((hgo.row row).map Prod.fst)).2 this, get_perm (hgo.row row) this⟩
  have hgrowkeys : ∀ q row, get q T.goto = some row → ((go.gotoRow row).map Prod.fst).Nodup ∧ ∀ k, get k (go.gotoRow row) = get k row := by
    intro q row h
    have := hk.gotoRow _ (get_mem h)
    exact ⟨(List.Perm.nodup_iff ((hgo.gotoRow row).map Prod.fst)).2 this, get_perm (hgo.gotoRow row) this⟩
  have hrow1 : ∀ q row, get q T.action = some row → ∃ r, insertAllKeys (keyOf toks) (go.row row) [] = some r := by
    intro q row h
    refine insertAllKeys_some ?_ _
    intro x hx
    have h1 := get_of_mem (hrowkeys q row h).1 hx
    rw [(hrowkeys q row h).2] at h1
    exact hact q x.1 x.2 (by simp [Tables.act, h, h1])
  have hgrow1 : ∀ q row, get q T.goto = some row → ∃ r, insertAllKeys (syms[·]?) (go.gotoRow row) [] = some r := by
    intro q row h
    refine insertAllKeys_some ?_ _
    intro x hx
    have h1 := get_of_mem (hgrowkeys q row h).1 hx
    rw [(hgrowkeys q row h).2] at h1
    exact hgoto q x.1 x.2 (by simp [h, h1])
  obtain ⟨A, hA⟩ := insertRows_some (f := fun row => insertAllKeys (keyOf toks) row []) (l := (go.action T.action).map fun x => (x.1, go.row x.2)) (by
    intro y hy
    obtain ⟨x, hx, rfl⟩ := List.mem_map.1 hy
    exact hrow1 x.1 x.2 (get_of_mem hk.action ((hgo.action _).mem_iff.1 hx))) []
  obtain ⟨G, hG⟩ := insertRows_some (f := fun row => insertAllKeys (syms[·]?) row []) (l := (go.goto T.goto).map fun x => (x.1, go.gotoRow x.2)) (by
    intro y hy
    obtain ⟨x, hx, rfl⟩ := List.mem_map.1 hy
    exact hgrow1 x.1 x.2 (get_of_mem hk.goto ((hgo.goto _).mem_iff.1 hx))) []
  obtain ⟨Er, hEr⟩ := insertRows_some (f := fun set => some (set.foldl (fun s v => if s.contains v then s else s ++ [v]) []))
    (l := (go.errors T.errors).map fun x => (x.1, go.errorRow x.2)) (fun _ _ => ⟨_, rfl⟩) []
  have gA : ∀ q, get q A = ((get q T.action).map go.row).bind (fun row => insertAllKeys (keyOf toks) row []) := by
    intro q
    rw [insertRows_get' (nodup_mapSnd (hgo.action _) hk.action) hA, get_mapSnd, get_perm (hgo.action _) hk.action]
  have gG : ∀ q, get q G = ((get q T.goto).map go.gotoRow).bind (fun row => insertAllKeys (syms[·]?) row []) := by
    intro q
    rw [insertRows_get' (nodup_mapSnd (hgo.goto _) hk.goto) hG, get_mapSnd, get_perm (hgo.goto _) hk.goto]
  have gE : ∀ q, get q Er = ((get q T.errors).map go.errorRow).map fun set => (set.foldl (fun s v => if s.contains v then s else s ++ [v]) []) := by
    intro q
    rw [insertRows_get' (nodup_mapSnd (hgo.errors _) hk.errors) hEr, get_mapSnd, get_perm (hgo.errors _) hk.errors]
    cases Option.map go.errorRow (get q T.errors) <;> rfl
  refine ⟨A, G, Er, hA, hG, hEr, rfl, ?_, ?_, ?_, ?_, ?_⟩
  · intro q a' x
    simp only [Tables.act]
    rw [gA]
    cases hq : get q T.action with
    | none => simp
    | some row =>
      obtain ⟨r, hr⟩ := hrow1 q row hq
      obtain ⟨k1, k2⟩ := hrowkeys q row hq
      simp only [Option.map_some, Option.bind_some, hr]
      rw [insertAllKeys_get hkey k1 hr]
      simp only [k2, get, reduceCtorEq, and_false, or_false]
      constructor
      · rintro ⟨a, h1, h2⟩
        exact ⟨a, keyOf_iff (fun i n => arrFun_get) h1, h2⟩
      · rintro ⟨a, rfl, h2⟩
        obtain ⟨a', h3⟩ := hact q a x (by simp [Tables.act, hq, h2])
        refine ⟨a, ?_, h2⟩
        rw [h3, keyOf_iff (fun i n => arrFun_get) h3]
  · intro q n' x
    simp only
    rw [gG]
    cases hq : get q T.goto with
    | none => simp
    | some row =>
      obtain ⟨r, hr⟩ := hgrow1 q row hq
      obtain ⟨k1, k2⟩ := hgrowkeys q row hq
      simp only [Option.map_some, Option.bind_some, hr]
      rw [insertAllKeys_get hsym k1 hr]
      simp only [k2, get, reduceCtorEq, and_false, or_false]
      constructor
      · rintro ⟨a, h1, h2⟩
        exact ⟨a, (arrFun_get h1).symm, h2⟩
      · rintro ⟨a, rfl, h2⟩
        obtain ⟨a', h3⟩ := hgoto q a x (by simp [hq, h2])
        refine ⟨a, ?_, h2⟩
        rw [h3, arrFun_get h3]
  · intro q row hq
    obtain ⟨r, hr⟩ := hrow1 q row hq
    exact ⟨r, by simp [gA, hq, hr]⟩
  · intro q x
    simp only [gE]
    cases hq : get q T.errors with
    | none => simp
    | some es =>
      simp only [Option.map_some, Option.getD_some, setFold_mem, (hgo.errorRow es).mem_iff]
      simp
  · intro q es' h
    simp only [gE] at h
    cases hq : get q T.errors with
    | none => rw [hq] at h; simp at h
    | some es =>
      rw [hq] at h
      simp only [Option.map_some, Option.some.injEq] at h
      obtain ⟨x, hx⟩ := List.exists_mem_of_ne_nil _ (hne q es hq)
      intro he
      have := (setFold_mem (go.errorRow es) [] x).2 (Or.inr ((hgo.errorRow es).mem_iff.2 hx))
      rw [h, he] at this
      cases this

/-! ## Panics of `new` under renaming -/

theorem bad_ren {R : List PRule} {s : Nat} {f h : Nat → Nat} (hf : ∀ a b, f a = f b → a = b) (hh : ∀ a b, h a = h b → a = b) :
    Bad (R.map (PRule.ren f h)) s ↔ Bad R s := by
  have hdrop : ∀ (l : List Sym) n (a : Term), (l.map (Sym.ren f h)).drop n ++ [Sym.tm (a.ren f)] = (l.drop n ++ [Sym.tm a]).map (Sym.ren f h) := by
    intro l n a
    simp [Sym.ren, List.map_drop]
  constructor
  · rintro ⟨γ', i', hv, hst⟩
    obtain ⟨γ, i, rfl, rfl, hv'⟩ := hv.unren hf hh
    refine ⟨γ, i, hv', ?_⟩
    rcases hst with hst | ⟨r', B', b', ρ', k1, k2, k3, k4⟩
    · left
      simpa [Item.ren] using hst
    · right
      simp only [Item.ren, List.getElem?_map, Option.map_eq_some_iff] at k1
      obtain ⟨r, k5, rfl⟩ := k1
      simp only [Item.ren, PRule.ren, List.getElem?_map, Option.map_eq_some_iff] at k2
      obtain ⟨X, k6, k7⟩ := k2
      cases X with
      | tm t => cases k7
      | nt B =>
        simp only [Sym.ren, Sym.nt.injEq] at k7
        subst k7
        simp only [Item.ren, PRule.ren, hdrop] at k4
        obtain ⟨v, k8, k9⟩ := k4.unren hf hh
        cases v with
        | nil => cases k8
        | cons Y v =>
          simp only [List.map_cons, List.cons.injEq] at k8
          cases Y with
          | nt n => cases k8.1
          | tm b =>
            refine ⟨r, B, b, v, k5, k6, ?_, k9⟩
            intro r1 hr1 he
            exact k3 _ (List.mem_map.2 ⟨r1, hr1, rfl⟩) (by simp [PRule.ren, he])
  · rintro ⟨γ, i, hv, hst⟩
    refine ⟨γ.map (Sym.ren f h), i.ren f, hv.ren, ?_⟩
    rcases hst with hst | ⟨r, B, b, ρ, k1, k2, k3, k4⟩
    · left
      simp [Item.ren, hst]
    · right
      refine ⟨r.ren f h, h B, b.ren f, ρ.map (Sym.ren f h), by simp [Item.ren, k1], by simp [Item.ren, PRule.ren, k2, Sym.ren], ?_, ?_⟩
      · intro r' hr'
        obtain ⟨r1, hr1, rfl⟩ := List.mem_map.1 hr'
        intro he
        exact k3 r1 hr1 (hh _ _ he)
      · simp only [Item.ren, PRule.ren, hdrop]
        exact k4.ren

theorem Bad.refresh {g : Gram} {f1 f2 : Nat} (hf1 : ¬ g.Used f1) (hf2 : ¬ g.Used f2) (hs1 : g.start ≠ f1) (hs2 : g.start ≠ f2)
    (h : Bad (g.aug f1) g.rules.length) : Bad (g.aug f2) g.rules.length := by
  obtain ⟨γ, i, hv, hst⟩ := h
  have hv2 := hv.refresh (f2 := f2) hf1 hs1
  refine ⟨γ, i, hv2, ?_⟩
  obtain ⟨r, hr, _⟩ := hv.rule (r0 := ⟨f1, [.nt g.start]⟩) (by simp [Gram.aug])
  rcases hst with hst | ⟨r, B, b, ρ, k1, k2, k3, k4⟩
  · rw [hr] at hst; cases hst
  · right
    have hb := aug_rhs (g := g) (f1 := f1) (f2 := f2) (k := i.rule)
    rw [k1] at hb
    cases hr2 : (g.aug f2)[i.rule]? with
    | none => rw [hr2] at hb; cases hb
    | some r2 =>
      rw [hr2] at hb
      simp only [Option.map_some, Option.some.injEq] at hb
      have hnf : ∀ {r : PRule}, r ∈ g.aug f1 → Sym.nt f1 ∉ r.rhs ∧ Sym.nt f2 ∉ r.rhs := by
        intro r hr
        rcases List.mem_append.1 hr with hr | hr
        · exact ⟨fun h => hf1 ⟨r, hr, Or.inr h⟩, fun h => hf2 ⟨r, hr, Or.inr h⟩⟩
        · simp at hr; subst hr; simp [hs1.symm, hs2.symm]
      have hm := hnf (List.mem_of_getElem? k1)
      refine ⟨r2, B, b, ρ, rfl, by rw [← hb]; exact k2, ?_, ?_⟩
      · intro r' hr' he
        rcases List.mem_append.1 hr' with hr' | hr'
        · exact k3 r' (List.mem_append.2 (Or.inl hr')) he
        · simp at hr'
          subst hr'
          simp only at he
          subst he
          exact hm.2 (List.mem_of_getElem? k2)
      · rw [← hb]
        refine k4.refresh hf1 ?_
        intro h
        rcases List.mem_append.1 h with h | h
        · exact hm.1 (List.mem_of_mem_drop h)
        · simp at h

end Verif.Par
