import Verif.Par.LL1
import Verif.Par.RmGram
import Verif.Par.EmbedAug
import Verif.Props.ParTables

/-!
# LL(1) grammars are LR(1): proofs
-/

namespace Verif.Par

/-! ## Valid items, top-down -/

/-- The way from rule `j` (with look-ahead `a`) down to an item, over the symbols of the list. -/
inductive Down (R : List PRule) : Nat → Term → List Sym → Item → Prop
  | here (j a rule k) : R[j]? = some rule → k ≤ rule.rhs.length → Down R j a (rule.rhs.take k) ⟨j, k, a⟩
  | down (j a rule k B j' r' b ρ γ i) : R[j]? = some rule → rule.rhs[k]? = some (.nt B) → R[j']? = some r' → r'.lhs = B →
      Gen R (rule.rhs.drop (k + 1) ++ [.tm a]) (.tm b :: ρ) → Down R j' b γ i → Down R j a (rule.rhs.take k ++ γ) i

variable {R : List PRule} {s : Nat}

theorem Down.advance {j : Nat} {a : Term} {γ : List Sym} {i : Item} (h : Down R j a γ i) {r : PRule} {X : Sym}
    (hr : R[i.rule]? = some r) (hX : r.rhs[i.pos]? = some X) : Down R j a (γ ++ [X]) ⟨i.rule, i.pos + 1, i.la⟩ := by
  induction h with
  | here j a rule k h1 h2 =>
    simp only at hr hX
    obtain rfl := Option.some.inj (h1.symm.trans hr)
    have hlt : k < rule.rhs.length := (List.getElem?_eq_some_iff.1 hX).1
    have : rule.rhs.take k ++ [X] = rule.rhs.take (k + 1) := by
      rw [List.take_add_one, hX]; rfl
    rw [this]
    exact .here j a rule (k + 1) h1 hlt
  | down j a rule k B j' r' b ρ γ i h1 h2 h3 h4 h5 _ ih =>
    rw [List.append_assoc]
    exact .down j a rule k B j' r' b ρ _ _ h1 h2 h3 h4 h5 (ih hr hX)

theorem Down.expand {j : Nat} {a : Term} {γ : List Sym} {i : Item} (h : Down R j a γ i) {r r' : PRule} {B m : Nat} {b : Term} {ρ : List Sym}
    (hr : R[i.rule]? = some r) (hX : r.rhs[i.pos]? = some (.nt B)) (hm : R[m]? = some r') (hB : r'.lhs = B)
    (hd : Gen R (r.rhs.drop (i.pos + 1) ++ [.tm i.la]) (.tm b :: ρ)) : Down R j a γ ⟨m, 0, b⟩ := by
  induction h with
  | here j a rule k h1 h2 =>
    simp only at hr hX hd
    obtain rfl := Option.some.inj (h1.symm.trans hr)
    have := Down.down j a rule k B m r' b ρ _ _ h1 hX hm hB hd (.here m b r' 0 hm (Nat.zero_le _))
    simpa using this
  | down j a rule k B' j' r'' b' ρ' γ i h1 h2 h3 h4 h5 _ ih => exact .down j a rule k B' j' r'' b' ρ' _ _ h1 h2 h3 h4 h5 (ih hr hX hd)

theorem Valid.down {r0 : PRule} (hs : R[s]? = some r0) {γ : List Sym} {i : Item} (h : Valid R s γ i) : Down R s .eoi γ i := by
  induction h with
  | start => simpa using Down.here s .eoi r0 0 hs (Nat.zero_le _)
  | advance γ i r X _ h1 h2 ih => exact ih.advance h1 h2
  | expand γ i r B j r' b ρ _ h1 h2 h3 h4 h5 ih => exact ih.expand h1 h2 h3 h4 (gen_iff.2 h5)

/-- The item calls for an action on `t`. -/
def CallsFor (R : List PRule) (i : Item) (t : Term) : Prop :=
  ∃ rule, R[i.rule]? = some rule ∧ ((i.pos = rule.rhs.length ∧ i.la = t) ∨ rule.rhs[i.pos]? = some (.tm t))

theorem take_split {l : List Sym} {k : Nat} {X : Sym} (h : l[k]? = some X) : l = l.take k ++ X :: l.drop (k + 1) := by
  have hlt := (List.getElem?_eq_some_iff.1 h)
  obtain ⟨h1, h2⟩ := hlt
  conv => lhs; rw [← List.take_append_drop k l, List.drop_eq_getElem_cons h1, h2]

/-- What the rule at the top derives. -/
theorem Down.gen {j : Nat} {a t : Term} {γ : List Sym} {i : Item} (h : Down R j a γ i) (ha : CallsFor R i t) {rule : PRule}
    (hj : R[j]? = some rule) {y ρ : List Sym} (hy : Gen R y (.tm a :: ρ)) : ∃ ρ', Gen R (rule.rhs ++ y) (γ ++ .tm t :: ρ') := by
  induction h generalizing rule y ρ with
  | here j a rule k h1 h2 =>
    obtain rfl := Option.some.inj (h1.symm.trans hj)
    obtain ⟨rule', k1, k2⟩ := ha
    simp only at k1 k2
    obtain rfl := Option.some.inj (h1.symm.trans k1)
    rcases k2 with ⟨rfl, rfl⟩ | k2
    · exact ⟨ρ, by simpa using (Gen.refl _).append hy⟩
    · refine ⟨rule.rhs.drop (k + 1) ++ y, ?_⟩
      have := take_split k2
      conv => lhs; rw [this]
      simpa using Gen.refl _
  | down j a rule k B j' r' b ρ' γ i h1 h2 h3 h4 h5 _ ih =>
    obtain rfl := Option.some.inj (h1.symm.trans hj)
    have hy' : ∃ ρ2, Gen R (rule.rhs.drop (k + 1) ++ y) (.tm b :: ρ2) := by
      have g1 : Gen R (rule.rhs.drop (k + 1) ++ y) (rule.rhs.drop (k + 1) ++ [.tm a] ++ ρ) := by
        simpa using (Gen.refl (rule.rhs.drop (k + 1))).append hy
      exact ⟨ρ' ++ ρ, g1.trans (by simpa using h5.append (Gen.refl ρ))⟩
    obtain ⟨ρ2, hy'⟩ := hy'
    obtain ⟨ρ3, h6⟩ := ih ha h3 hy'
    refine ⟨ρ3, ?_⟩
    have e := take_split h2
    have g1 : Gen R (rule.rhs ++ y) (rule.rhs.take k ++ r'.rhs ++ (rule.rhs.drop (k + 1) ++ y)) := by
      conv => lhs; rw [e]
      have := Gen.mid (List.mem_of_getElem? h3) (rule.rhs.take k) (rule.rhs.drop (k + 1) ++ y)
      rw [h4] at this
      simpa using this
    refine g1.trans ?_
    simpa using (Gen.refl (rule.rhs.take k)).append h6

/-! ## Left recursion -/

/-- `X` comes first in what `Y` derives, with rules only at the left end. -/
inductive Corner (R : List PRule) : Nat → Nat → Prop
  | one (j : Nat) (r : PRule) (X τ) : R[j]? = some r → r.rhs = .nt X :: τ → Corner R r.lhs X
  | more (j : Nat) (r : PRule) (B τ X) : R[j]? = some r → r.rhs = .nt B :: τ → Corner R B X → Corner R r.lhs X

theorem Corner.trans {a b c : Nat} (h : Corner R a b) (h' : Corner R b c) : Corner R a c := by
  induction h with
  | one j r X τ h1 h2 => exact .more j r X τ c h1 h2 h'
  | more j r B τ X h1 h2 _ ih => exact .more j r B τ c h1 h2 (ih h')

/-- A rule of a left-recursive non-terminal leads to a left-recursive non-terminal. -/
theorem Corner.loop {a : Nat} (h : Corner R a a) : ∃ (j : Nat) (r : PRule) (B : Nat) (τ : List Sym), R[j]? = some r ∧ r.lhs = a ∧ r.rhs = .nt B :: τ ∧ Corner R B B ∧
    (B = a ∨ Corner R B a) := by
  generalize hb : a = b at h
  cases h with
  | one j r X τ h1 h2 =>
    subst hb
    exact ⟨j, r, r.lhs, τ, h1, rfl, h2, .one j r _ τ h1 h2, .inl rfl⟩
  | more j r B τ X h1 h2 h3 =>
    subst hb
    exact ⟨j, r, B, τ, h1, rfl, h2, h3.trans (.one j r B τ h1 h2), .inr h3⟩

theorem Corner.gen {a b : Nat} (h : Corner R a b) : ∃ τ, Gen R [.nt a] (.nt b :: τ) := by
  induction h with
  | one j r X τ h1 h2 => exact ⟨τ, h2 ▸ Gen.rule (List.mem_of_getElem? h1)⟩
  | more j r B τ X h1 h2 _ ih =>
    obtain ⟨τ', h⟩ := ih
    refine ⟨τ' ++ τ, (Gen.rule (List.mem_of_getElem? h1)).trans ?_⟩
    rw [h2]
    exact h.append (Gen.refl τ)

theorem Down.corner {j : Nat} {a : Term} {γ : List Sym} {i : Item} (h : Down R j a γ i) {X : Nat} {γ' : List Sym} (hγ : γ = .nt X :: γ')
    {r : PRule} (hr : R[j]? = some r) : Corner R r.lhs X := by
  induction h generalizing r with
  | here j a r k h1 h2 =>
    obtain rfl := Option.some.inj (h1.symm.trans hr)
    cases hrhs : r.rhs with
    | nil => simp [hrhs] at hγ
    | cons Z τ =>
      cases k with
      | zero => simp at hγ
      | succ k =>
        simp [hrhs] at hγ
        exact .one j r X τ h1 (by rw [hrhs, hγ.1])
  | down j a r k B j' r' b ρ γ i h1 h2 h3 h4 h5 _ ih =>
    obtain rfl := Option.some.inj (h1.symm.trans hr)
    cases k with
    | zero =>
      cases hrhs : r.rhs with
      | nil => simp [hrhs] at h2
      | cons Z τ =>
        simp [hrhs] at h2
        subst h2
        have := ih (by simpa using hγ) h3
        rw [h4] at this
        exact .more j r B τ X h1 hrhs this
    | succ k =>
      cases hrhs : r.rhs with
      | nil => simp [hrhs] at h2
      | cons Z τ =>
        simp [hrhs] at hγ
        exact .one j r X τ h1 (by rw [hrhs, hγ.1])

/-! ## One path only -/

section
variable {r0 : PRule}

/-- Where a non-terminal can be met. -/
def Met (R : List PRule) (r0 : PRule) (n : Nat) (y : List Sym) : Prop := ∃ x, Gen R [.nt r0.lhs, .tm .eoi] (x ++ .nt n :: y)

theorem Met.down {r : PRule} {y : List Sym} (h : Met R r0 r.lhs y) (hr : r ∈ R) {u : List Sym} {n : Nat} {v : List Sym}
    (he : r.rhs = u ++ .nt n :: v) : Met R r0 n (v ++ y) := by
  obtain ⟨x, h⟩ := h
  refine ⟨x ++ u, h.trans ?_⟩
  have := Gen.mid hr x y
  rw [he] at this
  simpa using this

variable (hfr : ∀ x n y, Gen R [.nt r0.lhs, .tm .eoi] (x ++ .nt n :: y) → ∃ w, Gen R [.nt n] (tms w))

include hfr in
/-- Everything that comes from the start derives terminals. -/
theorem gen_tms {x l : List Sym} (h : Gen R [.nt r0.lhs, .tm .eoi] (x ++ l)) : ∃ w, Gen R l (tms w) := by
  induction l generalizing x with
  | nil => exact ⟨[], .nil⟩
  | cons X l ih =>
    obtain ⟨w, hw⟩ := ih (x := x ++ [X]) (by simpa using h)
    cases X with
    | tm t => exact ⟨t :: w, .keep _ _ _ hw⟩
    | nt n =>
      obtain ⟨w', hw'⟩ := hfr x n l h
      exact ⟨w' ++ w, by simpa using hw'.append hw⟩

variable (hll : ∀ (j j' : Nat) (r r' : PRule) (a : Term) (y y' ρ ρ' : List Sym), R[j]? = some r → R[j']? = some r' → r.lhs = r'.lhs → Met R r0 r.lhs y → Met R r0 r'.lhs y' →
  Gen R (r.rhs ++ y) (.tm a :: ρ) → Gen R (r'.rhs ++ y') (.tm a :: ρ') → j = j')

/-- At least the end marker follows. -/
theorem Met.ends {n : Nat} {y : List Sym} (h : Met R r0 n y) : ∃ y', y = y' ++ [.tm .eoi] := by
  obtain ⟨x, h⟩ := h
  obtain ⟨u, v, h1, h2, h3⟩ := h.split_cons
  obtain ⟨v', rfl, h4⟩ := h3.terminal
  rw [h4.nil_left] at h1
  rcases List.eq_nil_or_concat y with rfl | ⟨y', Z, rfl⟩
  · have : x ++ [.nt n] = u ++ [.tm .eoi] := h1
    have := (List.append_inj' this rfl).2
    cases this
  · have : (x ++ .nt n :: y') ++ [Z] = u ++ [.tm .eoi] := by simpa using h1
    have := (List.append_inj' this rfl).2
    exact ⟨y', by simpa using this⟩

/-- A terminal string with the end marker has a first terminal. -/
theorem first_tm {l : List Sym} {w : List Term} (h : Gen R (l ++ [.tm .eoi]) (tms w)) : ∃ a w', w = a :: w' := by
  obtain ⟨u, v, h1, _, h3⟩ := h.split
  obtain ⟨v', rfl, _⟩ := h3.terminal
  cases w with
  | nil => simp at h1
  | cons a w' => exact ⟨a, w', rfl⟩

include hfr hll in
theorem no_loop {l w : List Sym} (h : Gen R l w) : ∀ {n : Nat} {rest : List Sym} {v : List Term} {y : List Sym}, l = .nt n :: rest → w = tms v →
    Corner R n n → Met R r0 n y → False := by
  induction h with
  | nil => intro n rest v y h; cases h
  | keep X l w _ _ =>
    intro n rest v y h1 h2 _ _
    cases h1
    cases v <;> simp at h2
  | expand q l u v' hq hu hv ih1 _ =>
    intro n rest v y h1 h2 hcor hmet
    cases h1
    obtain ⟨jq, hjq⟩ := List.getElem?_of_mem hq
    obtain ⟨j, r, B, τ, k1, k2, k3, k4, k5⟩ := hcor.loop
    -- the terminals of `u`
    obtain ⟨wu, hwu⟩ : ∃ wu, u = tms wu := by
      obtain ⟨a, b, _, h4, _⟩ := List.map_eq_append_iff.1 h2.symm
      exact ⟨a, h4.symm⟩
    -- `r` goes on to `q.lhs` again
    obtain ⟨τ', hg⟩ : ∃ τ', Gen R r.rhs (.nt q.lhs :: τ') := by
      rw [k3]
      rcases k5 with rfl | k5
      · exact ⟨τ, .refl _⟩
      · obtain ⟨τ', h⟩ := k5.gen
        exact ⟨τ' ++ τ, h.append (Gen.refl τ)⟩
    have hmet' : Met R r0 q.lhs (τ' ++ y) := by
      obtain ⟨x, hx⟩ := hmet
      refine ⟨x, hx.trans ?_⟩
      have h1 := Gen.mid (List.mem_of_getElem? k1) x y
      rw [k2] at h1
      refine h1.trans ?_
      have := (Gen.refl x).append (hg.append (Gen.refl y))
      simpa using this
    obtain ⟨x', hx'⟩ := id hmet'
    obtain ⟨wt, hwt⟩ := gen_tms hfr (x := x' ++ [.nt q.lhs]) (l := τ' ++ y) (by simpa using hx')
    have hq1 : Gen R (q.rhs ++ (τ' ++ y)) (tms (wu ++ wt)) := by
      rw [hwu] at hu
      simpa using hu.append hwt
    obtain ⟨y1, hy1⟩ := hmet.ends
    obtain ⟨a, w1, hw1⟩ := first_tm (R := R) (l := q.rhs ++ (τ' ++ y1)) (w := wu ++ wt) (by rw [hy1] at hq1; simpa using hq1)
    have hr1 : Gen R (r.rhs ++ y) (tms (wu ++ wt)) := by
      have g1 := hg.append (Gen.refl y)
      refine g1.trans ?_
      have g2 : Gen R (.nt q.lhs :: (τ' ++ y)) (q.rhs ++ (τ' ++ y)) := by simpa using Gen.mid hq [] (τ' ++ y)
      exact (by simpa using g2.trans hq1)
    rw [hw1] at hq1 hr1
    have := hll jq j q r a (τ' ++ y) y (tms w1) (tms w1) hjq k1 k2.symm hmet' (k2 ▸ hmet) (by simpa using hq1) (by simpa using hr1)
    subst this
    rw [k1] at hjq
    cases hjq
    exact ih1 (n := B) (rest := τ) (v := wu) (y := τ ++ y) k3 hwu k4 (Met.down (u := []) hmet (List.mem_of_getElem? k1) k3)

include hfr hll in
theorem no_corner {n : Nat} {y : List Sym} (hmet : Met R r0 n y) : ¬ Corner R n n := by
  intro hc
  obtain ⟨x, hx⟩ := id hmet
  obtain ⟨w, hw⟩ := hfr x n y hx
  exact no_loop hfr hll hw rfl rfl hc hmet

theorem take_lt {l : List Sym} {k m : Nat} {X : Sym} {δ δ' : List Sym} (hX : l[k]? = some X) (hkm : k < m) (h : l.take k ++ δ = l.take m ++ δ') :
    ∃ δ2, δ = X :: δ2 := by
  have h1 : l.take m = l.take k ++ (l.drop k).take (m - k) := by
    have : m = k + (m - k) := by omega
    conv => lhs; rw [this, List.take_add]
  rw [h1, List.append_assoc] at h
  have h2 := List.append_cancel_left h
  obtain ⟨h3, h4⟩ := List.getElem?_eq_some_iff.1 hX
  rw [List.drop_eq_getElem_cons h3, h4] at h2
  obtain ⟨d, hd⟩ : ∃ d, m - k = d + 1 := ⟨m - k - 1, by omega⟩
  rw [hd, List.take_succ_cons] at h2
  exact ⟨_, h2⟩

theorem la_down {l y ρ ρ' : List Sym} {a b : Term} (hy : Gen R y (.tm a :: ρ)) (h : Gen R (l ++ [.tm a]) (.tm b :: ρ')) :
    Gen R (l ++ y) (.tm b :: (ρ' ++ ρ)) := by
  have g1 : Gen R (l ++ y) (l ++ [.tm a] ++ ρ) := by simpa using (Gen.refl l).append hy
  exact g1.trans (by simpa using h.append (Gen.refl ρ))

include hfr hll in
theorem Down.unique {j : Nat} {a : Term} {γ : List Sym} {i : Item} (h : Down R j a γ i) : ∀ {j' : Nat} {a' : Term} {i' : Item} {t : Term} {r r' : PRule}
    {y ρ ρ' : List Sym}, Down R j' a' γ i' → R[j]? = some r → R[j']? = some r' → r.lhs = r'.lhs → Met R r0 r.lhs y → Gen R y (.tm a :: ρ) →
    Gen R y (.tm a' :: ρ') → CallsFor R i t → CallsFor R i' t → i.rule = i'.rule ∧ i.pos = i'.pos := by
  induction h with
  | here j a rule k h1 h2 =>
    intro j' a' i' t r r' y ρ ρ' h' hr hr' hl hm hy hy' ha ha'
    obtain rfl := Option.some.inj (h1.symm.trans hr)
    have hjj : j = j' := by
      obtain ⟨ρ1, g1⟩ := (Down.here j a rule k h1 h2).gen ha h1 hy
      obtain ⟨ρ2, g2⟩ := h'.gen ha' hr' hy'
      obtain ⟨x, hx⟩ := id hm
      obtain ⟨w, hw⟩ := gen_tms hfr (x := x) (l := rule.rhs.take k ++ .tm t :: ρ1)
        (hx.trans ((by simpa using Gen.mid (List.mem_of_getElem? h1) x y : Gen R _ (x ++ (rule.rhs ++ y))).trans ((Gen.refl x).append g1)))
      obtain ⟨u, v, e1, e2, e3⟩ := hw.split
      obtain ⟨wu, wv, _, rfl, _⟩ := List.map_eq_append_iff.1 e1
      have f1 := g1.trans (e2.append (Gen.refl (.tm t :: ρ1)))
      have f2 := g2.trans (e2.append (Gen.refl (.tm t :: ρ2)))
      cases wu with
      | nil => exact hll j j' rule r' t y y _ _ h1 hr' hl hm (hl ▸ hm) f1 f2
      | cons b wu => exact hll j j' rule r' b y y _ _ h1 hr' hl hm (hl ▸ hm) f1 f2
    subst hjj
    obtain rfl := Option.some.inj (h1.symm.trans hr')
    generalize hγ : rule.rhs.take k = γ at h'
    cases h' with
    | here _ _ rule' k' h1' h2' =>
      obtain rfl := Option.some.inj (h1.symm.trans h1')
      refine ⟨rfl, ?_⟩
      have := congrArg List.length hγ
      simp only [List.length_take] at this
      show k = k'
      omega
    | down _ _ rule' k' B m r' b ρ2 γ' i h1' h2' h3' h4' h5' h6' =>
      exfalso
      obtain rfl := Option.some.inj (h1.symm.trans h1')
      have hk' := (List.getElem?_eq_some_iff.1 h2').1
      have hlen : k' ≤ k := by
        have := congrArg List.length hγ
        simp only [List.length_take, List.length_append] at this
        omega
      rcases Nat.lt_or_ge k' k with hlt | hge
      · obtain ⟨δ, hδ⟩ := take_lt (δ' := []) h2' hlt (by simpa using hγ.symm)
        have hcor := h6'.corner hδ h3'
        rw [h4'] at hcor
        exact no_corner hfr hll (Met.down hm (List.mem_of_getElem? h1) (take_split h2')) hcor
      · have : k = k' := by omega
        subst this
        obtain ⟨rule', k1, k2⟩ := ha
        simp only at k1 k2
        obtain rfl := Option.some.inj (h1.symm.trans k1)
        rcases k2 with ⟨k2, _⟩ | k2
        · omega
        · rw [h2'] at k2; cases k2
  | down j a rule k B m rm b ρ0 γ i h1 h2 h3 h4 h5 h6 ih =>
    intro j' a' i' t r r' y ρ ρ' h' hr hr' hl hm hy hy' ha ha'
    obtain rfl := Option.some.inj (h1.symm.trans hr)
    have hjj : j = j' := by
      obtain ⟨ρ1, g1⟩ := (Down.down j a rule k B m rm b ρ0 γ i h1 h2 h3 h4 h5 h6).gen ha h1 hy
      obtain ⟨ρ2, g2⟩ := h'.gen ha' hr' hy'
      obtain ⟨x, hx⟩ := id hm
      obtain ⟨w, hw⟩ := gen_tms hfr (x := x) (l := (rule.rhs.take k ++ γ) ++ .tm t :: ρ1)
        (hx.trans ((by simpa using Gen.mid (List.mem_of_getElem? h1) x y : Gen R _ (x ++ (rule.rhs ++ y))).trans ((Gen.refl x).append g1)))
      obtain ⟨u, v, e1, e2, e3⟩ := hw.split
      obtain ⟨wu, wv, _, rfl, _⟩ := List.map_eq_append_iff.1 e1
      have f1 := g1.trans (e2.append (Gen.refl (.tm t :: ρ1)))
      have f2 := g2.trans (e2.append (Gen.refl (.tm t :: ρ2)))
      cases wu with
      | nil => exact hll j j' rule r' t y y _ _ h1 hr' hl hm (hl ▸ hm) f1 f2
      | cons b wu => exact hll j j' rule r' b y y _ _ h1 hr' hl hm (hl ▸ hm) f1 f2
    subst hjj
    obtain rfl := Option.some.inj (h1.symm.trans hr')
    have hB : Met R r0 B (rule.rhs.drop (k + 1) ++ y) := Met.down hm (List.mem_of_getElem? h1) (take_split h2)
    have hk := (List.getElem?_eq_some_iff.1 h2).1
    generalize hγ : rule.rhs.take k ++ γ = γ0 at h'
    cases h' with
    | here _ _ rule' k' h1' h2' =>
      exfalso
      obtain rfl := Option.some.inj (h1.symm.trans h1')
      have hlen : k ≤ k' := by
        have := congrArg List.length hγ
        simp only [List.length_take, List.length_append] at this
        omega
      rcases Nat.lt_or_ge k k' with hlt | hge
      · obtain ⟨δ, hδ⟩ := take_lt (δ' := []) h2 hlt (by simpa using hγ)
        have hcor := h6.corner hδ h3
        rw [h4] at hcor
        exact no_corner hfr hll hB hcor
      · have : k = k' := by omega
        subst this
        obtain ⟨rule', k1, k2⟩ := ha'
        simp only at k1 k2
        obtain rfl := Option.some.inj (h1.symm.trans k1)
        rcases k2 with ⟨k2, _⟩ | k2
        · omega
        · rw [h2] at k2; cases k2
    | down _ _ rule' k' B' m' rm' b' ρ2 γ' i h1' h2' h3' h4' h5' h6' =>
      obtain rfl := Option.some.inj (h1.symm.trans h1')
      rcases Nat.lt_trichotomy k k' with hlt | rfl | hlt
      · exfalso
        obtain ⟨δ, hδ⟩ := take_lt h2 hlt hγ
        have hcor := h6.corner hδ h3
        rw [h4] at hcor
        exact no_corner hfr hll hB hcor
      · rw [h2] at h2'
        cases h2'
        have := List.append_cancel_left hγ
        subst this
        exact ih h6' h3 h3' (h4.trans h4'.symm) (h4 ▸ hB) (la_down hy h5) (la_down hy' h5') ha ha'
      · exfalso
        obtain ⟨δ, hδ⟩ := take_lt h2' hlt hγ.symm
        have hcor := h6'.corner hδ h3'
        rw [h4'] at hcor
        exact no_corner hfr hll (Met.down hm (List.mem_of_getElem? h1) (take_split h2')) hcor

include hfr hll in
/-- No two items valid for the same symbols call for an action on the same terminal. -/
theorem Valid.acts_unique (hs : R[s]? = some r0) {γ : List Sym} {i i' : Item} {t : Term} (h : Valid R s γ i) (h' : Valid R s γ i')
    (ha : CallsFor R i t) (ha' : CallsFor R i' t) : i.rule = i'.rule ∧ i.pos = i'.pos :=
  (h.down hs).unique hfr hll (h'.down hs) hs hs rfl ⟨[], .refl _⟩ (.refl _) (.refl _) ha ha'

end


/-! ## Leftmost derivations -/

/-- Leftmost derivation of terminals, with the number of rules used. -/
inductive Lm (R : List PRule) : Nat → List Sym → List Term → Prop
  | nil : Lm R 0 [] []
  | tok (n t l w) : Lm R n l w → Lm R n (.tm t :: l) (t :: w)
  | rule (n) (r : PRule) (l w) : r ∈ R → Lm R n (r.rhs ++ l) w → Lm R (n + 1) (.nt r.lhs :: l) w

theorem Lm.gen {n : Nat} {l : List Sym} {w : List Term} (h : Lm R n l w) : Gen R l (tms w) := by
  induction h with
  | nil => exact .nil
  | tok n t l w _ ih => exact .keep _ _ _ ih
  | rule n r l w hr _ ih => exact (by simpa using Gen.mid hr [] l : Gen R (.nt r.lhs :: l) (r.rhs ++ l)).trans ih

theorem Lm.append {n : Nat} {l : List Sym} {w : List Term} (h : Lm R n l w) {n' : Nat} {l' : List Sym} {w' : List Term} (h' : Lm R n' l' w') :
    Lm R (n + n') (l ++ l') (w ++ w') := by
  induction h with
  | nil => simpa using h'
  | tok n t l w _ ih => exact .tok _ _ _ _ ih
  | rule n r l w hr _ ih =>
    rw [show n + 1 + n' = (n + n') + 1 by omega]
    exact .rule _ r _ _ hr (by simpa using ih)

theorem Lm.split {n : Nat} {l : List Sym} {w : List Term} (h : Lm R n l w) : ∀ {l1 l2 : List Sym}, l = l1 ++ l2 →
    ∃ n1 n2 w1 w2, n = n1 + n2 ∧ w = w1 ++ w2 ∧ Lm R n1 l1 w1 ∧ Lm R n2 l2 w2 := by
  induction h with
  | nil =>
    intro l1 l2 h
    obtain ⟨rfl, rfl⟩ := List.append_eq_nil_iff.1 h.symm
    exact ⟨0, 0, [], [], rfl, rfl, .nil, .nil⟩
  | tok n t l w h0 ih =>
    intro l1 l2 h
    cases l1 with
    | nil => exact ⟨0, n, [], t :: w, by omega, rfl, .nil, by rw [List.nil_append] at h; rw [← h]; exact .tok n t l w h0⟩
    | cons X l1 =>
      obtain ⟨rfl, h'⟩ := List.cons.inj h
      obtain ⟨n1, n2, w1, w2, e1, e2, e3, e4⟩ := ih h'
      exact ⟨n1, n2, t :: w1, w2, e1, by rw [e2]; rfl, .tok _ _ _ _ e3, e4⟩
  | rule n r l w hr h0 ih =>
    intro l1 l2 h
    cases l1 with
    | nil => exact ⟨0, n + 1, [], w, by omega, rfl, .nil, by rw [List.nil_append] at h; rw [← h]; exact .rule n r l w hr h0⟩
    | cons X l1 =>
      obtain ⟨rfl, h'⟩ := List.cons.inj h
      obtain ⟨n1, n2, w1, w2, e1, e2, e3, e4⟩ := ih (l1 := r.rhs ++ l1) (l2 := l2) (by rw [h']; simp)
      exact ⟨n1 + 1, n2, w1, w2, by omega, e2, .rule _ r _ _ hr e3, e4⟩

theorem lm_of_gen {l w : List Sym} (h : Gen R l w) : ∀ {v : List Term}, w = tms v → ∃ n, Lm R n l v := by
  induction h with
  | nil => intro v h; cases v with
    | nil => exact ⟨0, .nil⟩
    | cons => simp at h
  | keep X l w _ ih =>
    intro v h
    cases v with
    | nil => simp at h
    | cons t v =>
      obtain ⟨rfl, h'⟩ := List.cons.inj h
      obtain ⟨n, hn⟩ := ih h'
      exact ⟨n, .tok _ _ _ _ hn⟩
  | expand r l u v' hr _ _ ih1 ih2 =>
    intro v h
    obtain ⟨a, b, rfl, h1, h2⟩ := List.map_eq_append_iff.1 h.symm
    obtain ⟨n, hn⟩ := ih1 h1.symm
    obtain ⟨m, hm⟩ := ih2 h2.symm
    exact ⟨n + m + 1, .rule _ r _ _ hr (hn.append hm)⟩

theorem Lm.back {u v : List Sym} (h : Derives R u v) : ∀ {n : Nat} {w : List Term}, Lm R n v w → ∃ m, n ≤ m ∧ Lm R m u w := by
  induction h with
  | refl => intro n w h; exact ⟨n, Nat.le_refl _, h⟩
  | step x y r _ hr ih =>
    intro n w h
    rw [List.append_assoc] at h
    obtain ⟨n1, n2, w1, w2, rfl, rfl, e3, e4⟩ := h.split rfl
    obtain ⟨m, hm, h'⟩ := ih (e3.append (.rule _ r _ _ hr e4))
    exact ⟨m, by omega, h'⟩

section
variable {r0 : PRule}
variable (hll : ∀ (j j' : Nat) (r r' : PRule) (a : Term) (y y' ρ ρ' : List Sym), R[j]? = some r → R[j']? = some r' → r.lhs = r'.lhs →
  Met R r0 r.lhs y → Met R r0 r'.lhs y' → Gen R (r.rhs ++ y) (.tm a :: ρ) → Gen R (r'.rhs ++ y') (.tm a :: ρ') → j = j')
include hll

/-- Leftmost derivations are determined by what they derive. -/
theorem Lm.unique {n : Nat} {l : List Sym} {w : List Term} (h : Lm R n l w) : ∀ {m : Nat} {x : List Sym}, Lm R m l w →
    Gen R [.nt r0.lhs, .tm .eoi] (x ++ l) → n = m := by
  induction h with
  | nil => intro m x h _; cases h; rfl
  | tok n t l w _ ih =>
    intro m x h hx
    cases h with
    | tok _ _ _ _ h => exact ih (x := x ++ [.tm t]) h (by simpa using hx)
  | rule n r l w hr h0 ih =>
    intro m x h hx
    generalize hX : Sym.nt r.lhs = X at h
    cases h with
    | tok => cases hX
    | rule m r' _ _ hr' h =>
      have hl := Sym.nt.inj hX
      obtain ⟨j, hj⟩ := List.getElem?_of_mem hr
      obtain ⟨j', hj'⟩ := List.getElem?_of_mem hr'
      have hm : Met R r0 r.lhs l := ⟨x, hx⟩
      obtain ⟨y, hy⟩ := hm.ends
      obtain ⟨a, w', hw⟩ := first_tm (R := R) (l := r.rhs ++ y) (w := w) (by have := h0.gen; rw [hy] at this; simpa using this)
      have g1 := h0.gen
      have g2 := h.gen
      rw [hw] at g1 g2
      have := hll j j' r r' a l l _ _ hj hj' hl hm (hl ▸ hm) g1 g2
      subst this
      obtain rfl := Option.some.inj (hj.symm.trans hj')
      rw [ih (x := x) h (hx.trans (by simpa using Gen.mid hr x l))]

end

/-! ## From the grammar to the grammar with the start rule -/

variable {g : Gram} {fresh : Nat}

theorem Gram.no_fresh (hf : ¬ g.Used fresh) (hne : fresh ≠ g.start) {ζ : List Sym} (h : Gen g.rules [.nt g.start] ζ) : Sym.nt fresh ∉ ζ := by
  have := gen_iff.1 h
  clear h
  induction this with
  | refl => simpa using hne
  | step a b r _ hr ih =>
    intro hm
    simp only [List.mem_append] at hm
    rcases hm with (hm | hm) | hm
    · exact ih (by simp [hm])
    · exact hf ⟨r, hr, Or.inr hm⟩
    · exact ih (by simp [hm])

/-- Where a non-terminal of the grammar can be met. -/
theorem Gram.met (hf : ¬ g.Used fresh) (hne : fresh ≠ g.start) {n : Nat} (hn : n ≠ fresh) {y : List Sym}
    (h : Met (g.aug fresh) ⟨fresh, [.nt g.start]⟩ n y) :
    ∃ x y', y = y' ++ [.tm .eoi] ∧ Gen g.rules [.nt g.start] (x ++ .nt n :: y') := by
  obtain ⟨y', rfl⟩ := h.ends
  obtain ⟨x, h⟩ := h
  obtain ⟨u, v, h1, h2, h3⟩ := h.split_cons
  obtain ⟨v', rfl, h4⟩ := h3.terminal
  rw [h4.nil_left] at h1
  have h1' : (x ++ .nt n :: y') ++ [.tm .eoi] = u ++ [.tm .eoi] := by simpa using h1
  have hu := (List.append_inj' h1' rfl).1
  rcases g.gen_aug hf hne h2 with h5 | h5
  · rw [h5] at hu
    cases x with
    | nil => simp at hu; exact absurd hu.1 hn
    | cons Z x => cases x <;> simp at hu
  · exact ⟨x, y', rfl, hu ▸ h5⟩

theorem Gram.LL1.aug (h : g.LL1) (hf : ¬ g.Used fresh) (hne : fresh ≠ g.start) (j j' : Nat) (r r' : PRule) (a : Term) (y y' ρ ρ' : List Sym)
    (hr : (g.aug fresh)[j]? = some r) (hr' : (g.aug fresh)[j']? = some r') (hl : r.lhs = r'.lhs)
    (hm : Met (g.aug fresh) ⟨fresh, [.nt g.start]⟩ r.lhs y) (hm' : Met (g.aug fresh) ⟨fresh, [.nt g.start]⟩ r'.lhs y')
    (hd : Gen (g.aug fresh) (r.rhs ++ y) (.tm a :: ρ)) (hd' : Gen (g.aug fresh) (r'.rhs ++ y') (.tm a :: ρ')) : j = j' := by
  by_cases hn : r.lhs = fresh
  · rw [g.aug_only hf j r hr hn, g.aug_only hf j' r' hr' (hl ▸ hn)]
  · have hn' : r'.lhs ≠ fresh := hl ▸ hn
    have key : ∀ (j : Nat) (r : PRule) (y ρ : List Sym), (g.aug fresh)[j]? = some r → r.lhs ≠ fresh →
        Met (g.aug fresh) ⟨fresh, [.nt g.start]⟩ r.lhs y → Gen (g.aug fresh) (r.rhs ++ y) (.tm a :: ρ) → g.rules[j]? = some r ∧ g.Selects j a := by
      intro j r y ρ hr hn hm hd
      have hj : j ≠ g.rules.length := by
        rintro rfl
        rw [Gram.aug_start] at hr
        cases hr
        exact hn rfl
      have hr := Gram.aug_get' hr hj
      obtain ⟨x, y', rfl, h1⟩ := g.met hf hne hn hm
      refine ⟨hr, r, x, y', ρ, hr, gen_iff.1 h1, gen_iff.1 ?_⟩
      have hnf := g.no_fresh hf hne (h1.trans (Gen.mid (List.mem_of_getElem? hr) x y'))
      have := Gen.drop_rule (r0 := ⟨fresh, [.nt g.start]⟩) (fun r hr hm => hf ⟨r, hr, .inr hm⟩) hd (by
        simp only [List.mem_append, not_or] at hnf ⊢
        exact ⟨hnf.1.2, hnf.2, by simp⟩) (by simpa using hne)
      simpa using this
    obtain ⟨k1, k2⟩ := key j r y ρ hr hn hm hd
    obtain ⟨k3, k4⟩ := key j' r' y' ρ' hr' hn' hm' hd'
    exact h j j' r r' a k1 k3 hl k2 k4

theorem Gram.LL1.no_clash (h : g.LL1) (hfr : g.Fruitful) (hf : ¬ g.Used fresh) : ¬ Clash (g.aug fresh) g.rules.length := by
  rintro ⟨γ, t, r, h1, ⟨rule, h2, h3⟩, h4⟩
  have hc : CallsFor (g.aug fresh) ⟨r, rule.rhs.length, t⟩ t := ⟨rule, h2, .inl ⟨rfl, rfl⟩⟩
  rcases h4 with ⟨i, rule', k1, k2, k3⟩ | ⟨r2, k1, k2, rule', k3, k4⟩
  · obtain ⟨e1, e2⟩ := Valid.acts_unique (r0 := ⟨fresh, [.nt g.start]⟩) (hfr.aug hf) (h.aug hf (hfr.fresh_ne hf)) Gram.aug_start h3 k1 hc ⟨rule', k2, .inr k3⟩
    simp only at e1 e2
    rw [← e1, h2] at k2
    cases k2
    rw [← e2] at k3
    simp at k3
  · obtain ⟨e1, e2⟩ := Valid.acts_unique (r0 := ⟨fresh, [.nt g.start]⟩) (hfr.aug hf) (h.aug hf (hfr.fresh_ne hf)) Gram.aug_start h3 k4 hc ⟨rule', k3, .inl ⟨rfl, rfl⟩⟩
    exact k2 e1.symm

theorem Gram.LL1.not_cyclic (h : g.LL1) (hfr : g.Fruitful) : ¬ g.Cyclic := by
  rintro ⟨x, r, y, h1, h2, h3⟩
  let fresh := freshSym g.rules
  have hf : ¬ g.Used fresh := freshSym_unused g
  have hne := hfr.fresh_ne hf
  obtain ⟨w, hw⟩ := hfr [] g.start [] (.refl _)
  obtain ⟨n, hn⟩ := lm_of_gen (gen_iff.2 hw) rfl
  have hn' : Lm g.rules n (x ++ r.rhs ++ y) w := h3 ▸ hn
  rw [List.append_assoc] at hn'
  obtain ⟨n1, n2, w1, w2, rfl, rfl, e3, e4⟩ := hn'.split rfl
  obtain ⟨m, hm, h'⟩ := Lm.back h2 (e3.append (.rule _ r _ _ h1 e4))
  have mono : ∀ {n l w}, Lm g.rules n l w → Lm (g.aug fresh) n l w := by
    intro n l w h
    induction h with
    | nil => exact .nil
    | tok n t l w _ ih => exact .tok _ _ _ _ ih
    | rule n r l w hr _ ih => exact .rule _ r _ _ (List.mem_append_left _ hr) ih
  have a1 := (mono hn).append (.tok 0 .eoi [] [] .nil)
  have a2 := (mono h').append (.tok 0 .eoi [] [] .nil)
  have hst : Gen (g.aug fresh) [.nt fresh, .tm .eoi] ([] ++ ([.nt g.start] ++ [.tm .eoi])) := by
    simpa using Gen.mid (R := g.aug fresh) (r := ⟨fresh, [.nt g.start]⟩) (by simp [Gram.aug]) [] [.tm .eoi]
  have := Lm.unique (h.aug hf hne) (r0 := ⟨fresh, [.nt g.start]⟩) a1 a2 hst
  omega

theorem Gram.Fruitful.not_bad (hfr : g.Fruitful) (hf : ¬ g.Used fresh) : ¬ Bad (g.aug fresh) g.rules.length := by
  rintro ⟨γ, i, hv, hst⟩
  obtain ⟨rule, x, w, n, h1, h2, h3, h4⟩ := hv.rm (r0 := ⟨fresh, [.nt g.start]⟩) Gram.aug_start (hfr.aug hf)
  rcases hst with hst | ⟨r, B, b, ρ, k1, k2, k3, _⟩
  · rw [h1] at hst; cases hst
  · obtain rfl := Option.some.inj (h1.symm.trans k1)
    obtain ⟨v, hv⟩ := hfr.aug hf (x ++ rule.rhs.take i.pos) B (rule.rhs.drop (i.pos + 1) ++ tms (i.la :: w)) (by
      refine h4.gen.trans ?_
      have := Gen.mid (List.mem_of_getElem? h1) x (tms (i.la :: w))
      rw [take_split k2] at this
      simpa using this)
    rcases gen_single hv with h | ⟨r', hr', h, _⟩
    · cases v <;> simp at h
    · exact k3 r' hr' (Sym.nt.inj h).symm

end Verif.Par
