import Verif.Par.NewProof
import Verif.Par.RmProof
import Verif.Par.EmbedAug
import Verif.Tok.SizeProof

/-!
# Number of states of the tables (proofs for C75)
-/

namespace Verif.Par

open Verif.Tok (words2 words2_length mem_words2 words2_nodup nodup_map_range)

variable {R : List PRule} {s k : Nat} {tab : Tables}

theorem Canonical.lt (hc : Canonical R s tab) (hk : tab.HasStates k) {γ : List Sym} {q : Nat} (h : tab.walk γ = some q) : q < k :=
  (hk q).1 (hc.row γ q h)

/-- Different viable prefixes with different items need different states. -/
theorem Canonical.lower (hc : Canonical R s tab) (hk : tab.HasStates k) {L : List (List Sym)} (hv : ∀ γ ∈ L, ∃ i, Valid R s γ i)
    (hd : L.Pairwise fun γ γ' => ¬ SameItems R s γ γ') : L.length ≤ k := by
  have hn : (L.map fun γ => tab.walk γ).Nodup := by
    rw [List.Nodup, List.pairwise_map]
    refine List.Pairwise.imp_of_mem ?_ hd
    intro γ γ' h1 h2 hne e
    obtain ⟨q, hq⟩ := (hc.walk_iff γ).2 (hv γ h1)
    exact hne ((hc.same γ γ' q q hq (e ▸ hq)).1 rfl)
  have := length_le_of_nodup_subset hn (t := (List.range k).map some) (by
    intro x hx
    obtain ⟨γ, hγ, rfl⟩ := List.mem_map.1 hx
    obtain ⟨q, hq⟩ := (hc.walk_iff γ).2 (hv γ hγ)
    exact List.mem_map.2 ⟨q, List.mem_range.2 (hc.lt hk hq), hq.symm⟩)
  simpa using this

open Classical in
/-- One viable prefix for each state. -/
theorem Canonical.prefixes (hc : Canonical R s tab) (hs : TabSyms R tab) (hk : tab.HasStates k) :
    ∃ L : List (List Sym), L.length = k ∧ (∀ γ ∈ L, ∃ i, Valid R s γ i) ∧ (L.Pairwise fun γ γ' => ¬ SameItems R s γ γ') ∧
      ∀ γ, (∃ i, Valid R s γ i) → ∃ γ' ∈ L, SameItems R s γ γ' := by
  have hw : ∀ q, q < k → ∃ γ, tab.walk γ = some q := by
    intro q hq
    obtain ⟨row, h⟩ := (hk q).2 hq
    exact hs.rows q row h
  let word : Nat → List Sym := fun q => if hq : q < k then Classical.choose (hw q hq) else []
  have hword : ∀ q, q < k → tab.walk (word q) = some q := by
    intro q hq
    simp only [word, dif_pos hq]
    exact Classical.choose_spec (hw q hq)
  refine ⟨(List.range k).map word, by simp, ?_, ?_, ?_⟩
  · intro γ h
    obtain ⟨q, hq, rfl⟩ := List.mem_map.1 h
    exact (hc.walk_iff _).1 ⟨q, hword q (List.mem_range.1 hq)⟩
  · rw [List.pairwise_map]
    refine List.Pairwise.imp_of_mem ?_ List.nodup_range
    intro p q hp hq hne h
    exact hne ((hc.same _ _ p q (hword p (List.mem_range.1 hp)) (hword q (List.mem_range.1 hq))).2 h)
  · intro γ h
    obtain ⟨q, hq⟩ := (hc.walk_iff γ).2 h
    have hlt := hc.lt hk hq
    exact ⟨word q, List.mem_map.2 ⟨q, List.mem_range.2 hlt, rfl⟩, (hc.same _ _ q q hq (hword q hlt)).1 rfl⟩

/-- All items with a dot in a right-hand side and a look-ahead among `ts`. -/
def itemsAmong (R : List PRule) (ts : List Term) : List Item :=
  R.zipIdx.flatMap fun x => (List.range (x.1.rhs.length + 1)).flatMap fun p => ts.map fun b => ⟨x.2, p, b⟩

theorem itemsAmong_length (R : List PRule) (ts : List Term) : (itemsAmong R ts).length = dots R * ts.length := by
  have h : ∀ (R : List PRule) (k : Nat), ((R.zipIdx k).flatMap fun x => (List.range (x.1.rhs.length + 1)).flatMap fun p =>
      ts.map fun b => (⟨x.2, p, b⟩ : Item)).length = dots R * ts.length := by
    intro R
    induction R with
    | nil => intro k; simp [dots]
    | cons r R ih =>
      intro k
      rw [List.zipIdx_cons, List.flatMap_cons, List.length_append, ih]
      have : ((List.range (r.rhs.length + 1)).flatMap fun p => ts.map fun b => (⟨k, p, b⟩ : Item)).length = (r.rhs.length + 1) * ts.length := by
        rw [List.length_flatMap]
        simp only [List.length_map, List.map_const', List.sum_replicate_nat, List.length_range]
      rw [this]
      simp [dots, Nat.add_mul]
  exact h R 0

open Classical in
/-- Fewer states than sets of items. -/
theorem Canonical.upper (hc : Canonical R s tab) (hs : TabSyms R tab) (hk : tab.HasStates k) {r0 : PRule} (hr0 : R[s]? = some r0)
    {ts : List Term} (hts : ∀ r ∈ R, ∀ t, Sym.tm t ∈ r.rhs → t ∈ ts) : k < 2 ^ (dots R * (ts.length + 1)) := by
  obtain ⟨L, h1, h2, h3, _⟩ := hc.prefixes hs hk
  let U := itemsAmong R (.eoi :: ts)
  have hU : ∀ γ i, Valid R s γ i → i ∈ U := by
    intro γ i hi
    obtain ⟨r, hr, hp⟩ := hi.rule hr0
    refine List.mem_flatMap.2 ⟨(r, i.rule), ?_, List.mem_flatMap.2 ⟨i.pos, List.mem_range.2 (by simp only; omega), List.mem_map.2 ⟨i.la, ?_, rfl⟩⟩⟩
    · rw [List.mem_zipIdx_iff_getElem?]
      exact hr
    · rcases List.mem_cons.1 hi.laOk with h | h
      · rw [h]; exact List.mem_cons_self
      · obtain ⟨r, hr, ht⟩ := mem_termsOf.1 h
        exact List.mem_cons_of_mem _ (hts r hr _ ht)
  have hUl : U.length = dots R * (ts.length + 1) := itemsAmong_length R _
  let bits : List Sym → List Bool := fun γ => U.map fun i => decide (Valid R s γ i)
  have hbits : ∀ γ γ', bits γ = bits γ' → SameItems R s γ γ' := by
    intro γ γ' e i
    by_cases hi : i ∈ U
    · have := List.map_inj_left.1 e i hi
      simpa using this
    · exact ⟨fun h => absurd (hU _ _ h) hi, fun h => absurd (hU _ _ h) hi⟩
  have hz : List.replicate U.length false ∉ L.map bits := by
    intro hm
    obtain ⟨γ, hγ, e⟩ := List.mem_map.1 hm
    obtain ⟨i, hi⟩ := h2 γ hγ
    have : decide (Valid R s γ i) ∈ bits γ := List.mem_map.2 ⟨i, hU γ i hi, rfl⟩
    rw [e] at this
    have := List.eq_of_mem_replicate this
    simp [hi] at this
  have hnd : (List.replicate U.length false :: L.map bits).Nodup := by
    refine List.nodup_cons.2 ⟨hz, ?_⟩
    rw [List.Nodup, List.pairwise_map]
    exact h3.imp fun h e => h (hbits _ _ e)
  have := length_le_of_nodup_subset hnd (t := words2 Bool true false U.length) (by
    intro x hx
    rw [mem_words2]
    refine ⟨?_, fun c _ => by cases c <;> simp⟩
    rcases List.mem_cons.1 hx with rfl | hx
    · simp
    · obtain ⟨γ, _, rfl⟩ := List.mem_map.1 hx
      simp [bits])
  rw [words2_length, List.length_cons, List.length_map, h1, hUl] at this
  exact this

/-! ## A grammar with many states -/

/-- `S → a S | b S | a Q₀; Qᵢ → a Qᵢ₊₁ | b Qᵢ₊₁; Qₙ → ε`: an `a` at the last place but `n`.  `S = 0`, `Qᵢ = i + 1`, `a = 0`, `b = 1`. -/
def farGram (n : Nat) : Gram :=
  { start := 0
    rules := [⟨0, [.tm (.sym 0), .nt 0]⟩, ⟨0, [.tm (.sym 1), .nt 0]⟩, ⟨0, [.tm (.sym 0), .nt 1]⟩] ++
      ((List.range n).flatMap fun i => [⟨i + 1, [.tm (.sym 0), .nt (i + 2)]⟩, ⟨i + 1, [.tm (.sym 1), .nt (i + 2)]⟩]) ++ [⟨n + 1, []⟩] }

variable {n fresh : Nat}

inductive FarRule (n : Nat) : PRule → Prop
  | loop (x : Nat) : x = 0 ∨ x = 1 → FarRule n ⟨0, [.tm (.sym x), .nt 0]⟩
  | enter : FarRule n ⟨0, [.tm (.sym 0), .nt 1]⟩
  | next (x i : Nat) : x = 0 ∨ x = 1 → i < n → FarRule n ⟨i + 1, [.tm (.sym x), .nt (i + 2)]⟩
  | last : FarRule n ⟨n + 1, []⟩

theorem mem_far {r : PRule} : r ∈ (farGram n).rules ↔ FarRule n r := by
  constructor
  · intro h
    simp only [farGram, List.mem_append, List.mem_cons, List.not_mem_nil, or_false, List.mem_flatMap, List.mem_range] at h
    rcases h with ((rfl | rfl | rfl) | ⟨i, hi, rfl | rfl⟩) | rfl
    · exact .loop 0 (.inl rfl)
    · exact .loop 1 (.inr rfl)
    · exact .enter
    · exact .next 0 i (.inl rfl) hi
    · exact .next 1 i (.inr rfl) hi
    · exact .last
  · intro h
    simp only [farGram, List.mem_append, List.mem_cons, List.not_mem_nil, or_false, List.mem_flatMap, List.mem_range]
    cases h with
    | loop x hx => rcases hx with rfl | rfl <;> simp
    | enter => simp
    | next x i hx hi => exact .inl (.inr ⟨i, hi, by rcases hx with rfl | rfl <;> simp⟩)
    | last => simp

theorem far_length : (farGram n).rules.length = 2 * n + 4 := by
  simp only [farGram, List.length_append, List.length_cons, List.length_nil, List.length_flatMap, List.map_const', List.sum_replicate_nat, List.length_range]
  omega

theorem far_ok : (farGram n).Ok := by
  intro r hr
  cases mem_far.1 hr <;> simp [PRule.Ok]

theorem far_closed : (farGram n).Closed := by
  refine ⟨⟨_, mem_far.2 .enter, rfl⟩, ?_⟩
  intro r hr m hm
  have h0 : ∃ r' ∈ (farGram n).rules, r'.lhs = 0 := ⟨_, mem_far.2 .enter, rfl⟩
  have h1 : ∀ i, i ≤ n → ∃ r' ∈ (farGram n).rules, r'.lhs = i + 1 := by
    intro i hi
    rcases Nat.lt_or_eq_of_le hi with hi | rfl
    · exact ⟨_, mem_far.2 (.next 0 i (.inl rfl) hi), rfl⟩
    · exact ⟨_, mem_far.2 .last, rfl⟩
  cases mem_far.1 hr with
  | loop x hx => simp at hm; subst hm; exact h0
  | enter => simp at hm; subst hm; exact h1 0 (Nat.zero_le _)
  | next x i hx hi => simp at hm; subst hm; exact h1 (i + 1) hi
  | last => simp at hm

theorem far_nodup : (farGram n).rules.Nodup := by
  unfold farGram
  simp only
  rw [List.nodup_append, List.nodup_append]
  refine ⟨⟨by simp, ?_, ?_⟩, by simp, ?_⟩
  · rw [List.Nodup, List.pairwise_flatMap]
    refine ⟨by simp, ?_⟩
    refine List.Pairwise.imp ?_ List.nodup_range
    intro i j hij x hx y hy
    simp only [List.mem_cons, List.not_mem_nil, or_false] at hx hy
    rcases hx with rfl | rfl <;> rcases hy with rfl | rfl <;> simp [hij]
  · intro x hx y hy e
    subst e
    obtain ⟨i, _, h⟩ := List.mem_flatMap.1 hy
    simp only [List.mem_cons, List.not_mem_nil, or_false] at hx h
    rcases hx with rfl | rfl | rfl <;> simp at h
  · intro x hx y hy e
    subst e
    simp only [List.mem_cons, List.not_mem_nil, or_false] at hy
    subst hy
    simp only [List.mem_append, List.mem_cons, List.not_mem_nil, or_false, List.mem_flatMap] at hx
    rcases hx with h | ⟨i, _, h⟩ <;> simp at h

/-- The letters of a prefix. -/
def lets (w : List Nat) : List Sym := w.map fun t => .tm (.sym t)

/-- Rules for `0` can begin everywhere, rules for `k + 1` behind an `a` and `k` further letters. -/
def FarAt (w : List Nat) (m : Nat) : Prop := m = 0 ∨ ∃ k, m = k + 1 ∧ w.reverse[k]? = some 0

theorem farAt_snoc {w : List Nat} {x m : Nat} : FarAt (w ++ [x]) m ↔ m = 0 ∨ (m = 1 ∧ x = 0) ∨ ∃ k, m = k + 2 ∧ w.reverse[k]? = some 0 := by
  unfold FarAt
  rw [List.reverse_append]
  constructor
  · rintro (h | ⟨k, h1, h2⟩)
    · exact .inl h
    · cases k with
      | zero => exact .inr (.inl ⟨h1, by simpa using h2⟩)
      | succ k => exact .inr (.inr ⟨k, h1, by simpa using h2⟩)
  · rintro (h | ⟨h1, h2⟩ | ⟨k, h1, h2⟩)
    · exact .inl h
    · exact .inr ⟨0, h1, by simp [h2]⟩
    · exact .inr ⟨k + 1, h1, by simpa using h2⟩

theorem derives_tm_one {R : List PRule} {u v : List Sym} {t : Term} (h : Derives R u v) (hu : u = [.tm t]) : v = [.tm t] := by
  induction h with
  | refl => exact hu
  | step x y r _ _ ih =>
    exfalso
    have hm : Sym.nt r.lhs ∈ [Sym.tm t] := ih ▸ by simp
    simp at hm

theorem far_valid (hf : ¬ (farGram n).Used fresh) {γ : List Sym} {i : Item} (h : Valid ((farGram n).aug fresh) (farGram n).rules.length γ i) :
    i.la = .eoi ∧ ∃ r w, ((farGram n).aug fresh)[i.rule]? = some r ∧ γ = lets w ++ r.rhs.take i.pos ∧
      ((i.rule = (farGram n).rules.length ∧ r.rhs = [.nt 0] ∧ w = []) ∨ (FarRule n r ∧ FarAt w r.lhs)) := by
  induction h with
  | start => exact ⟨rfl, ⟨fresh, [.nt 0]⟩, [], by simp [Gram.aug]; rfl, rfl, .inl ⟨rfl, rfl, rfl⟩⟩
  | advance γ i r X h1 h2 h3 ih =>
    obtain ⟨ih1, r', w, ih2, ih3, ih4⟩ := ih
    obtain rfl := Option.some.inj (h2.symm.trans ih2)
    refine ⟨ih1, r, w, h2, ?_, ih4⟩
    rw [ih3, List.append_assoc]
    simp only
    rw [List.take_add_one, h3]
    rfl
  | expand γ i r B j r' b ρ h1 h2 h3 h4 h5 h6 ih =>
    obtain ⟨ih1, r1, w, ih2, ih3, ih4⟩ := ih
    obtain rfl := Option.some.inj (h2.symm.trans ih2)
    have hB : B = 0 ∨ ∃ k, B = k + 1 := by cases B; exact .inl rfl; exact .inr ⟨_, rfl⟩
    have hlast : r.rhs.drop (i.pos + 1) = [] ∧ ∃ w', lets w ++ r.rhs.take i.pos = lets w' ∧ FarAt w' B := by
      rcases ih4 with ⟨_, e, rfl⟩ | ⟨hr, hat⟩
      · rw [e] at h3 ⊢
        have hp : i.pos = 0 := by
          have := (List.getElem?_eq_some_iff.1 h3).1
          simpa using this
        rw [hp] at h3 ⊢
        simp at h3
        exact ⟨rfl, [], rfl, .inl h3.symm⟩
      · have hone : ∀ x m, r.rhs = [.tm (.sym x), .nt m] → i.pos = 1 ∧ B = m := by
          intro x m e
          rw [e] at h3
          have := (List.getElem?_eq_some_iff.1 h3).1
          simp at this
          have : i.pos = 0 ∨ i.pos = 1 := by omega
          rcases this with hp | hp
          · rw [hp] at h3; simp at h3
          · rw [hp] at h3; simp at h3; exact ⟨hp, h3.symm⟩
        cases hr with
        | loop x hx =>
          obtain ⟨hp, rfl⟩ := hone _ _ rfl
          rw [hp]
          exact ⟨rfl, w ++ [x], by simp [lets], .inl rfl⟩
        | enter =>
          obtain ⟨hp, rfl⟩ := hone _ _ rfl
          rw [hp]
          exact ⟨rfl, w ++ [0], by simp [lets], farAt_snoc.2 (.inr (.inl ⟨rfl, rfl⟩))⟩
        | next x k hx hk =>
          obtain ⟨hp, rfl⟩ := hone _ _ rfl
          rw [hp]
          refine ⟨rfl, w ++ [x], by simp [lets], farAt_snoc.2 (.inr (.inr ⟨k, rfl, ?_⟩))⟩
          rcases hat with hat | ⟨k', e, hat⟩
          · simp at hat
          · simp at e
            rw [e]
            exact hat
        | last => simp at h3
    obtain ⟨hd, w', e1, e2⟩ := hlast
    rw [hd, ih1] at h6
    have h7 := derives_tm_one h6 rfl
    simp only [List.cons.injEq, Sym.tm.injEq] at h7
    refine ⟨h7.1, r', w', h4, by rw [ih3, e1]; simp, ?_⟩
    rcases List.mem_append.1 (List.mem_of_getElem? h4) with hm | hm
    · exact .inr ⟨mem_far.1 hm, h5 ▸ e2⟩
    · simp only [List.mem_singleton] at hm
      subst hm
      simp only at h5
      subst h5
      exfalso
      apply hf
      rcases ih4 with ⟨_, e, _⟩ | ⟨hr, _⟩
      · have := List.mem_of_getElem? h3
        rw [e] at this
        simp only [List.mem_singleton, Sym.nt.injEq] at this
        exact ⟨_, mem_far.2 .enter, .inl this.symm⟩
      · exact ⟨r, mem_far.2 hr, .inr (List.mem_of_getElem? h3)⟩

theorem far_start {w : List Nat} (hw : ∀ c ∈ w, c = 0 ∨ c = 1) {m : Nat} (hat : FarAt w m) :
    ∀ j r, (farGram n).rules[j]? = some r → r.lhs = m → Valid ((farGram n).aug fresh) (farGram n).rules.length (lets w) ⟨j, 0, .eoi⟩ := by
  have hleft : ∀ {j : Nat} {r : PRule}, (farGram n).rules[j]? = some r → ((farGram n).aug fresh)[j]? = some r := by
    intro j r h
    rw [Gram.aug, List.getElem?_append_left (List.getElem?_eq_some_iff.1 h).1]
    exact h
  induction w using snoc_induction generalizing m with
  | hnil =>
    intro j r hj hl
    rcases hat with rfl | ⟨k, _, h⟩
    · exact .expand _ ⟨_, 0, .eoi⟩ ⟨fresh, [.nt 0]⟩ 0 j r .eoi [] .start (by simp [Gram.aug]; rfl) rfl (hleft hj) hl (.refl _)
    · simp at h
  | hsnoc w x ih =>
    have hx := hw x (by simp)
    have hw' : ∀ c ∈ w, c = 0 ∨ c = 1 := fun c hc => hw c (by simp [hc])
    -- from a rule `l → x m` that can begin behind `w`
    have key : ∀ l, FarAt w l → FarRule n ⟨l, [.tm (.sym x), .nt m]⟩ → ∀ j r, (farGram n).rules[j]? = some r → r.lhs = m →
        Valid ((farGram n).aug fresh) (farGram n).rules.length (lets (w ++ [x])) ⟨j, 0, .eoi⟩ := by
      intro l hl hr j r hj hm
      obtain ⟨i, hi⟩ := List.getElem?_of_mem (mem_far.2 hr)
      have v := ih hw' hl i _ hi rfl
      have v1 := Valid.advance _ _ _ _ v (hleft hi) rfl
      have e : lets (w ++ [x]) = lets w ++ [.tm (.sym x)] := by simp [lets]
      rw [e]
      exact .expand _ _ _ m j r .eoi [] v1 (hleft hi) rfl (hleft hj) hm (.refl _)
    intro j r hj hl
    rcases farAt_snoc.1 hat with rfl | ⟨rfl, rfl⟩ | ⟨k, rfl, hk⟩
    · exact key 0 (.inl rfl) (.loop x hx) j r hj hl
    · exact key 0 (.inl rfl) .enter j r hj hl
    · have hkn : k < n := by
        have := mem_far.1 (List.mem_of_getElem? hj)
        cases this <;> simp only at hl <;> omega
      exact key (k + 1) (.inr ⟨k, rfl, hk⟩) (.next x k hx hkn) j r hj hl

theorem lets_inj {u v : List Nat} (h : lets u = lets v) : u = v := by
  unfold lets at h
  exact List.map_inj_right (fun a b e => by simpa using e) |>.1 h

/-- Two prefixes of letters that end in different letters have different items. -/
theorem far_differ (hf : ¬ (farGram n).Used fresh) {u v : List Nat} (hu : ∀ c ∈ u, c = 0 ∨ c = 1) {k : Nat} (hk : k ≤ n)
    (h1 : u.reverse[k]? = some 0) (h2 : v.reverse[k]? ≠ some 0) :
    ¬ SameItems ((farGram n).aug fresh) (farGram n).rules.length (lets u) (lets v) := by
  intro h
  obtain ⟨r, hr, hl⟩ : ∃ r, FarRule n r ∧ r.lhs = k + 1 := by
    rcases Nat.lt_or_eq_of_le hk with hk | rfl
    · exact ⟨_, .next 0 k (.inl rfl) hk, rfl⟩
    · exact ⟨_, .last, rfl⟩
  obtain ⟨j, hj⟩ := List.getElem?_of_mem (mem_far.2 hr)
  have hlt := (List.getElem?_eq_some_iff.1 hj).1
  obtain ⟨_, r', w, e1, e2, e3⟩ := far_valid hf ((h _).1 (far_start (fresh := fresh) hu (.inr ⟨k, rfl, h1⟩) j r hj hl))
  have hj' : ((farGram n).aug fresh)[j]? = some r := by
    rw [Gram.aug, List.getElem?_append_left hlt]
    exact hj
  obtain rfl := Option.some.inj (hj'.symm.trans e1)
  simp only [List.take_zero, List.append_nil] at e2
  obtain rfl := lets_inj e2
  rcases e3 with ⟨e, _⟩ | ⟨_, e⟩
  · simp only at e; omega
  · rcases e with e | ⟨k', e, e'⟩
    · omega
    · obtain rfl : k' = k := by omega
      exact h2 e'

theorem far_states (hf : ¬ (farGram n).Used fresh) (hc : Canonical ((farGram n).aug fresh) (farGram n).rules.length tab)
    (hk : tab.HasStates k) : 2 ^ (n + 1) ≤ k := by
  have := hc.lower hk (L := (words2 Nat 0 1 (n + 1)).map lets) (by
    intro γ h
    obtain ⟨w, hw, rfl⟩ := List.mem_map.1 h
    obtain ⟨j, hj⟩ := List.getElem?_of_mem (mem_far.2 (FarRule.enter (n := n)))
    exact ⟨_, far_start (mem_words2.1 hw).2 (.inl rfl) j _ hj rfl⟩) (by
    rw [List.pairwise_map]
    refine List.Pairwise.imp_of_mem ?_ (words2_nodup (by decide) (n + 1))
    intro u v hu hv hne
    obtain ⟨u1, u2⟩ := mem_words2.1 hu
    obtain ⟨v1, v2⟩ := mem_words2.1 hv
    obtain ⟨i, hi, hd⟩ : ∃ i, i < n + 1 ∧ u.reverse[i]? ≠ v.reverse[i]? := by
      apply Classical.byContradiction
      intro hn
      apply hne
      apply List.reverse_inj.1
      apply List.ext_getElem?
      intro i
      by_cases hi : i < n + 1
      · exact Classical.byContradiction fun h => hn ⟨i, hi, h⟩
      · rw [List.getElem?_eq_none (by simp; omega), List.getElem?_eq_none (by simp; omega)]
    have hget : ∀ w : List Nat, w.length = n + 1 → (∀ c ∈ w, c = 0 ∨ c = 1) → w.reverse[i]? = some 0 ∨ w.reverse[i]? = some 1 := by
      intro w h1 h2
      have hlt : i < w.reverse.length := by simp; omega
      rw [List.getElem?_eq_getElem hlt]
      rcases h2 _ (List.mem_reverse.1 (List.getElem_mem hlt)) with h | h <;> rw [h] <;> simp
    rcases hget u u1 u2 with hu0 | hu1
    · exact far_differ hf u2 (by omega) hu0 (fun e => hd (hu0.trans e.symm))
    · rcases hget v v1 v2 with hv0 | hv1
      · exact fun h => far_differ hf v2 (k := i) (by omega) hv0 (by rw [hu1]; simp) (fun i => (h i).symm)
      · exact absurd (hu1.trans hv1.symm) hd)
  rw [List.length_map, words2_length] at this
  exact this

theorem lets_append_inj {u v : List Nat} {x y a b : Nat} (h : lets u ++ [.tm (.sym x), .nt a] = lets v ++ [.tm (.sym y), .nt b]) :
    x = y ∧ a = b := by
  have := (List.append_inj' h rfl).2
  simpa using this

theorem far_no_clash (hf : ¬ (farGram n).Used fresh) : ¬ Clash ((farGram n).aug fresh) (farGram n).rules.length := by
  have hcomp : ∀ γ r t, r ≠ (farGram n).rules.length → Complete ((farGram n).aug fresh) (farGram n).rules.length γ r t →
      t = .eoi ∧ ∃ rule w, (farGram n).rules[r]? = some rule ∧ FarRule n rule ∧ γ = lets w ++ rule.rhs := by
    rintro γ r t hr ⟨rule, h1, h2⟩
    obtain ⟨e1, r', w, e2, e3, e4⟩ := far_valid hf h2
    obtain rfl := Option.some.inj (h1.symm.trans e2)
    refine ⟨e1, rule, w, ?_, ?_, by simpa using e3⟩
    · have hlt := (List.getElem?_eq_some_iff.1 h1).1
      rw [Gram.aug] at h1 hlt
      rw [List.getElem?_append_left (by simp at hlt; omega)] at h1
      exact h1
    · rcases e4 with ⟨e, _⟩ | ⟨e, _⟩
      · exact absurd e hr
      · exact e
  rintro ⟨γ, t, r, hr, h1, h2⟩
  obtain ⟨rfl, rule, w, a1, a2, a3⟩ := hcomp γ r t hr h1
  rcases h2 with ⟨i, r', h3, h4, h5⟩ | ⟨r2, hr2, hne, h3⟩
  · rcases List.mem_append.1 (List.mem_of_getElem? h4) with hm | hm
    · exact far_ok r' hm (List.mem_of_getElem? h5)
    · simp only [List.mem_singleton] at hm
      subst hm
      have := List.mem_of_getElem? h5
      simp at this
  · obtain ⟨_, rule', w', b1, b2, b3⟩ := hcomp γ r2 _ hr2 h3
    apply hne
    have hlt := (List.getElem?_eq_some_iff.1 b1).1
    have hrule : rule' = rule := by
      have e := b3.symm.trans a3
      -- a prefix of letters does not end in a non-terminal
      have hlast : ∀ u v (x m : Nat), lets u ≠ lets v ++ [.tm (.sym x), .nt m] := by
        intro u v x m h
        have : Sym.nt m ∈ lets u := by rw [h]; simp
        simp [lets] at this
      cases a2 <;> cases b2
      all_goals first
        | rfl
        | (simp only [List.append_nil] at e; exact absurd e (hlast _ _ _ _))
        | (simp only [List.append_nil] at e; exact absurd e.symm (hlast _ _ _ _))
        | (obtain ⟨e1, e2⟩ := lets_append_inj e; first | (subst e1; rfl) | (exfalso; omega) | (subst e1; obtain rfl := Nat.add_right_cancel e2; rfl))
    rw [hrule] at b1
    exact (List.getElem?_inj hlt far_nodup).1 (b1.trans a1.symm)

end Verif.Par
