import Verif.Par.SoundProof
import Verif.Par.SrcProof
import Verif.Par.WarnProof
import Verif.Par.Chosen

/-!
# `parse` follows every derivation tree whose reductions are done; without conflicts, every derivation tree
-/

namespace Verif.Par

/-! ## Items and sentential forms -/

/-- A viable prefix, the rest of the rule and the look-ahead are the beginning of something derivable. -/
theorem Valid.sentential' {R : List PRule} {s : Nat} {r0 : PRule} (hs : R[s]? = some r0) {γ : List Sym} {i : Item} (h : Valid R s γ i) :
    ∃ r ω, R[i.rule]? = some r ∧ Gen R (r0.rhs ++ [.tm .eoi]) (γ ++ r.rhs.drop i.pos ++ .tm i.la :: ω) := by
  induction h with
  | start =>
    refine ⟨r0, [], hs, ?_⟩
    simp only [List.nil_append, List.drop_zero]
    exact Gen.refl _
  | advance γ i r X h1 h2 h3 ih =>
    obtain ⟨r', ω, k1, k2⟩ := ih
    rw [h2] at k1
    cases k1
    refine ⟨r, ω, h2, ?_⟩
    have hlt : i.pos < r.rhs.length := by rw [List.getElem?_eq_some_iff] at h3; exact h3.1
    rw [List.drop_eq_getElem_cons hlt] at k2
    rw [List.getElem?_eq_getElem hlt] at h3
    cases h3
    simpa using k2
  | expand γ i r B j r' b ρ h1 h2 h3 h4 h5 h6 ih =>
    obtain ⟨r'', ω, k1, k2⟩ := ih
    rw [h2] at k1
    cases k1
    subst h5
    refine ⟨r', ρ ++ ω, h4, ?_⟩
    have hlt : i.pos < r.rhs.length := by rw [List.getElem?_eq_some_iff] at h3; exact h3.1
    rw [List.drop_eq_getElem_cons hlt] at k2
    rw [List.getElem?_eq_getElem hlt] at h3
    have h3 := Option.some.inj h3
    rw [h3] at k2
    refine k2.trans ?_
    have e1 : γ ++ Sym.nt r'.lhs :: r.rhs.drop (i.pos + 1) ++ Sym.tm i.la :: ω =
        γ ++ ([Sym.nt r'.lhs] ++ ((r.rhs.drop (i.pos + 1) ++ [.tm i.la]) ++ ω)) := by simp
    have e2 : γ ++ r'.rhs.drop 0 ++ Sym.tm b :: (ρ ++ ω) = γ ++ (r'.rhs ++ ((Sym.tm b :: ρ) ++ ω)) := by simp
    simp only
    rw [e1, e2]
    exact Gen.append (Gen.refl γ) (Gen.append (Gen.rule (List.mem_of_getElem? h4)) (Gen.append (gen_iff.2 h6) (Gen.refl ω)))

theorem Valid.sentential {R : List PRule} {s : Nat} {r0 : PRule} (hs : R[s]? = some r0) {γ : List Sym} {i : Item} (h : Valid R s γ i) :
    ∃ r ω, R[i.rule]? = some r ∧ Gen R [.nt r0.lhs, .tm .eoi] (γ ++ r.rhs.drop i.pos ++ .tm i.la :: ω) := by
  obtain ⟨r, ω, h1, h2⟩ := h.sentential' hs
  exact ⟨r, ω, h1, (Gen.append (Gen.rule (List.mem_of_getElem? hs)) (Gen.refl [.tm .eoi])).trans h2⟩

theorem Valid.advances {R : List PRule} {s r : Nat} {γ : List Sym} {a : Term} {rule : PRule} (h : Valid R s γ ⟨r, 0, a⟩)
    (hr : R[r]? = some rule) : Valid R s (γ ++ rule.rhs) ⟨r, rule.rhs.length, a⟩ := by
  have key : ∀ n, n ≤ rule.rhs.length → Valid R s (γ ++ rule.rhs.take n) ⟨r, n, a⟩ := by
    intro n
    induction n with
    | zero => intro _; simpa using h
    | succ n ih =>
      intro hn
      have := Valid.advance _ _ rule rule.rhs[n] (ih (by omega)) hr (List.getElem?_eq_getElem hn)
      rw [List.take_add_one, List.getElem?_eq_getElem hn]
      simpa using this
  simpa using key rule.rhs.length (Nat.le_refl _)

/-- No rule contains the end marker: it stays at the end. -/
theorem Gen.no_eoi {R : List PRule} (hR : ∀ r ∈ R, Sym.tm .eoi ∉ r.rhs) {u v : List Sym} (h : Gen R u v) (hu : Sym.tm .eoi ∉ u) :
    Sym.tm .eoi ∉ v := by
  induction h with
  | nil => exact hu
  | keep X l w _ ih =>
    intro hm
    rcases List.mem_cons.1 hm with hm | hm
    · exact hu (by rw [← hm]; exact List.mem_cons_self)
    · exact ih (fun h => hu (List.mem_cons_of_mem _ h)) hm
  | expand r l u v hr _ _ ih1 ih2 =>
    intro hm
    rcases List.mem_append.1 hm with hm | hm
    · exact ih1 (hR r hr) hm
    · exact ih2 (fun h => hu (List.mem_cons_of_mem _ h)) hm

theorem Gen.eoi_last {R : List PRule} (hR : ∀ r ∈ R, Sym.tm .eoi ∉ r.rhs) {n : Nat} {x ω : List Sym}
    (h : Gen R [.nt n, .tm .eoi] (x ++ .tm .eoi :: ω)) : ω = [] ∧ Gen R [.nt n] x := by
  obtain ⟨u, v, h1, h2, h3⟩ := h.split_cons
  obtain ⟨v', rfl, h4⟩ := h3.terminal
  have := h4.nil_left
  subst this
  have hu := h2.no_eoi hR (by simp)
  -- compare the two decompositions
  rcases List.eq_nil_or_concat ω with rfl | ⟨ω', z, rfl⟩
  · have := List.append_inj' (s₁ := x) (t₁ := [Sym.tm .eoi]) h1 rfl
    exact ⟨rfl, by rw [this.1]; exact h2⟩
  · exfalso
    have h1' : (x ++ Sym.tm .eoi :: ω') ++ [z] = u ++ [Sym.tm .eoi] := by simpa using h1
    have := (List.append_inj' h1' rfl).1
    apply hu
    rw [← this]
    simp

section
variable {N T E : Type} {p : Parser N T E} {rules : List (Rule N T E)} {idx : T → Nat} {input : List T} {start fresh : Nat}

theorem Ctx.aug_ok (hx : Ctx p rules start fresh) : ∀ r ∈ (gram rules start).aug fresh, Sym.tm .eoi ∉ r.rhs := by
  intro r hr
  rcases List.mem_append.1 hr with h | h
  · exact hx.ok r h
  · simp at h
    subst h
    simp

/-- Derivations from the start symbol of the grammar do not use the appended rule, if that is not a rule of the start
symbol. -/
theorem Ctx.gen_start (hx : Ctx p rules start fresh) (hne : fresh ≠ start) {w : List Sym}
    (h : Gen ((gram rules start).aug fresh) [.nt fresh] w) :
    w = [.nt fresh] ∨ Gen (rules.map Rule.plain) [.nt start] w := by
  rcases gen_single h with h | ⟨r, hr, h1, h2⟩
  · exact Or.inl h
  · right
    have hrr : r = ⟨fresh, [.nt start]⟩ := by
      rcases List.mem_append.1 hr with h' | h
      · exfalso
        cases h1
        exact hx.unused ⟨r, h', Or.inl rfl⟩
      · simpa [gram] using h
    subst hrr
    refine Gen.drop_rule (r0 := ⟨fresh, [.nt start]⟩) ?_ h2 (by simpa using hne) (by simpa using hne)
    intro r hr hm
    exact hx.unused ⟨r, hr, Or.inr hm⟩

theorem Ctx.start_rule : ((gram rules start).aug fresh)[rules.length]? = some ⟨fresh, [.nt start]⟩ := by simp [Gram.aug, gram]

theorem aug_get {r : Nat} {rule : PRule} (h : (rules.map Rule.plain)[r]? = some rule) :
    ((gram rules start).aug fresh)[r]? = some rule ∧ r ≠ rules.length := by
  have hlt : r < (rules.map Rule.plain).length := by rw [List.getElem?_eq_some_iff] at h; exact h.1
  constructor
  · simp only [Gram.aug, gram]
    rw [List.getElem?_append_left hlt, h]
  · simp at hlt; omega

/-- If an accept overrides a reduction then the start symbol derives itself. -/
theorem Ctx.cyclic (hx : Ctx p rules start fresh) (hne : fresh ≠ start) {r : Nat} (hr : r ≠ rules.length)
    (h : Complete ((gram rules start).aug fresh) rules.length [.nt start] r .eoi) : (gram rules start).Cyclic := by
  obtain ⟨rule, h1, h2⟩ := h
  obtain ⟨γ0, rule', k1, k2, k3, _⟩ := h2.split ⟨_, Ctx.start_rule⟩
  simp only [h1] at k1
  cases k1
  simp only [List.take_length] at k2
  have hmem : rule ∈ rules.map Rule.plain := by
    rcases List.mem_append.1 (List.mem_of_getElem? h1) with h | h
    · exact h
    · exfalso
      have hlt : r < ((gram rules start).aug fresh).length := by rw [List.getElem?_eq_some_iff] at h1; exact h1.1
      simp [Gram.aug, gram] at hlt
      simp at h
      subst h
      simp only [Gram.aug, gram] at h1
      rw [List.getElem?_append_left (by simp; omega)] at h1
      exact hx.unused ⟨_, List.mem_of_getElem? h1, Or.inl rfl⟩
  generalize hi : (⟨r, 0, .eoi⟩ : Item) = i at k3
  cases k3 with
  | start => cases hi; exact absurd rfl hr
  | advance => cases hi
  | expand _ i r1 B j r' b ρ m1 m2 m3 m4 m5 m6 =>
    cases hi
    rw [h1] at m4
    cases m4
    subst m5
    obtain ⟨r2, ω, n1, n2⟩ := m1.sentential Ctx.start_rule
    rw [m2] at n1
    cases n1
    have hlt : i.pos < r1.rhs.length := by rw [List.getElem?_eq_some_iff] at m3; exact m3.1
    rw [List.drop_eq_getElem_cons hlt] at n2
    rw [List.getElem?_eq_getElem hlt] at m3
    rw [Option.some.inj m3] at n2
    have e1 : γ0 ++ Sym.nt rule.lhs :: r1.rhs.drop (i.pos + 1) ++ Sym.tm i.la :: ω =
        (γ0 ++ [Sym.nt rule.lhs]) ++ ((r1.rhs.drop (i.pos + 1) ++ [.tm i.la]) ++ ω) := by simp
    rw [e1] at n2
    have n3 := n2.trans (Gen.append (Gen.refl _) (Gen.append (gen_iff.2 m6) (Gen.refl ω)))
    have n4 := (Gen.eoi_last hx.aug_ok (x := γ0 ++ [Sym.nt rule.lhs]) (ω := ρ ++ ω) (by simpa using n3)).2
    rcases hx.gen_start hne n4 with n5 | n5
    · exfalso
      cases γ0 with
      | nil => simp at n5; exact hx.unused ⟨rule, hmem, Or.inl n5⟩
      | cons X γ0 => simp at n5
    · exact ⟨γ0, rule, [], hmem, gen_iff.1 n5, by simp only [List.append_nil]; exact k2.symm⟩

/-- Every valid reduction is done, except where the state accepts. -/
def NoConflict (p : Parser N T E) (rules : List (Rule N T E)) (start fresh : Nat) : Prop :=
  ∀ γ q r a, p.tab.walk γ = some q → r ≠ rules.length → Complete ((gram rules start).aug fresh) rules.length γ r a →
    p.tab.act q a = some (.reduce r) ∨ (a = .eoi ∧ p.tab.act q a = some .accept)

/-- The reductions with `Q` are done, except where the state accepts. -/
def Done (p : Parser N T E) (rules : List (Rule N T E)) (start fresh : Nat) (Q : List Sym → Nat → Term → Prop) : Prop :=
  ∀ γ q r a, p.tab.walk γ = some q → r ≠ rules.length → Complete ((gram rules start).aug fresh) rules.length γ r a → Q γ r a →
    p.tab.act q a = some (.reduce r) ∨ (a = .eoi ∧ p.tab.act q a = some .accept)

theorem Built.along_true {us fs} (h : Built (rules.map Rule.plain) idx input us fs) (he : errs fs = []) (γ : List Sym) (j : Nat) :
    Along (rules.map Rule.plain) (fun _ _ _ => True) idx input γ j fs := by
  induction h generalizing γ j with
  | nil => exact .nil _ _
  | leaf i t us fs _ _ ih => exact .leaf _ _ _ _ _ (ih (by simpa [errs, Tree.errs] using he) _ _)
  | err => simp [errs, Tree.errs] at he
  | node r rule cs us fs h _ _ ih1 ih2 =>
    simp only [errs, Tree.errs, List.append_eq_nil_iff] at he
    exact .node _ _ _ rule _ _ h (ih1 he.1 _ _) trivial (ih2 he.2 _ _)

theorem Ahead.next {j : Nat} {a : Term} (h : Ahead idx input j a) : a = nextTerm idx input j := by
  rcases h with ⟨t, rfl, h⟩ | ⟨rfl, h⟩
  · simp [nextTerm, h]
  · subst h; simp [nextTerm]

/-- What following a forest leads to: all of it has been read; or a callback failed; or the parse has accepted early, which is only possible with `Cy`. -/
inductive SimOut (Cy : Prop) (p : Parser N T E) (rules : List (Rule N T E)) (idx : T → Nat) (input : List T) (start : Nat) (c : Cfg N T)
    (m : Nat) (γ : List Sym) (fs : List (Tree T)) (lg : List (Call N T)) (as0 : List (Arg N T)) : Except E (List (Arg N T)) → Prop
  | ok (as n c') : run idx p n c = .more c' → Inv p rules idx input c' m γ fs lg (as0 ++ as) →
      SimOut Cy p rules idx input start c m γ fs lg as0 (.ok as)
  | error (e n c') : run idx p n c = .done (.error (.reducer e)) c' → c'.log.reverse = lg →
      SimOut Cy p rules idx input start c m γ fs lg as0 (.error e)
  | early (x n v c' f lg') : Cy → run idx p n c = .done (.ok v) c' →
      Inv p rules idx input c' input.length [.nt start] [f] lg' [.nt v] → errs [f] = [] →
      SimOut Cy p rules idx input start c m γ fs lg as0 x

theorem SimOut.prepend {Cy : Prop} {c c1 : Cfg N T} {n m γ fs lg as0 x} (h : run idx p n c = .more c1)
    (hs : SimOut Cy p rules idx input start c1 m γ fs lg as0 x) : SimOut Cy p rules idx input start c m γ fs lg as0 x := by
  cases hs with
  | ok as n' c' h1 h2 => exact .ok as (n + n') c' (by rw [run_add, h]; exact h1) h2
  | error e n' c' h1 h2 => exact .error e (n + n') c' (by rw [run_add, h]; exact h1) h2
  | early x n' v c' f lg' h1 h2 h3 h4 => exact .early x (n + n') v c' f lg' h1 (by rw [run_add, h]; exact h2) h3 h4

theorem zipIdx_eq_cons {l : List T} {k : Nat} {x : T × Nat} {xs : List (T × Nat)} (h : x :: xs = l.zipIdx k) :
    ∃ t l', l = t :: l' ∧ x = (t, k) ∧ xs = l'.zipIdx (k + 1) := by
  cases l with
  | nil => cases h
  | cons t l => rw [List.zipIdx_cons] at h; cases h; exact ⟨t, l, rfl, rfl, rfl⟩

theorem zipIdx_eq_append {l : List T} {k : Nat} {xs ys : List (T × Nat)} (h : xs ++ ys = l.zipIdx k) :
    xs = (l.take xs.length).zipIdx k ∧ ys = (l.drop xs.length).zipIdx (k + xs.length) := by
  induction xs generalizing l k with
  | nil => simpa using h
  | cons x xs ih =>
    obtain ⟨t, l', rfl, rfl, h3⟩ := zipIdx_eq_cons h
    obtain ⟨h4, h5⟩ := ih h3
    constructor
    · rw [List.length_cons, List.take_succ_cons, List.zipIdx_cons, ← h4]
    · rw [List.length_cons, List.drop_succ_cons, Nat.add_comm xs.length 1, ← Nat.add_assoc]
      exact h5

theorem Ahead.exists {j : Nat} (h : j ≤ input.length) : ∃ a, Ahead idx input j a := by
  by_cases hlt : j < input.length
  · exact ⟨_, Or.inl ⟨_, rfl, List.getElem?_eq_getElem hlt⟩⟩
  · exact ⟨_, Or.inr ⟨rfl, by omega⟩⟩

theorem sim {Q : List Sym → Nat → Term → Prop} {Cy : Prop} (hx : Ctx p rules start fresh) (hnw : Done p rules start fresh Q)
    (hcy : ∀ r, r ≠ rules.length → Complete ((gram rules start).aug fresh) rules.length [.nt start] r .eoi → Q [.nt start] r .eoi → Cy) {us fs}
    (hb : Built (rules.map Rule.plain) idx input us fs) (he : errs fs = []) :
    ∀ {c : Cfg N T} {j m γ fs0 lg0 as0 i rule vs b ρ lg x}, Along (rules.map Rule.plain) Q idx input γ j fs → Inv p rules idx input c j γ fs0 lg0 as0 → errs fs0 = [] →
      Valid ((gram rules start).aug fresh) rules.length γ i → ((gram rules start).aug fresh)[i.rule]? = some rule →
      rule.rhs.drop i.pos = us ++ vs → j ≤ m → m ≤ input.length → leaves fs = ((input.take m).drop j).zipIdx j →
      Ahead idx input m b → Gen ((gram rules start).aug fresh) (vs ++ [.tm i.la]) (.tm b :: ρ) → Evals rules fs lg x →
      SimOut Cy p rules idx input start c m (γ ++ us) (fs0 ++ fs) (lg0 ++ lg) as0 x := by
  induction hb with
  | nil =>
    intro c j m γ fs0 lg0 as0 i rule vs b ρ lg x hal hi he0 hv hr hd hjm hm hl hb hg hev
    have hj : j = m := by
      have := congrArg List.length hl
      simp [leaves] at this
      omega
    subst hj
    cases hev
    exact .ok [] 0 c rfl (by simpa using hi)
  | leaf i' t us fs h1 h2 ih =>
    intro c j m γ fs0 lg0 as0 i rule vs b ρ lg x hal hi he0 hv hr hd hjm hm hl hb hg hev
    have hal' : Along (rules.map Rule.plain) Q idx input (γ ++ [.tm (.sym (idx t))]) (j + 1) fs := by
      cases hal with | leaf _ _ _ _ _ hal => exact hal
    simp only [leaves, Tree.leaves, List.singleton_append] at hl
    obtain ⟨t', l', k1, k2, k3⟩ := zipIdx_eq_cons hl
    obtain ⟨k4, k5⟩ := Prod.mk.inj k2
    have k5 := k5.symm
    subst k4 k5
    have hjm' : j < m := by
      have := congrArg List.length k1
      simp at this
      omega
    have hl' : l' = (input.take m).drop (j + 1) := by
      have hlt : j < (input.take m).length := by simp; omega
      rw [List.drop_eq_getElem_cons hlt] at k1
      cases k1
      rfl
    have hX : rule.rhs[i.pos]? = some (.tm (.sym (idx t))) := by
      have := congrArg (fun l => l[0]?) hd
      simpa using this
    have hd' : rule.rhs.drop (i.pos + 1) = us ++ vs := by
      have := congrArg List.tail hd
      simpa using this
    have hw : p.tab.walk γ = some c.state := hi.seg.walk
    obtain ⟨s, hs⟩ := (hx.canon.goes γ c.state (.tm (.sym (idx t))) hw).2 ⟨i, rule, hv, hr, hX⟩
    have hact := shift_of_goes hs
    obtain ⟨a, m1, m2, m3, m4⟩ := step_cases hx hi
    have ha : a = .sym (idx t) := m1.unique (Or.inl ⟨t, rfl, h1⟩)
    subst ha
    rcases m4 with ⟨t2, s2, n1, n2, n3, n4, n5⟩ | ⟨r, n1, n2⟩ | ⟨v, n1, _⟩ | ⟨n1, _⟩
    · rw [h1] at n2
      cases n2
      have hv' := Valid.advance _ _ _ _ hv hr hX
      have key : ∀ lg x, Evals rules fs lg x → SimOut Cy p rules idx input start ((fill idx c).shifted idx t j s2) m
          (γ ++ [.tm (.sym (idx t))] ++ us) (fs0 ++ [.leaf j t] ++ fs) (lg0 ++ lg) (as0 ++ [.tok t]) x := by
        intro lg x hev
        exact ih (by simpa [errs, Tree.errs] using he) hal' n5 (by simp [errs_append, he0, errs, Tree.errs]) hv' hr hd' hjm' hm (by rw [k3, hl']) hb hg hev
      have hrun : run idx p 1 c = .more ((fill idx c).shifted idx t j s2) := by simp [run, n4]
      have fin : ∀ {x y lg}, SimOut Cy p rules idx input start ((fill idx c).shifted idx t j s2) m
          (γ ++ [.tm (.sym (idx t))] ++ us) (fs0 ++ [.leaf j t] ++ fs) (lg0 ++ lg) (as0 ++ [.tok t]) x →
          (∀ as, x = .ok as → y = .ok (.tok t :: as)) → (∀ e, x = .error e → y = .error e) →
          SimOut Cy p rules idx input start c m (γ ++ .tm (.sym (idx t)) :: us) (fs0 ++ .leaf j t :: fs) (lg0 ++ lg) as0 y := by
        intro x y lg ho hy1 hy2
        refine SimOut.prepend hrun ?_
        cases ho with
        | ok as n' c' q1 q2 => rw [hy1 as rfl]; exact .ok _ n' c' q1 (by simpa using q2)
        | error e n' c' q1 q2 => rw [hy2 e rfl]; exact .error e n' c' q1 q2
        | early x n' v c' f lg' q1 q2 q3 q4 => exact .early _ n' v c' f lg' q1 q2 q3 q4
      cases hev with
      | leaf _ _ _ _ as hev => exact fin (key _ _ hev) (fun as h => by cases h; rfl) (fun e h => by cases h)
      | leafE _ _ _ _ e hev => exact fin (key _ _ hev) (fun as h => by cases h) (fun e h => by cases h; rfl)
    · rw [hact] at n1; cases n1
    · rw [hact] at n1; cases n1
    · rw [hact] at n1; cases n1
  | err lo l us fs _ _ _ _ => simp [errs, Tree.errs] at he
  | node r rl cs us fs h1 h2 h3 ih1 ih2 =>
    intro c j m γ fs0 lg0 as0 i rule vs b ρ lg x hal hi he0 hv hr hd hjm hm hl hb hg hev
    simp only [errs, Tree.errs, List.append_eq_nil_iff] at he
    obtain ⟨hal1, hal2, hal3⟩ : Along (rules.map Rule.plain) Q idx input γ j cs ∧ Q (γ ++ rl.rhs) r (nextTerm idx input (j + (leaves cs).length)) ∧
        Along (rules.map Rule.plain) Q idx input (γ ++ [.nt rl.lhs]) (j + (leaves cs).length) fs := by
      cases hal with
      | node _ _ _ rl' _ _ k1 k2 k3 k4 => rw [h1] at k1; cases k1; exact ⟨k2, k3, k4⟩
    simp only [leaves, Tree.leaves] at hl
    obtain ⟨hl1, hl2⟩ := zipIdx_eq_append hl
    obtain ⟨hr1, hrs⟩ := aug_get (start := start) (fresh := fresh) h1
    have hlen := congrArg List.length hl
    simp at hlen
    generalize hk : j + (leaves cs).length = k at hl2 hal2 hal3
    have hjk : j ≤ k := by omega
    have hkm : k ≤ m := by omega
    have hl1' : leaves cs = ((input.take k).drop j).zipIdx j := by
      rw [hl1, List.take_drop, hk, List.take_take, Nat.min_eq_left hkm]
    have hl2' : leaves fs = ((input.take m).drop k).zipIdx k := by
      rw [hl2, List.drop_drop, hk]
    obtain ⟨b', hb'⟩ := Ahead.exists (idx := idx) (input := input) (j := k) (by omega)
    have hX : rule.rhs[i.pos]? = some (.nt rl.lhs) := by
      have := congrArg (fun l => l[0]?) hd
      simpa using this
    have hd' : rule.rhs.drop (i.pos + 1) = us ++ vs := by
      have := congrArg List.tail hd
      simpa using this
    have hgen : ∃ ρ', Gen ((gram rules start).aug fresh) (rule.rhs.drop (i.pos + 1) ++ [.tm i.la]) (.tm b' :: ρ') := by
      have hgf := (h3.gen he.2).mono (R' := (gram rules start).aug fresh) (fun r hr => List.mem_append_left _ hr)
      rw [hd', List.append_assoc]
      have hga := Gen.append hgf hg
      cases hlf : leaves fs with
      | nil =>
        have hkm' : k = m := by
          have := congrArg List.length hl2'
          rw [hlf] at this
          simp at this
          omega
        rw [hkm'] at hb'
        have := hb'.unique hb
        subst this
        rw [hlf] at hga
        exact ⟨ρ, by simpa using hga⟩
      | cons y ys =>
        rw [hlf] at hl2'
        obtain ⟨t, l', q1, q2, q3⟩ := zipIdx_eq_cons hl2'
        have hin : input[k]? = some t := by
          have := congrArg (fun l => l[0]?) q1
          simp at this
          rw [List.getElem?_take] at this
          split at this
          · exact this
          · cases this
        have := hb'.unique (Or.inl ⟨t, rfl, hin⟩)
        subst this
        rw [hlf, q2] at hga
        exact ⟨_, by simpa using hga⟩
    obtain ⟨ρ', hgen⟩ := hgen
    have hv1 : Valid ((gram rules start).aug fresh) rules.length γ ⟨r, 0, b'⟩ :=
      .expand γ i rule rl.lhs r rl b' ρ' hv hr hX hr1 rfl (gen_iff.1 hgen)
    have key1 : ∀ lg x, Evals rules cs lg x →
        SimOut Cy p rules idx input start c k (γ ++ rl.rhs) (fs0 ++ cs) (lg0 ++ lg) as0 x := by
      intro lg x hev
      exact ih1 he.1 hal1 hi he0 hv1 hr1 (vs := []) (by simp) hjk (by omega) hl1' hb' (ρ := []) (Gen.refl _) hev
    have hcomp : Complete ((gram rules start).aug fresh) rules.length (γ ++ rl.rhs) r b' := ⟨rl, hr1, hv1.advances hr1⟩
    -- after the children
    have key2 : ∀ {lg1 args n1 c1}, Evals rules cs lg1 (.ok args) → run idx p n1 c = .more c1 →
        Inv p rules idx input c1 k (γ ++ rl.rhs) (fs0 ++ cs) (lg0 ++ lg1) (as0 ++ args) →
        ∀ {rule'}, rules[r]? = some rule' →
        (∀ e, rule'.gen args = .error e →
          SimOut Cy p rules idx input start c m (γ ++ .nt rl.lhs :: us) (fs0 ++ .node r cs :: fs) (lg0 ++ (lg1 ++ [(r, args)])) as0 (.error e)) ∧
        (∀ v, rule'.gen args = .ok v → (∃ n2 c2, run idx p n2 c = .more c2 ∧
            Inv p rules idx input c2 k (γ ++ [.nt rl.lhs]) (fs0 ++ [.node r cs]) (lg0 ++ (lg1 ++ [(r, args)])) (as0 ++ [.nt v])) ∨
          ∀ x lg, SimOut Cy p rules idx input start c m (γ ++ .nt rl.lhs :: us) (fs0 ++ .node r cs :: fs) lg as0 x) := by
      intro lg1 args nk c1 hev1 hrun hi1 rule' hrule'
      obtain ⟨a, m1, m2, m3, m4⟩ := step_cases hx hi1
      have ha := m1.unique hb'
      subst ha
      have hst : (fill idx c1).state = c1.state := by
        unfold fill
        split
        · rfl
        · split <;> rfl
      rcases hnw _ _ r a hi1.seg.walk hrs hcomp (by rw [m1.next]; exact hal2) with hact | ⟨ha, hact⟩
      · rcases m4 with ⟨t2, s2, n1, n2, n3, n4, n5⟩ | ⟨r2, n1, n2⟩ | ⟨v, n1, _⟩ | ⟨n1, _⟩
        · rw [hact] at n3; cases n3
        · rw [hact] at n1
          cases n1
          obtain ⟨rule2, γ2, f0, f1, l0, l1, a0, a1, z1, z2, z3, z4, z5, z6⟩ := m2.reduce hx (a := a) (r := r) (by rw [hst]; exact hact)
          rw [hrule'] at z1
          cases z1
          have hrl : rl = rule'.plain := by
            rw [List.getElem?_map, hrule'] at h1
            cases h1
            rfl
          subst hrl
          have hez : errs f1 = [] := by
            have : errs (fs0 ++ cs) = [] := by rw [errs_append, he0, he.1]; rfl
            rw [z3, errs_append, List.append_eq_nil_iff] at this
            exact this.2
          rcases z6 with ⟨_, _, z6⟩ | ⟨z6, z7, z8, z9, z10⟩
          · exact absurd hez z6
          have hγ : γ = γ2 := List.append_cancel_right z2
          subst hγ
          have hlen1 : cs.length = f1.length := by rw [← h2.length, ← z6.length]; rfl
          obtain ⟨rfl, rfl⟩ := List.append_inj' z3 hlen1
          obtain ⟨rfl, hargs⟩ := z7.unique hev1
          cases hargs
          have hl0 := List.append_cancel_right z4
          have ha0 := List.append_cancel_right z5
          subst hl0 ha0
          constructor
          · intro e hge
            refine SimOut.prepend hrun (.error e 1 _ (by simp only [run, n2, z9 e hge]; rfl) ?_)
            have := (m2.clean (by rw [errs_append, he0, he.1]; rfl)).2.1
            simp only [List.reverse_cons, ← this, List.append_assoc]
          · intro v hgv
            obtain ⟨q, q0, i', st, y1, y2⟩ := z10 v hgv
            left
            refine ⟨nk + 1, _, ?_, y2⟩
            rw [run_add, hrun]
            simp [run, n2, y1]
        · rw [hact] at n1; cases n1
        · rw [hact] at n1; cases n1
      · subst ha
        rcases m4 with ⟨t2, s2, n1, n2, n3, n4, n5⟩ | ⟨r2, n1, n2⟩ | ⟨v, n1, n2, n3, n4, ⟨f, n5⟩, n6, n7⟩ | ⟨n1, _⟩
        · cases n1
        · rw [hact] at n1; cases n1
        · have hcy : Cy := by
            rw [m1.next] at hcomp
            rw [n4] at hcomp hal2
            rw [← m1.next] at hcomp hal2
            exact hcy r hrs hcomp hal2
          have hef : errs [f] = [] := by rw [← n5, errs_append, he0, he.1]; rfl
          rw [n4, n5, n6, n3] at m2
          have : ∀ y lg, SimOut Cy p rules idx input start c m (γ ++ .nt rl.lhs :: us) (fs0 ++ .node r cs :: fs) lg as0 y := by
            intro y lg
            exact SimOut.prepend hrun (.early _ 1 v _ f _ hcy (by simp [run, n7]) m2 hef)
          exact ⟨fun e _ => this _ _, fun v _ => Or.inr this⟩
        · rw [hact] at n1; cases n1
    cases hev with
    | inner _ _ _ e _ hev =>
      have := key1 _ _ hev
      cases this with
      | error e n' c' q1 q2 => exact .error e n' c' q1 q2
      | early x n' v c' f lg' q1 q2 q3 q4 => exact .early _ n' v c' f lg' q1 q2 q3 q4
    | fail _ rule' _ lg1 args e _ q1 q2 q3 =>
      have := key1 _ _ q2
      cases this with
      | ok as n' c' q4 q5 => exact (key2 q2 q4 q5 q1).1 e q3
      | early x n' v c' f lg' q4 q5 q6 q7 => exact .early _ n' v c' f lg' q4 q5 q6 q7
    | node _ rule' _ lg1 args v _ lg2 as q1 q2 q3 q4 =>
      have := key1 _ _ q2
      cases this with
      | early x n' v c' f lg' q4 q5 q6 q7 => exact .early _ n' v c' f lg' q4 q5 q6 q7
      | ok as' n' c' q5 q6 =>
        rcases (key2 q2 q5 q6 q1).2 v q3 with ⟨n2, c2, q7, q8⟩ | q7
        · have := ih2 he.2 hal3 q8 (by simp [errs_append, he0, errs, Tree.errs, he.1]) (Valid.advance _ _ _ _ hv hr hX) hr hd' hkm hm hl2' hb hg q4
          refine SimOut.prepend q7 ?_
          cases this with
          | ok as n' c' z1 z2 => exact .ok _ n' c' z1 (by simpa using z2)
          | early x n' v c' f lg' z1 z2 z3 z4 => exact .early _ n' v c' f lg' z1 z2 z3 z4
        · exact q7 _ _
    | nodeE _ rule' _ lg1 args v _ lg2 e q1 q2 q3 q4 =>
      have := key1 _ _ q2
      cases this with
      | early x n' v c' f lg' q4 q5 q6 q7 => exact .early _ n' v c' f lg' q4 q5 q6 q7
      | ok as' n' c' q5 q6 =>
        rcases (key2 q2 q5 q6 q1).2 v q3 with ⟨n2, c2, q7, q8⟩ | q7
        · have := ih2 he.2 hal3 q8 (by simp [errs_append, he0, errs, Tree.errs, he.1]) (Valid.advance _ _ _ _ hv hr hX) hr hd' hkm hm hl2' hb hg q4
          refine SimOut.prepend q7 ?_
          cases this with
          | error e n' c' z1 z2 => exact .error e n' c' z1 (by simpa using z2)
          | early x n' v c' f lg' z1 z2 z3 z4 => exact .early _ n' v c' f lg' z1 z2 z3 z4
        · exact q7 _ _

end

end Verif.Par
