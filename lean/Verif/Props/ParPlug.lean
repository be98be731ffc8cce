import Verif.Par.PlugProof
import Verif.Props.ParComplete

/-!
# Putting a grammar into another one

C76: the start symbol of one grammar in place of a terminal of another one.
-/

namespace Verif.Par

variable {T : Type}

theorem new_no_clash {o : Seeds} (ho : o.Fair) {g : Gram} (hok : g.Ok) {tab : Tables} (h : NewGives o g (.ok (tab, []))) :
    ¬ Clash (g.aug (freshSym g.rules)) g.rules.length := by
  obtain ⟨fuel, h1, _⟩ := h
  exact (warn_iff (rules'_start g) ((new_spec ho hok fuel).1 tab [] h1).2.1).1 rfl

theorem put_ok {g g' : Gram} {t : Nat} (hok : g.Ok) (hok' : g'.Ok) : (g.put t g').Ok := by
  intro r hr
  rcases List.mem_append.1 hr with hr | hr
  · obtain ⟨r0, h0, rfl⟩ := List.mem_map.1 hr
    intro h
    obtain ⟨X, hX, e⟩ := List.mem_map.1 h
    unfold Sym.put at e
    split at e
    · cases e
    · subst e
      exact hok r0 h0 hX
  · exact hok' r hr

theorem put_closed {g g' : Gram} {t : Nat} (hc : g.Closed) (hc' : g'.Closed) : (g.put t g').Closed := by
  obtain ⟨⟨r, hr, h1⟩, h2⟩ := hc
  have hg' : ∀ r' ∈ g'.rules, r' ∈ (g.put t g').rules := fun r' h => List.mem_append_right _ h
  have hg : ∀ n, (∃ r' ∈ g.rules, r'.lhs = n) → ∃ r' ∈ (g.put t g').rules, r'.lhs = n := by
    rintro n ⟨r', h, rfl⟩
    exact ⟨r'.put t g'.start, List.mem_append_left _ (List.mem_map.2 ⟨r', h, rfl⟩), rfl⟩
  refine ⟨hg _ ⟨r, hr, h1⟩, ?_⟩
  intro r hr n hn
  rcases List.mem_append.1 hr with hr | hr
  · obtain ⟨r0, h0, rfl⟩ := List.mem_map.1 hr
    obtain ⟨X, hX, e⟩ := List.mem_map.1 hn
    unfold Sym.put at e
    split at e
    · obtain rfl := Sym.nt.inj e
      obtain ⟨r', h, e⟩ := hc'.1
      exact ⟨r', hg' r' h, e⟩
    · subst e
      exact hg n (h2 r0 h0 n hX)
  · obtain ⟨r', h, e⟩ := hc'.2 r hr n hn
    exact ⟨r', hg' r' h, e⟩

/-- C76: two grammars without warnings and without common symbols can be put together without a warning, if the inner one
does not derive the empty string and its start symbol not itself, and if in the outer one the terminal never stands behind
itself. -/
theorem c76_no_warnings (o o' o'' : Seeds) (ho : o.Fair) (ho' : o'.Fair) (ho'' : o''.Fair) (g g' : Gram) (t : Nat) (hok : g.Ok) (hok' : g'.Ok)
    (hc : g.Closed) (hc' : g'.Closed) (ha : Apart g g') (hn : ¬ g'.Nullable) (hcy : ¬ g'.Cyclic) (ht : ¬ g.Twice t)
    (tab tab' : Tables) (h : NewGives o g (.ok (tab, []))) (h' : NewGives o' g' (.ok (tab', []))) :
    ∃ tab'', NewGives o'' (g.put t g') (.ok (tab'', [])) := by
  have hokk := put_ok (t := t) hok hok'
  obtain ⟨tab'', ws, h''⟩ := c20_new_no_panic o'' ho'' (g.put t g') hokk (put_closed hc hc')
  obtain ⟨fuel, h1, h2⟩ := h''
  have P : Plugs g g' t (freshSym (g.put t g').rules) (freshSym g.rules) (freshSym g'.rules) :=
    ⟨ha, hok, hok', hc, hc', hn, ht, freshSym_unused _, freshSym_unused _, freshSym_unused _⟩
  obtain rfl := (warn_iff (rules'_start _) ((new_spec ho'' hokk fuel).1 tab'' ws h1).2.1).2
    (P.no_clash hcy (new_no_clash ho hok h) (new_no_clash ho' hok' h'))
  exact ⟨tab'', fuel, h1, h2⟩

/-- C76: its sentences are those of the outer grammar with sentences of the inner one in place of the terminal. -/
theorem c76_sentences (g g' : Gram) (t : Nat) (hc : g.Closed) (hc' : g'.Closed) (ha : Apart g g') (w : List Nat) :
    (g.put t g').Sentence w ↔ ∃ v, g.Sentence v ∧ Filled t g'.Sentence v w :=
  put_sentence ha hc hc' w

/-- C76: if also the start symbol of the outer grammar does not derive itself, then that of the whole does not, and each
sentence has one derivation tree. -/
theorem c76_one_tree (o o' : Seeds) (ho : o.Fair) (ho' : o'.Fair) (g g' : Gram) (t : Nat) (hok : g.Ok) (hok' : g'.Ok)
    (hc : g.Closed) (hc' : g'.Closed) (ha : Apart g g') (hn : ¬ g'.Nullable) (hcy : ¬ g.Cyclic) (hcy' : ¬ g'.Cyclic) (ht : ¬ g.Twice t)
    (tab tab' : Tables) (h : NewGives o g (.ok (tab, []))) (h' : NewGives o' g' (.ok (tab', []))) :
    ¬ (g.put t g').Cyclic ∧ ∀ (idx : T → Nat) (input : List T) (f f' : Tree T), IsTree (g.put t g').rules (g.put t g').start idx input f →
      IsTree (g.put t g').rules (g.put t g').start idx input f' → f = f' := by
  have hk : ¬ (g.put t g').Cyclic := fun h => hcy (put_cyclic ha hc hc' hn h)
  obtain ⟨tab'', h''⟩ := c76_no_warnings o o' o ho ho' ho g g' t hok hok' hc hc' ha hn hcy' ht tab tab' h h'
  exact ⟨hk, fun idx input f f' hf hf' => c25_unambiguous o ho _ (put_ok hok hok') tab'' h'' hk idx input f f' hf hf'⟩

/-- C76: a check that the terminal never stands behind itself. -/
theorem c76_check (g : Gram) (t : Nat) (A : List (Sym × Sym)) (hA : g.neighbours A = true) (hn : (Sym.tm (.sym t), Sym.tm (.sym t)) ∉ A) : ¬ g.Twice t :=
  neighbours_once hA hn

/-! ## Lists of anything -/

/-- `L → L , x | x` -/
def gSep : Gram := ⟨[⟨0, [.nt 0, .tm (.sym 0), .tm (.sym 1)]⟩, ⟨0, [.tm (.sym 1)]⟩], 0⟩

/-- `L → L x ; | ε` -/
def gEach : Gram := ⟨[⟨0, [.nt 0, .tm (.sym 1), .tm (.sym 0)]⟩, ⟨0, []⟩], 0⟩

theorem gSep_once : ¬ gSep.Twice 1 :=
  c76_check gSep 1 [(.nt 0, .tm (.sym 0)), (.tm (.sym 0), .tm (.sym 1)), (.tm (.sym 1), .tm (.sym 0))] (by decide) (by decide)

theorem gEach_once : ¬ gEach.Twice 1 :=
  c76_check gEach 1 [(.nt 0, .tm (.sym 1)), (.tm (.sym 1), .tm (.sym 0)), (.tm (.sym 0), .tm (.sym 1))] (by decide) (by decide)

theorem gSep_gives : ∃ tab, NewGives idSeeds gSep (.ok (tab, [])) := ⟨_, 30, rfl, by simp⟩

theorem gEach_gives : ∃ tab, NewGives idSeeds gEach (.ok (tab, [])) := ⟨_, 30, rfl, by simp⟩

theorem gSep_closed : gSep.Closed := by
  constructor
  · exact ⟨_, List.mem_cons_self, rfl⟩
  · intro r hr n hn
    simp only [gSep, List.mem_cons, List.not_mem_nil, or_false] at hr
    rcases hr with rfl | rfl <;> simp at hn
    subst hn
    exact ⟨_, List.mem_cons_self, rfl⟩

theorem gEach_closed : gEach.Closed := by
  constructor
  · exact ⟨_, List.mem_cons_self, rfl⟩
  · intro r hr n hn
    simp only [gEach, List.mem_cons, List.not_mem_nil, or_false] at hr
    rcases hr with rfl | rfl <;> simp at hn
    subst hn
    exact ⟨_, List.mem_cons_self, rfl⟩

/-- The grammar does not use the non-terminal 0 and the terminals 0 and 1. -/
def Gram.Free (g : Gram) : Prop := ¬ g.Used 0 ∧ ∀ r ∈ g.rules, Sym.tm (.sym 0) ∉ r.rhs ∧ Sym.tm (.sym 1) ∉ r.rhs

theorem Gram.Free.sep {g : Gram} (h : g.Free) : Apart gSep g := by
  constructor
  · rintro n ⟨r, hr, hn⟩
    simp only [gSep, List.mem_cons, List.not_mem_nil, or_false] at hr
    have : n = 0 := by rcases hr with rfl | rfl <;> simp at hn <;> omega
    rw [this]
    exact h.1
  · intro r hr u hu r' hr'
    simp only [gSep, List.mem_cons, List.not_mem_nil, or_false] at hr
    rcases hr with rfl | rfl <;> simp at hu
    · rcases hu with rfl | rfl
      · exact (h.2 r' hr').1
      · exact (h.2 r' hr').2
    · subst hu
      exact (h.2 r' hr').2

theorem Gram.Free.each {g : Gram} (h : g.Free) : Apart gEach g := by
  constructor
  · rintro n ⟨r, hr, hn⟩
    simp only [gEach, List.mem_cons, List.not_mem_nil, or_false] at hr
    have : n = 0 := by rcases hr with rfl | rfl <;> simp at hn <;> omega
    rw [this]
    exact h.1
  · intro r hr u hu r' hr'
    simp only [gEach, List.mem_cons, List.not_mem_nil, or_false] at hr
    rcases hr with rfl | rfl <;> simp at hu
    rcases hu with rfl | rfl
    · exact (h.2 r' hr').2
    · exact (h.2 r' hr').1

theorem gen_words {R : List PRule} {a : List Nat} {w : List Sym} (h : Gen R (a.map fun t => .tm (.sym t)) w) : w = a.map fun t => .tm (.sym t) := by
  induction a generalizing w with
  | nil => exact h.nil_left
  | cons t a ih =>
    obtain ⟨v, rfl, h2⟩ := h.terminal
    rw [ih h2]
    rfl

/-- The sentences of `L → L , x | x`. -/
theorem gSep_sentence (v : List Nat) : gSep.Sentence v ↔ ∃ n, v = 1 :: (List.replicate n [0, 1]).flatten := by
  constructor
  · intro h
    generalize hk : v.length = k
    induction k using Nat.strongRecOn generalizing v with
    | _ k ih =>
    have h := gen_iff.2 h
    generalize hx : v.map (fun a => Sym.tm (.sym a)) = x at h
    obtain e | ⟨r, hr, e, h2⟩ := gen_single h
    · subst e
      cases v with
      | nil => simp at hx
      | cons => simp at hx
    · simp only [gSep, List.mem_cons, List.not_mem_nil, or_false] at hr
      rcases hr with rfl | rfl
      · simp only at h2
        obtain ⟨v1, v2, rfl, h3, h4⟩ := Gen.split (l := [Sym.nt 0]) (l' := [Sym.tm (.sym 0), .tm (.sym 1)]) h2
        have e2 : v2 = [Sym.tm (.sym 0), .tm (.sym 1)] := gen_words (a := [0, 1]) h4
        subst e2
        obtain ⟨w1, w2, rfl, rfl, e4⟩ := List.map_eq_append_iff.1 hx
        obtain rfl : w2 = [0, 1] := by
          match w2, e4 with
          | [a, b], e4 => simpa using e4
        obtain ⟨n, rfl⟩ := ih w1.length (by simp at hk; omega) w1 (gen_iff.1 h3) rfl
        refine ⟨n + 1, ?_⟩
        rw [List.replicate_succ', List.flatten_append]
        simp
      · have := gen_words (a := [1]) h2
        subst this
        refine ⟨0, ?_⟩
        match v, hx with
        | [a], e4 => simpa using e4
  · rintro ⟨n, rfl⟩
    induction n with
    | zero => exact gen_iff.1 (Gen.rule (r := ⟨0, [.tm (.sym 1)]⟩) (by simp [gSep]))
    | succ n ih =>
      rw [List.replicate_succ', List.flatten_append, ← List.cons_append]
      unfold Gram.Sentence
      rw [List.map_append]
      refine gen_iff.1 ((Gen.rule (r := ⟨0, [.nt 0, .tm (.sym 0), .tm (.sym 1)]⟩) (by simp [gSep])).trans ?_)
      exact Gen.append (l := [.nt 0]) (gen_iff.2 ih) (.refl _)

/-- The sentences of `L → L x ; | ε`. -/
theorem gEach_sentence (v : List Nat) : gEach.Sentence v ↔ ∃ n, v = (List.replicate n [1, 0]).flatten := by
  constructor
  · intro h
    generalize hk : v.length = k
    induction k using Nat.strongRecOn generalizing v with
    | _ k ih =>
    have h := gen_iff.2 h
    generalize hx : v.map (fun a => Sym.tm (.sym a)) = x at h
    obtain e | ⟨r, hr, e, h2⟩ := gen_single h
    · subst e
      cases v with
      | nil => simp at hx
      | cons => simp at hx
    · simp only [gEach, List.mem_cons, List.not_mem_nil, or_false] at hr
      rcases hr with rfl | rfl
      · simp only at h2
        obtain ⟨v1, v2, rfl, h3, h4⟩ := Gen.split (l := [Sym.nt 0]) (l' := [Sym.tm (.sym 1), .tm (.sym 0)]) h2
        have e2 : v2 = [Sym.tm (.sym 1), .tm (.sym 0)] := gen_words (a := [1, 0]) h4
        subst e2
        obtain ⟨w1, w2, rfl, rfl, e4⟩ := List.map_eq_append_iff.1 hx
        obtain rfl : w2 = [1, 0] := by
          match w2, e4 with
          | [a, b], e4 => simpa using e4
        obtain ⟨n, rfl⟩ := ih w1.length (by simp at hk; omega) w1 (gen_iff.1 h3) rfl
        refine ⟨n + 1, ?_⟩
        rw [List.replicate_succ', List.flatten_append]
        simp
      · have := gen_words (a := []) h2
        subst this
        exact ⟨0, by simpa using hx⟩
  · rintro ⟨n, rfl⟩
    induction n with
    | zero => exact gen_iff.1 (Gen.rule (r := ⟨0, []⟩) (by simp [gEach]))
    | succ n ih =>
      rw [List.replicate_succ', List.flatten_append]
      unfold Gram.Sentence
      rw [List.map_append]
      refine gen_iff.1 ((Gen.rule (r := ⟨0, [.nt 0, .tm (.sym 1), .tm (.sym 0)]⟩) (by simp [gEach])).trans ?_)
      exact Gen.append (l := [.nt 0]) (gen_iff.2 ih) (.refl _)

theorem filled_cons {t : Nat} {M : List Nat → Prop} {v w : List Nat} : Filled t M (t :: v) w ↔ ∃ u w', M u ∧ Filled t M v w' ∧ w = u ++ w' := by
  constructor
  · intro h
    generalize hv : t :: v = x at h
    cases h with
    | nil => cases hv
    | keep a v w ha _ => obtain ⟨rfl, _⟩ := List.cons.inj hv; exact absurd rfl ha
    | fill u v w hu h => obtain ⟨_, rfl⟩ := List.cons.inj hv; exact ⟨u, w, hu, h, rfl⟩
  · rintro ⟨u, w', h1, h2, rfl⟩
    exact .fill _ _ _ h1 h2

theorem filled_keep {t a : Nat} {M : List Nat → Prop} {v w : List Nat} (ha : a ≠ t) : Filled t M (a :: v) w ↔ ∃ w', Filled t M v w' ∧ w = a :: w' := by
  constructor
  · intro h
    generalize hv : a :: v = x at h
    cases h with
    | nil => cases hv
    | keep a v w _ h => obtain ⟨rfl, rfl⟩ := List.cons.inj hv; exact ⟨w, h, rfl⟩
    | fill u v w hu h => obtain ⟨e, rfl⟩ := List.cons.inj hv; exact absurd e ha
  · rintro ⟨w', h1, rfl⟩
    exact .keep _ _ _ ha h1

theorem filled_nil {t : Nat} {M : List Nat → Prop} {w : List Nat} : Filled t M [] w ↔ w = [] := by
  constructor
  · intro h
    cases h
    rfl
  · rintro rfl
    exact .nil

theorem filled_tail {M : List Nat → Prop} {w : List Nat} (n : Nat) : Filled 1 M (List.replicate n [0, 1]).flatten w ↔
    ∃ us : List (List Nat), us.length = n ∧ (∀ u ∈ us, M u) ∧ w = (us.map (0 :: ·)).flatten := by
  induction n generalizing w with
  | zero =>
    rw [List.replicate_zero, List.flatten_nil, filled_nil]
    constructor
    · rintro rfl
      exact ⟨[], rfl, by simp, rfl⟩
    · rintro ⟨us, h, _, rfl⟩
      rw [List.length_eq_zero_iff.1 h]
      rfl
  | succ n ih =>
    rw [List.replicate_succ, List.flatten_cons]
    simp only [List.cons_append, List.nil_append]
    rw [filled_keep (by decide)]
    constructor
    · rintro ⟨w', h, rfl⟩
      obtain ⟨u, w2, h1, h2, rfl⟩ := filled_cons.1 h
      obtain ⟨us, rfl, h4, rfl⟩ := ih.1 h2
      exact ⟨u :: us, rfl, by simpa using ⟨h1, h4⟩, by simp⟩
    · rintro ⟨us, h1, h2, rfl⟩
      cases us with
      | nil => simp at h1
      | cons u us =>
        refine ⟨u ++ (us.map (0 :: ·)).flatten, filled_cons.2 ⟨u, _, h2 u (by simp), ih.2 ⟨us, by simpa using h1, fun x hx => h2 x (by simp [hx]), rfl⟩, rfl⟩, by simp⟩

theorem filled_each {M : List Nat → Prop} {w : List Nat} (n : Nat) : Filled 1 M (List.replicate n [1, 0]).flatten w ↔
    ∃ us : List (List Nat), us.length = n ∧ (∀ u ∈ us, M u) ∧ w = (us.map (· ++ [0])).flatten := by
  induction n generalizing w with
  | zero =>
    rw [List.replicate_zero, List.flatten_nil, filled_nil]
    constructor
    · rintro rfl
      exact ⟨[], rfl, by simp, rfl⟩
    · rintro ⟨us, h, _, rfl⟩
      rw [List.length_eq_zero_iff.1 h]
      rfl
  | succ n ih =>
    rw [List.replicate_succ, List.flatten_cons]
    simp only [List.cons_append, List.nil_append]
    rw [filled_cons]
    constructor
    · rintro ⟨u, w', h1, h, rfl⟩
      obtain ⟨w2, h2, rfl⟩ := (filled_keep (by decide)).1 h
      obtain ⟨us, rfl, h4, rfl⟩ := ih.1 h2
      exact ⟨u :: us, rfl, by simpa using ⟨h1, h4⟩, by simp⟩
    · rintro ⟨us, h1, h2, rfl⟩
      cases us with
      | nil => simp at h1
      | cons u us =>
        exact ⟨u, 0 :: (us.map (· ++ [0])).flatten, h2 u (by simp),
          (filled_keep (by decide)).2 ⟨_, ih.2 ⟨us, by simpa using h1, fun x hx => h2 x (by simp [hx]), rfl⟩, rfl⟩, by simp⟩

/-- C76: lists with a separator, of anything that has a parser without warnings. -/
theorem c76_separated (o o' : Seeds) (ho : o.Fair) (ho' : o'.Fair) (g : Gram) (hok : g.Ok) (hc : g.Closed) (hf : g.Free) (hn : ¬ g.Nullable)
    (hcy : ¬ g.Cyclic) (tab : Tables) (h : NewGives o g (.ok (tab, []))) :
    (∃ tab', NewGives o' (gSep.put 1 g) (.ok (tab', []))) ∧
    ∀ w, (gSep.put 1 g).Sentence w ↔ ∃ u us, (∀ v ∈ u :: us, g.Sentence v) ∧ w = u ++ (us.map (0 :: ·)).flatten := by
  obtain ⟨tab1, h1⟩ := gSep_gives
  refine ⟨c76_no_warnings idSeeds o o' idSeeds_fair ho ho' gSep g 1 (by decide) hok gSep_closed hc hf.sep hn hcy gSep_once tab1 tab h1 h, ?_⟩
  intro w
  rw [c76_sentences gSep g 1 gSep_closed hc hf.sep]
  constructor
  · rintro ⟨v, h2, h3⟩
    obtain ⟨n, rfl⟩ := (gSep_sentence v).1 h2
    obtain ⟨u, w', k1, k2, rfl⟩ := filled_cons.1 h3
    obtain ⟨us, _, k3, rfl⟩ := (filled_tail n).1 k2
    exact ⟨u, us, by simpa using ⟨k1, k3⟩, rfl⟩
  · rintro ⟨u, us, k, rfl⟩
    exact ⟨_, (gSep_sentence _).2 ⟨us.length, rfl⟩, filled_cons.2 ⟨u, _, k u (by simp), (filled_tail _).2 ⟨us, rfl, fun x hx => k x (by simp [hx]), rfl⟩, rfl⟩⟩

/-- C76: lists with an end mark behind each element. -/
theorem c76_terminated (o o' : Seeds) (ho : o.Fair) (ho' : o'.Fair) (g : Gram) (hok : g.Ok) (hc : g.Closed) (hf : g.Free) (hn : ¬ g.Nullable)
    (hcy : ¬ g.Cyclic) (tab : Tables) (h : NewGives o g (.ok (tab, []))) :
    (∃ tab', NewGives o' (gEach.put 1 g) (.ok (tab', []))) ∧
    ∀ w, (gEach.put 1 g).Sentence w ↔ ∃ us : List (List Nat), (∀ v ∈ us, g.Sentence v) ∧ w = (us.map (· ++ [0])).flatten := by
  obtain ⟨tab1, h1⟩ := gEach_gives
  refine ⟨c76_no_warnings idSeeds o o' idSeeds_fair ho ho' gEach g 1 (by decide) hok gEach_closed hc hf.each hn hcy gEach_once tab1 tab h1 h, ?_⟩
  intro w
  rw [c76_sentences gEach g 1 gEach_closed hc hf.each]
  constructor
  · rintro ⟨v, h2, h3⟩
    obtain ⟨n, rfl⟩ := (gEach_sentence v).1 h2
    obtain ⟨us, _, k3, rfl⟩ := (filled_each n).1 h3
    exact ⟨us, k3, rfl⟩
  · rintro ⟨us, k, rfl⟩
    exact ⟨_, (gEach_sentence _).2 ⟨us.length, rfl⟩, (filled_each _).2 ⟨us, rfl, k, rfl⟩⟩

/-! ## The conditions are needed -/

/-- Both grammars have no warnings, but the whole has. -/
def Spoils (g : Gram) (t : Nat) (g' : Gram) : Prop :=
  (∃ tab, NewGives idSeeds g (.ok (tab, []))) ∧ (∃ tab, NewGives idSeeds g' (.ok (tab, []))) ∧
  ∃ tab ws, NewGives idSeeds (g.put t g') (.ok (tab, ws)) ∧ ws ≠ []

/-- C76: without one of the conditions there are conflicts: `S → x x` with `A → A a | a`; `S → x b | b` with `A → a | ε`;
`S → x b` with `A → A | a`; `S → x a | x` with `A → A a | a`. -/
theorem c76_needed :
    Spoils ⟨[⟨0, [.tm (.sym 1), .tm (.sym 1)]⟩], 0⟩ 1 ⟨[⟨5, [.nt 5, .tm (.sym 5)]⟩, ⟨5, [.tm (.sym 5)]⟩], 5⟩ ∧
    Spoils ⟨[⟨0, [.tm (.sym 1), .tm (.sym 0)]⟩, ⟨0, [.tm (.sym 0)]⟩], 0⟩ 1 ⟨[⟨5, [.tm (.sym 5)]⟩, ⟨5, []⟩], 5⟩ ∧
    Spoils ⟨[⟨0, [.tm (.sym 1), .tm (.sym 0)]⟩], 0⟩ 1 ⟨[⟨5, [.nt 5]⟩, ⟨5, [.tm (.sym 5)]⟩], 5⟩ ∧
    Spoils ⟨[⟨0, [.tm (.sym 1), .tm (.sym 5)]⟩, ⟨0, [.tm (.sym 1)]⟩], 0⟩ 1 ⟨[⟨5, [.nt 5, .tm (.sym 5)]⟩, ⟨5, [.tm (.sym 5)]⟩], 5⟩ := by
  refine ⟨?_, ?_, ?_, ?_⟩ <;> exact ⟨⟨_, 40, rfl, by simp⟩, ⟨_, 40, rfl, by simp⟩, _, _, ⟨40, rfl, by simp⟩, by simp⟩

/-- For example lists of sums `E → E + n | n`. -/
example : (∃ tab', NewGives idSeeds (gSep.put 1 ⟨[⟨5, [.nt 5, .tm (.sym 5), .tm (.sym 6)]⟩, ⟨5, [.tm (.sym 6)]⟩], 5⟩) (.ok (tab', []))) := by
  have hgen : ∃ tab, NewGives idSeeds ⟨[⟨5, [.nt 5, .tm (.sym 5), .tm (.sym 6)]⟩, ⟨5, [.tm (.sym 6)]⟩], 5⟩ (.ok (tab, [])) := ⟨_, 30, rfl, by simp⟩
  obtain ⟨tab, h⟩ := hgen
  have hlen : ∀ w, Derives [⟨5, [.nt 5, .tm (.sym 5), .tm (.sym 6)]⟩, ⟨5, [.tm (.sym 6)]⟩] [.nt 5] w → w = [.nt 5] ∨ Sym.tm (.sym 6) ∈ w := by
    intro w hw
    induction hw with
    | refl => exact .inl rfl
    | step x y r _ hr _ =>
      right
      simp only [List.mem_cons, List.not_mem_nil, or_false] at hr
      rcases hr with rfl | rfl <;> simp
  refine (c76_separated idSeeds idSeeds idSeeds_fair idSeeds_fair _ (by decide) ?_ ?_ ?_ ?_ tab h).1
  · constructor
    · exact ⟨_, List.mem_cons_self, rfl⟩
    · intro r hr n hn
      simp only [List.mem_cons, List.not_mem_nil, or_false] at hr
      rcases hr with rfl | rfl <;> simp at hn
      subst hn
      exact ⟨_, List.mem_cons_self, rfl⟩
  · constructor
    · rintro ⟨r, hr, hn⟩
      simp only [List.mem_cons, List.not_mem_nil, or_false] at hr
      rcases hr with rfl | rfl <;> simp at hn
    · decide
  · intro hn
    rcases hlen _ hn with h | h <;> simp at h
  · rintro ⟨x, r, y, hr, _, hn⟩
    simp only [List.mem_cons, List.not_mem_nil, or_false] at hr
    rcases hr with rfl | rfl
    · have := congrArg List.length hn
      simp at this
      omega
    · have : Sym.tm (.sym 6) ∈ [Sym.nt 5] := by rw [← hn]; simp
      simp at this

end Verif.Par
