import Verif.Par.EmbedAug
import Verif.Props.ParTables
import Verif.Props.ParMachine

/-!
# Names, order and superfluous rules: C59
-/

namespace Verif.Par

variable {N T E : Type} {a b σ : Nat → Nat} {rules rules' : List (Rule N T E)} {start start' : Nat}

/-! ## Specification -/

/-- Two parses are at the same point: both go on, or both are at the end with the same result, having made the same calls
(up to the number of the rule) and having asked the source equally often, or both have panicked. -/
def Alike (σ : Nat → Nat) : Step N T E → Step N T E → Prop
  | .more c, .more c' => c'.log = c.log.map (fun x => (σ x.1, x.2)) ∧ c'.pulls = c.pulls
  | .done x c, .done x' c' => x' = x ∧ c'.log = c.log.map (fun x => (σ x.1, x.2)) ∧ c'.pulls = c.pulls
  | .panic, .panic => True
  | _, _ => False

/-- `U` is the ordered set of the items of `S` with new numbers. -/
def SameState (b σ : Nat → Nat) (S U : State) : Prop :=
  OSet.Sorted U ∧ ∀ i', i' ∈ U ↔ ∃ i ∈ S, i' = ⟨σ i.rule, i.pos, i.la.rename b⟩

/-- The same warning with new numbers. -/
def SameWarning (b σ : Nat → Nat) : Warning → Warning → Prop
  | .shiftReduce S S' r, .shiftReduce U U' r' => SameState b σ S U ∧ SameState b σ S' U' ∧ r' = σ r
  | .reduceReduce S r1 r2, .reduceReduce U r1' r2' => SameState b σ S U ∧ r1' = σ r1 ∧ r2' = σ r2
  | _, _ => False

/-! ## General form -/

theorem EmbM.of_same {fresh fresh' : Nat} (h : SameUpTo a b σ rules start rules' start') (hst : ∃ r ∈ rules, r.lhs = start)
    (hf : ¬ (gram rules start).Used fresh) (hf' : ¬ (gram rules' start').Used fresh') {idx idx' : T → Nat}
    (hi : SameTokens b (gram rules start) idx idx')
    (hord : ∀ γ t r r2, r ≠ rules.length → r2 ≠ rules.length → Complete ((gram rules start).aug fresh) rules.length γ r t →
      Complete ((gram rules start).aug fresh) rules.length γ r2 t → r ≤ r2 → σ r ≤ σ r2) :
    EmbM (fun n => if n = fresh then fresh' else a n) b (withStart σ rules.length rules'.length) (fun n => n = fresh ∨ (gram rules start).InReach n)
      (gram rules start).TermInReach rules rules' ((gram rules start).aug fresh) ((gram rules' start').aug fresh') rules.length rules'.length
      start start' idx idx' := by
  have hemb := h.emb hst hf hf'
  have hstart : start ≠ fresh := by
    rintro rfl
    obtain ⟨r, hr, e⟩ := hst
    exact hf ⟨r.plain, List.mem_map_of_mem hr, .inl e⟩
  have hplain : ∀ (i : Nat) (r : Rule N T E), rules[i]? = some r → ((gram rules start).aug fresh)[i]? = some r.plain := by
    intro i r hr
    have hlt := (List.getElem?_eq_some_iff.1 hr).1
    rw [Gram.aug, List.getElem?_append_left (by simpa [gram] using hlt)]
    simp [gram, hr]
  refine ⟨hemb, hplain, ?_, ?_, .inr (Gram.InReach.begin (g := gram rules start)), hi, ?_⟩
  · intro i r hr hn
    have hlt := (List.getElem?_eq_some_iff.1 hr).1
    have hre : (gram rules start).InReach r.lhs := by
      rcases hn with hn | hn
      · exact absurd ⟨r.plain, List.mem_map_of_mem (List.mem_of_getElem? hr), .inl hn⟩ hf
      · exact hn
    have e1 := h.there i r hr hre
    have e2 := hemb.there i r.plain (hplain i r hr) hn
    have hw : withStart σ rules.length rules'.length i = σ i := by simp [withStart, Nat.ne_of_lt hlt]
    rw [hw] at e2 ⊢
    have e3 : ((gram rules' start').aug fresh')[σ i]? = some (r.rename a b).plain := by
      have hlt' := (List.getElem?_eq_some_iff.1 e1).1
      rw [Gram.aug, List.getElem?_append_left (by simpa [gram] using hlt')]
      simp [gram, e1]
    rw [e3] at e2
    rw [e1]
    simp only [Option.some.injEq, Rule.plain, Rule.rename, PRule.rename, PRule.mk.injEq] at e2 ⊢
    obtain ⟨e2, e4⟩ := e2
    rw [Rule.mk.injEq]
    exact ⟨e2, e4, rfl⟩
  · rw [h.begins]; exact (if_neg hstart).symm
  · intro γ t r r2 h1 h2 h3 h4 h5
    rw [(h.complete_rule hst hf hf' h1 h3).2, (h.complete_rule hst hf hf' h2 h4).2]
    exact hord γ t r r2 h1 h2 h3 h4 h5

theorem Rule.rename_id (r : Rule N T E) : r.rename id id = r := by
  have : Sym.rename id id = id := by
    funext X
    match X with
    | .nt n => rfl
    | .tm (.sym t) => rfl
    | .tm .err => rfl
    | .tm .eoi => rfl
  simp [Rule.rename, this]

theorem Emb.sameState {Nm Tm : Nat → Prop} {R R' : List PRule} {s s' : Nat} (h : Emb a b σ Nm Tm R R' s s') {γ : List Sym}
    (hγ : ∀ X ∈ γ, X.Good Nm Tm) {S U : State} (hS : ItemsOf R s γ S) :
    SameState b σ S U ↔ ItemsOf R' s' (γ.map (Sym.rename a b)) U := by
  constructor
  · rintro ⟨h1, h2⟩
    refine ⟨h1, fun i' => ?_⟩
    rw [h2, h.valid_iff hγ]
    constructor
    · rintro ⟨i, hi, rfl⟩; exact ⟨i, rfl, (hS.2 i).1 hi⟩
    · rintro ⟨i, rfl, hi⟩; exact ⟨i, (hS.2 i).2 hi, rfl⟩
  · intro hU
    exact ⟨hU.1, fun i' => h.itemsOf hγ hS hU i'⟩

theorem Emb.warnings {Nm Tm : Nat → Prop} {R R' : List PRule} {s s' : Nat} (h : Emb a b σ Nm Tm R R' s s') {r0 : PRule} (hs : R[s]? = some r0)
    {ws ws' : List Warning} (hw : WarnExact R s ws) (hw' : WarnExact R' s' ws')
    (hord : ∀ γ t r r2, r ≠ s → r2 ≠ s → Complete R s γ r t → Complete R s γ r2 t → r < r2 → σ r < σ r2) (w' : Warning) :
    w' ∈ ws' ↔ ∃ w ∈ ws, SameWarning b σ w w' := by
  have hordi : ∀ γ t r r2, r ≠ s → r2 ≠ s → Complete R s γ r t → Complete R s γ r2 t → (σ r < σ r2 ↔ r < r2) := by
    intro γ t r r2 h1 h2 h3 h4
    refine ⟨fun hlt => ?_, hord γ t r r2 h1 h2 h3 h4⟩
    rcases Nat.lt_trichotomy r r2 with hc | rfl | hc
    · exact hc
    · omega
    · have := hord γ t r2 r h2 h1 h4 h3 hc
      omega
  have sr : ∀ γ t r S S' U U', ItemsOf R s γ S → ItemsOf R s (γ ++ [.tm t]) S' → Complete R s γ r t →
      ((SameState b σ S U ∧ SameState b σ S' U') ↔
        (ItemsOf R' s' (γ.map (Sym.rename a b)) U ∧ ItemsOf R' s' (γ.map (Sym.rename a b) ++ [.tm (t.rename b)]) U')) := by
    intro γ t r S S' U U' hS hS' hc
    obtain ⟨hγ, ht⟩ := h.complete_good hc
    rw [h.sameState hγ hS, h.sameState (γ := γ ++ [.tm t]) ?_ hS']
    · simp [Sym.rename]
    · intro X hX
      simp only [List.mem_append, List.mem_singleton] at hX
      rcases hX with hX | rfl
      · exact hγ X hX
      · exact ht
  constructor
  · intro hm
    cases w' with
    | shiftReduce U U' r' =>
      obtain ⟨γ', t', hU, hU', h1, h2, h3⟩ := (hw'.shiftReduce U U' r').1 hm
      obtain ⟨γ, r, t, rfl, rfl, rfl, hc⟩ := h.complete_back h2
      obtain ⟨hγ, ht⟩ := h.complete_good hc
      obtain ⟨S, hS⟩ := itemsOf_exists hs γ
      obtain ⟨S', hS'⟩ := itemsOf_exists hs (γ ++ [.tm t])
      have e := (sr γ t r S S' U U' hS hS' hc).2 ⟨hU, hU'⟩
      exact ⟨.shiftReduce S S' r, (hw.shiftReduce S S' r).2 ⟨γ, t, hS, hS', (h.σ_ne hc).1 h1, hc, (h.expects_ren hγ ht).1 h3⟩, e.1, e.2, rfl⟩
    | reduceReduce U r1' r2' =>
      obtain ⟨γ', t', hU, h1, h2, h3, h4, h5, h6, h7⟩ := (hw'.reduceReduce U r1' r2').1 hm
      obtain ⟨γ, r, t, rfl, rfl, rfl, hc⟩ := h.complete_back h4
      obtain ⟨hγ, ht⟩ := h.complete_good hc
      obtain ⟨r2, rfl, hc2⟩ := (h.complete_ren hγ ht).1 h5
      obtain ⟨S, hS⟩ := itemsOf_exists hs γ
      have n1 := (h.σ_ne hc).1 h1
      have n2 := (h.σ_ne hc2).1 h2
      refine ⟨.reduceReduce S r r2, (hw.reduceReduce S r r2).2 ⟨γ, t, hS, n1, n2, (hordi γ t r r2 n1 n2 hc hc2).1 h3, hc, hc2,
        fun he => h6 ((h.expects_ren hγ ht).2 he), ?_⟩, (h.sameState hγ hS).2 hU, rfl, rfl⟩
      intro r3 n3 hc3
      have := h7 (σ r3) ((h.σ_ne hc3).2 n3) ((h.complete_ren hγ ht).2 ⟨r3, rfl, hc3⟩)
      rcases Nat.lt_or_ge r3 r with hlt | hge
      · have := hord γ t r3 r n3 n1 hc3 hc hlt
        omega
      · exact hge
  · rintro ⟨w, hm, hsw⟩
    match w, w', hsw with
    | .shiftReduce S S' r, .shiftReduce U U' r', ⟨e1, e2, e3⟩ =>
      subst e3
      obtain ⟨γ, t, hS, hS', h1, hc, h3⟩ := (hw.shiftReduce S S' r).1 hm
      obtain ⟨hγ, ht⟩ := h.complete_good hc
      obtain ⟨e1, e2⟩ := (sr γ t r S S' U U' hS hS' hc).1 ⟨e1, e2⟩
      exact (hw'.shiftReduce U U' _).2 ⟨_, _, e1, e2, (h.σ_ne hc).2 h1, (h.complete_ren hγ ht).2 ⟨r, rfl, hc⟩, (h.expects_ren hγ ht).2 h3⟩
    | .reduceReduce S r r2, .reduceReduce U r' r2', ⟨e1, e2, e3⟩ =>
      subst e2 e3
      obtain ⟨γ, t, hS, h1, h2, h3, hc, hc2, h6, h7⟩ := (hw.reduceReduce S r r2).1 hm
      obtain ⟨hγ, ht⟩ := h.complete_good hc
      refine (hw'.reduceReduce U _ _).2 ⟨_, t.rename b, (h.sameState hγ hS).1 e1, (h.σ_ne hc).2 h1, (h.σ_ne hc2).2 h2, hord γ t r r2 h1 h2 hc hc2 h3,
        (h.complete_ren hγ ht).2 ⟨r, rfl, hc⟩, (h.complete_ren hγ ht).2 ⟨r2, rfl, hc2⟩, fun he => h6 ((h.expects_ren hγ ht).1 he), ?_⟩
      intro r3' n3 hc3'
      obtain ⟨r3, rfl, hc3⟩ := (h.complete_ren hγ ht).1 hc3'
      have n3' := (h.σ_ne hc3).1 n3
      rcases Nat.lt_or_eq_of_le (h7 r3 n3' hc3) with hlt | rfl
      · exact Nat.le_of_lt (hord γ t r r3 h1 n3' hc hc3 hlt)
      · exact Nat.le_refl _

theorem MStep.calls_lt {R : List PRule} {s : Nat} {idx : T → Nat} {input : List T} {m : Mach N T} {x : MOut N T E}
    (h : MStep rules R s start idx input m x) (hm : ∀ y ∈ m.calls, y.1 < rules.length) :
    ∀ m', (x = .more m' ∨ ∃ z, x = .done z m') → ∀ y ∈ m'.calls, y.1 < rules.length := by
  intro m' e
  cases h with
  | reduce r rule ps cs v _ hr =>
    rcases e with e | ⟨z, e⟩ <;> cases e
    intro y hy
    simp only [List.mem_append, List.mem_singleton] at hy
    rcases hy with hy | rfl
    · exact hm y hy
    · exact (List.getElem?_eq_some_iff.1 hr).1
  | fail r rule ps cs v _ hr =>
    rcases e with e | ⟨z, e⟩ <;> cases e
    intro y hy
    simp only [List.mem_append, List.mem_singleton] at hy
    rcases hy with hy | rfl
    · exact hm y hy
    · exact (List.getElem?_eq_some_iff.1 hr).1
  | _ => rcases e with e | ⟨z, e⟩ <;> cases e <;> exact hm

theorem MRun.calls_lt {R : List PRule} {s : Nat} {idx : T → Nat} {input : List T} {n : Nat} {m : Mach N T} {x : MOut N T E}
    (h : MRun rules R s start idx input n m x) (hm : ∀ y ∈ m.calls, y.1 < rules.length) :
    ∀ m', (x = .more m' ∨ ∃ z, x = .done z m') → ∀ y ∈ m'.calls, y.1 < rules.length := by
  induction h with
  | zero m => rintro m' (e | ⟨z, e⟩) <;> cases e; exact hm
  | more n m m' o hs _ ih => exact ih (hs.calls_lt hm m' (.inl rfl))
  | done n m x m' hs => exact hs.calls_lt hm
  | panic n m hs => rintro m' (e | ⟨z, e⟩) <;> cases e

theorem alike_of_machine {fresh fresh' : Nat} {p p' : Parser N T E} {idx idx' : T → Nat} {input : List T} {n : Nat}
    (hM : EmbM (fun n => if n = fresh then fresh' else a n) b (withStart σ rules.length rules'.length)
      (fun n => n = fresh ∨ (gram rules start).InReach n) (gram rules start).TermInReach rules rules' ((gram rules start).aug fresh)
      ((gram rules' start').aug fresh') rules.length rules'.length start start' idx idx')
    (h1 : ∃ x, MRun rules ((gram rules start).aug fresh) rules.length start idx input n Mach.init x)
    (h2 : ∀ x, MRun rules ((gram rules start).aug fresh) rules.length start idx input n Mach.init x →
        Agree (run idx p n (Cfg.init p input)) x)
    (h2' : ∀ x, MRun rules' ((gram rules' start').aug fresh') rules'.length start' idx' input n Mach.init x →
        Agree (run idx' p' n (Cfg.init p' input)) x) :
    Alike σ (run idx p n (Cfg.init p input)) (run idx' p' n (Cfg.init p' input)) := by
  obtain ⟨x, hx⟩ := h1
  have g1 := h2 x hx
  have hx' := hM.run EmbM.init_good hx
  rw [EmbM.init_ren] at hx'
  have g2 := h2' _ hx'
  have hlt := hx.calls_lt (by simp [Mach.init])
  have hlog : ∀ {l l' : List (Call N T)} {m : Mach N T}, (∀ x ∈ m.calls, x.1 < rules.length) → l.reverse = m.calls →
      l'.reverse = (m.rename (fun n => if n = fresh then fresh' else a n) (withStart σ rules.length rules'.length)).calls →
      l' = l.map fun x => (σ x.1, x.2) := by
    intro l l' m hl e e'
    simp only [Mach.rename, ← e] at e'
    rw [List.map_reverse] at e'
    rw [List.reverse_inj.1 e']
    apply List.map_congr_left
    intro x hx
    have := hl x (by rw [← e]; simpa using hx)
    simp [withStart, Nat.ne_of_lt this]
  generalize hr : run idx p n (Cfg.init p input) = y at g1
  generalize hr' : run idx' p' n (Cfg.init p' input) = y' at g2
  cases x with
  | more m =>
    cases y <;> cases y' <;> first | exact absurd g1 id | exact absurd g2 id | skip
    exact ⟨hlog (hlt _ (.inl rfl)) g1.1 g2.1, by rw [g2.2, g1.2]; rfl⟩
  | done z m =>
    cases y <;> cases y' <;> first | exact absurd g1 id | exact absurd g2 id | skip
    exact ⟨by rw [g2.1, g1.1], hlog (hlt _ (.inr ⟨_, rfl⟩)) g1.2.1 g2.2.1, by rw [g2.2.2, g1.2.2]; rfl⟩
  | panic =>
    cases y <;> cases y' <;> first | exact absurd g1 id | exact absurd g2 id | skip
    trivial

/-- C59, general form: two grammars that, as far as they can be reached from the start symbols, are the same but for the
names of non-terminals, the numbers of terminals and the places of rules.  `new` panics for both or for neither, and gives
warnings for both or for neither.  If the order of rules is kept, or if there are no warnings, the two parsers do the same
in every round on every input: the same calls with the same arguments, the same result, the same reading. -/
theorem c59_same (o o' : Seeds) (ho : o.Fair) (ho' : o'.Fair) (hok : (gram rules start).Ok) (hok' : (gram rules' start').Ok)
    (hst : ∃ r ∈ rules, r.lhs = start) (h : SameUpTo a b σ rules start rules' start') :
    (NewGives o (gram rules start) .panic ↔ NewGives o' (gram rules' start') .panic) ∧
    ∀ p ws p' ws', MakesParser o rules start p ws → MakesParser o' rules' start' p' ws' →
      (ws = [] ↔ ws' = []) ∧
      (KeepsOrder σ (gram rules start) ∨ ws = [] → ∀ idx idx' : T → Nat, SameTokens b (gram rules start) idx idx' →
        ∀ input n, Alike σ (run idx p n (Cfg.init p input)) (run idx' p' n (Cfg.init p' input))) := by
  have hlen : (gram rules start).rules.length = rules.length := by simp [gram]
  have hlen' : (gram rules' start').rules.length = rules'.length := by simp [gram]
  constructor
  · obtain ⟨f, hf, e⟩ := c20_new_panics_iff o ho (gram rules start) hok
    obtain ⟨f', hf', e'⟩ := c20_new_panics_iff o' ho' (gram rules' start') hok'
    rw [e, e', hlen, hlen']
    exact (h.emb hst hf hf').stuck
  · intro p ws p' ws' hp hp'
    obtain ⟨f, hf, _, hw⟩ := c22_warnings_exact o ho _ hok _ _ hp.1
    obtain ⟨f', hf', _, hw'⟩ := c22_warnings_exact o' ho' _ hok' _ _ hp'.1
    rw [hlen] at hw
    rw [hlen'] at hw'
    have hs : ((gram rules start).aug f)[rules.length]? = some ⟨f, [.nt start]⟩ := by simp [Gram.aug, gram]
    have hs' : ((gram rules' start').aug f')[rules'.length]? = some ⟨f', [.nt start']⟩ := by simp [Gram.aug, gram]
    refine ⟨?_, ?_⟩
    · rw [warn_iff hs hw, warn_iff hs' hw', (h.emb hst hf hf').clash]
    · intro hor idx idx' hi input n
      obtain ⟨g, hg, hm⟩ := c42_machine o ho rules start hok p ws hp
      obtain ⟨g', hg', hm'⟩ := c42_machine o' ho' rules' start' hok' p' ws' hp'
      refine alike_of_machine (EmbM.of_same h hst hg hg' hi ?_) (hm idx input n).1 (hm idx input n).2 (hm' idx' input n).2
      intro γ t r r2 h1 h2 h3 h4 h5
      rcases hor with hor | rfl
      · rcases Nat.lt_or_eq_of_le h5 with h5 | rfl
        · exact Nat.le_of_lt (hor r r2 (h.complete_rule hst hg hg' h1 h3).1 (h.complete_rule hst hg hg' h2 h4).1 h5)
        · exact Nat.le_refl _
      · obtain ⟨g2, hg2, hw2⟩ : ∃ g2, ¬ (gram rules start).Used g2 ∧ WarnExact ((gram rules start).aug g2) rules.length [] := ⟨f, hf, hw⟩
        have hid : SameUpTo id id id rules start rules start := by
          refine ⟨rfl, ?_, ?_, fun _ _ _ _ e => e, fun _ _ _ _ e => e, fun _ _ _ _ e => e⟩
          · intro i r hr _
            show rules[i]? = _
            rw [hr]
            rw [Rule.rename_id]
          · intro j r hr hre
            exact ⟨j, ⟨r.plain, by simp [gram, hr], hre⟩, rfl⟩
        have hE := hid.emb hst hg hg2
        obtain ⟨hγ, ht⟩ := hE.complete_good h3
        have k1 := (hE.complete_ren hγ ht).2 ⟨r, rfl, h3⟩
        have k2 := (hE.complete_ren hγ ht).2 ⟨r2, rfl, h4⟩
        have hs2 : ((gram rules start).aug g2)[rules.length]? = some ⟨g2, [.nt start]⟩ := by simp [Gram.aug, gram]
        have e := (no_clash hs2 hw2 _ _ _ ((hE.σ_ne h3).2 h1) k1).2 _ ((hE.σ_ne h4).2 h2) k2
        simp only [withStart, if_neg h1, if_neg h2, id] at e
        rw [e]
        exact Nat.le_refl _

/-- C59: if the order of rules is kept, the warnings are the same, too. -/
theorem c59_warnings (o o' : Seeds) (ho : o.Fair) (ho' : o'.Fair) (hok : (gram rules start).Ok) (hok' : (gram rules' start').Ok)
    (hst : ∃ r ∈ rules, r.lhs = start) (h : SameUpTo a b σ rules start rules' start') (hord : KeepsOrder σ (gram rules start))
    (p p' : Parser N T E) (ws ws' : List Warning) (hp : MakesParser o rules start p ws) (hp' : MakesParser o' rules' start' p' ws') (w' : Warning) :
    w' ∈ ws' ↔ ∃ w ∈ ws, SameWarning b (withStart σ rules.length rules'.length) w w' := by
  have hlen : (gram rules start).rules.length = rules.length := by simp [gram]
  have hlen' : (gram rules' start').rules.length = rules'.length := by simp [gram]
  obtain ⟨f, hf, _, hw⟩ := c22_warnings_exact o ho _ hok _ _ hp.1
  obtain ⟨f', hf', _, hw'⟩ := c22_warnings_exact o' ho' _ hok' _ _ hp'.1
  rw [hlen] at hw
  rw [hlen'] at hw'
  have hs : ((gram rules start).aug f)[rules.length]? = some ⟨f, [.nt start]⟩ := by simp [Gram.aug, gram]
  refine (h.emb hst hf hf').warnings hs hw hw' ?_ w'
  intro γ t r r2 h1 h2 h3 h4 hlt
  obtain ⟨k1, e1⟩ := h.complete_rule hst hf hf' h1 h3
  obtain ⟨k2, e2⟩ := h.complete_rule hst hf hf' h2 h4
  rw [e1, e2]
  exact hord r r2 k1 k2 hlt

/-! ## Outcomes -/

/-- What `Alike` in every round means for whole parses. -/
theorem alike_outcomes {p p' : Parser N T E} {idx idx' : T → Nat} {input : List T}
    (h : ∀ n, Alike σ (run idx p n (Cfg.init p input)) (run idx' p' n (Cfg.init p' input))) :
    (∀ x calls k, (∃ c, ParsesTo idx' p' input x c ∧ c.log.reverse = calls ∧ c.pulls = k) ↔
      ∃ c, ParsesTo idx p input x c ∧ (c.log.reverse.map fun y => (σ y.1, y.2)) = calls ∧ c.pulls = k) ∧
    (ParsePanics idx' p' input ↔ ParsePanics idx p input) ∧ (ParseDiverges idx' p' input ↔ ParseDiverges idx p input) := by
  refine ⟨fun x calls k => ⟨?_, ?_⟩, ⟨?_, ?_⟩, ⟨?_, ?_⟩⟩
  · rintro ⟨c', ⟨n, hn⟩, rfl, rfl⟩
    have := h n
    rw [hn] at this
    cases hr : run idx p n (Cfg.init p input) with
    | more c => rw [hr] at this; exact absurd this id
    | panic => rw [hr] at this; exact absurd this id
    | done y c =>
      rw [hr] at this
      obtain ⟨rfl, h1, h2⟩ := this
      exact ⟨c, ⟨n, hr⟩, by rw [h1, List.map_reverse], h2.symm⟩
  · rintro ⟨c, ⟨n, hn⟩, rfl, rfl⟩
    have := h n
    rw [hn] at this
    cases hr : run idx' p' n (Cfg.init p' input) with
    | more c => rw [hr] at this; exact absurd this id
    | panic => rw [hr] at this; exact absurd this id
    | done y c' =>
      rw [hr] at this
      obtain ⟨rfl, h1, h2⟩ := this
      exact ⟨c', ⟨n, hr⟩, by rw [h1, List.map_reverse], h2⟩
  · rintro ⟨n, hn⟩
    have := h n
    rw [hn] at this
    cases hr : run idx p n (Cfg.init p input) with
    | more c => rw [hr] at this; exact absurd this id
    | panic => exact ⟨n, hr⟩
    | done y c => rw [hr] at this; exact absurd this id
  · rintro ⟨n, hn⟩
    have := h n
    rw [hn] at this
    cases hr : run idx' p' n (Cfg.init p' input) with
    | more c => rw [hr] at this; exact absurd this id
    | panic => exact ⟨n, hr⟩
    | done y c => rw [hr] at this; exact absurd this id
  · intro hd n
    obtain ⟨c', hn⟩ := hd n
    have := h n
    rw [hn] at this
    cases hr : run idx p n (Cfg.init p input) with
    | more c => exact ⟨c, rfl⟩
    | panic => rw [hr] at this; exact absurd this id
    | done y c => rw [hr] at this; exact absurd this id
  · intro hd n
    obtain ⟨c', hn⟩ := hd n
    have := h n
    rw [hn] at this
    cases hr : run idx' p' n (Cfg.init p' input) with
    | more c => exact ⟨c, rfl⟩
    | panic => rw [hr] at this; exact absurd this id
    | done y c => rw [hr] at this; exact absurd this id

/-- The two parsers end with the same results after the same calls and the same reading, panic on the same inputs, and
run forever on the same inputs. -/
def SameParsing (σ : Nat → Nat) (idx idx' : T → Nat) (p p' : Parser N T E) : Prop := ∀ input,
  (∀ x calls k, (∃ c, ParsesTo idx' p' input x c ∧ c.log.reverse = calls ∧ c.pulls = k) ↔
    ∃ c, ParsesTo idx p input x c ∧ (c.log.reverse.map fun y => (σ y.1, y.2)) = calls ∧ c.pulls = k) ∧
  (ParsePanics idx' p' input ↔ ParsePanics idx p input) ∧ (ParseDiverges idx' p' input ↔ ParseDiverges idx p input)

/-- C59 for whole parses. -/
theorem c59_outcomes (o o' : Seeds) (ho : o.Fair) (ho' : o'.Fair) (hok : (gram rules start).Ok) (hok' : (gram rules' start').Ok)
    (hst : ∃ r ∈ rules, r.lhs = start) (h : SameUpTo a b σ rules start rules' start') (p p' : Parser N T E) (ws ws' : List Warning)
    (hp : MakesParser o rules start p ws) (hp' : MakesParser o' rules' start' p' ws') (hor : KeepsOrder σ (gram rules start) ∨ ws = [])
    (idx idx' : T → Nat) (hi : SameTokens b (gram rules start) idx idx') : SameParsing σ idx idx' p p' := fun input =>
  alike_outcomes fun n => ((c59_same o o' ho ho' hok hok' hst h).2 p ws p' ws' hp hp').2 hor idx idx' hi input n

/-! ## Renumbering -/

theorem ok_ren (hok : (gram rules start).Ok) : (gram (rules.map (Rule.rename a b)) (a start)).Ok := by
  intro r hr he
  simp only [gram, List.map_map, List.mem_map] at hr
  obtain ⟨r0, hr0, rfl⟩ := hr
  simp only [Function.comp, Rule.plain, Rule.rename, List.mem_map] at he
  obtain ⟨X, hX, e⟩ := he
  match X, hX, e with
  | .tm .eoi, hX, _ => exact hok r0.plain (List.mem_map_of_mem hr0) hX

theorem sameUpTo_ren (ha : Function.Injective a) (hb : Function.Injective b) (rules : List (Rule N T E)) (start : Nat) :
    SameUpTo a b id rules start (rules.map (Rule.rename a b)) (a start) := by
  have hR : ∀ n', (gram (rules.map (Rule.rename a b)) (a start)).InReach n' → ∃ n, n' = a n ∧ (gram rules start).InReach n := by
    rintro n' ⟨x', y', hd⟩
    have key : ∀ v', Derives (gram (rules.map (Rule.rename a b)) (a start)).rules [.nt (a start)] v' →
        ∃ v, v' = v.map (Sym.rename a b) ∧ Derives (gram rules start).rules [.nt start] v := by
      intro v' hd
      generalize hu : [Sym.nt (a start)] = u at hd
      induction hd with
      | refl => subst hu; exact ⟨[.nt start], rfl, .refl _⟩
      | step x y r _ hr ih =>
        obtain ⟨v, e, hv⟩ := ih
        simp only [gram, List.map_map, List.mem_map] at hr
        obtain ⟨r0, hr0, rfl⟩ := hr
        obtain ⟨x0, z0, rfl, rfl, e2⟩ := List.map_eq_append_iff.1 e.symm
        obtain ⟨X, y0, rfl, e3, rfl⟩ := List.map_eq_cons_iff.1 e2
        cases X with
        | tm t => simp [Sym.rename] at e3
        | nt n =>
          simp only [Sym.rename, Function.comp, Rule.plain, Rule.rename, Sym.nt.injEq] at e3
          have := ha e3
          subst this
          refine ⟨x0 ++ r0.rhs ++ y0, by simp [Function.comp, Rule.plain, Rule.rename], ?_⟩
          exact Derives.step _ x0 y0 r0.plain hv (List.mem_map_of_mem hr0)
    obtain ⟨v, e, hv⟩ := key _ hd
    obtain ⟨x0, z0, rfl, rfl, e2⟩ := List.map_eq_append_iff.1 e.symm
    obtain ⟨X, y0, rfl, e3, rfl⟩ := List.map_eq_cons_iff.1 e2
    cases X with
    | tm t => simp [Sym.rename] at e3
    | nt n =>
      simp only [Sym.rename, Sym.nt.injEq] at e3
      exact ⟨n, e3.symm, x0, y0, hv⟩
  refine ⟨rfl, ?_, ?_, fun m n _ _ e => ha e, fun x y _ _ e => hb e, fun _ _ _ _ e => e⟩
  · intro i r hr _
    simp [hr]
  · intro j r' hj hre
    simp only [List.getElem?_map, Option.map_eq_some_iff] at hj
    obtain ⟨r, hr, rfl⟩ := hj
    obtain ⟨n, e, hn⟩ := hR _ hre
    have := ha e
    subst this
    exact ⟨j, ⟨r.plain, by simp [gram, hr], hn⟩, rfl⟩

/-- C59: the numbers that `syntax!` or the caller gives to non-terminals and terminals have no influence on parsing. -/
theorem c59_renumber (o o' : Seeds) (ho : o.Fair) (ho' : o'.Fair) (hok : (gram rules start).Ok) (hst : ∃ r ∈ rules, r.lhs = start)
    (ha : Function.Injective a) (hb : Function.Injective b) (p p' : Parser N T E) (ws ws' : List Warning)
    (hp : MakesParser o rules start p ws) (hp' : MakesParser o' (rules.map (Rule.rename a b)) (a start) p' ws') (idx : T → Nat) :
    SameParsing id idx (fun t => b (idx t)) p p' :=
  c59_outcomes o o' ho ho' hok (ok_ren hok) hst (sameUpTo_ren ha hb rules start) p p' ws ws' hp hp' (.inl fun _ _ _ _ h => h) idx _
    fun _ _ _ => ⟨fun e => hb e, fun e => by rw [e]⟩

/-! ## Rules out of reach -/

theorem inReach_sub {rules rules' : List (Rule N T E)} (h : ∀ r ∈ rules', (gram rules start).InReach r.lhs → r ∈ rules) {n : Nat}
    (hn : (gram rules' start).InReach n) : (gram rules start).InReach n := by
  obtain ⟨x, y, hd⟩ := hn
  refine ⟨x, y, ?_⟩
  generalize hv : x ++ Sym.nt n :: y = v at hd
  clear hv
  show Derives _ [.nt start] v
  change Derives (gram rules' start).rules [.nt start] v at hd
  generalize hu : [Sym.nt start] = u at hd
  induction hd with
  | refl => exact .refl _
  | step x y r _ hr ih =>
    refine Derives.step _ x y r ih ?_
    simp only [gram, List.mem_map] at hr
    obtain ⟨r0, hr0, rfl⟩ := hr
    subst hu
    exact List.mem_map_of_mem (h r0 hr0 ⟨x, y, ih⟩)

theorem sameUpTo_dead {xs dead ys : List (Rule N T E)} (hd : ∀ r ∈ dead, ¬ (gram (xs ++ ys) start).InReach r.lhs) :
    SameUpTo id id (fun i => if i < xs.length then i else i + dead.length) (xs ++ ys) start (xs ++ dead ++ ys) start := by
  have hback : ∀ {n}, (gram (xs ++ dead ++ ys) start).InReach n → (gram (xs ++ ys) start).InReach n := by
    intro n hn
    refine inReach_sub ?_ hn
    intro r hr hre
    simp only [List.mem_append] at hr ⊢
    rcases hr with (hr | hr) | hr
    · exact .inl hr
    · exact absurd hre (hd r hr)
    · exact .inr hr
  have hget : ∀ i, i < xs.length + ys.length → (xs ++ dead ++ ys)[if i < xs.length then i else i + dead.length]? = (xs ++ ys)[i]? := by
    intro i hi
    split
    · rename_i hlt
      rw [List.append_assoc, List.getElem?_append_left hlt, List.getElem?_append_left hlt]
    · rename_i hge
      rw [List.getElem?_append_right (by simp; omega), List.getElem?_append_right (by omega)]
      congr 1
      simp only [List.length_append]
      omega
  refine ⟨rfl, ?_, ?_, fun _ _ _ _ e => e, fun _ _ _ _ e => e, ?_⟩
  · intro i r hr _
    have hlt := (List.getElem?_eq_some_iff.1 hr).1
    rw [hget i (by simpa using hlt), hr, Rule.rename_id]
  · intro j r hr hre
    have hre' := hback hre
    have hin : ∀ i, i < xs.length + ys.length → j = (if i < xs.length then i else i + dead.length) → (gram (xs ++ ys) start).RuleInReach i := by
      intro i hi e
      rw [e, hget i hi] at hr
      exact ⟨r.plain, by simp only [gram, List.getElem?_map, hr, Option.map_some], hre'⟩
    have hlt := (List.getElem?_eq_some_iff.1 hr).1
    simp only [List.length_append] at hlt
    by_cases h1 : j < xs.length
    · exact ⟨j, hin j (by omega) (by simp [h1]), by simp [h1]⟩
    · by_cases h2 : j < xs.length + dead.length
      · rw [List.append_assoc, List.getElem?_append_right (by omega), List.getElem?_append_left (by omega)] at hr
        exact absurd hre' (hd r (List.mem_of_getElem? hr))
      · have e : j = (if j - dead.length < xs.length then j - dead.length else j - dead.length + dead.length) := by
          rw [if_neg (by omega)]; omega
        exact ⟨j - dead.length, hin _ (by omega) e, e⟩
  · intro i j _ _ e
    have e : (if i < xs.length then i else i + dead.length) = (if j < xs.length then j else j + dead.length) := e
    split at e <;> split at e <;> omega

/-- C59: rules that cannot be reached from the start symbol have no influence on parsing. -/
theorem c59_unreachable (o o' : Seeds) (ho : o.Fair) (ho' : o'.Fair) (xs dead ys : List (Rule N T E)) (hok : (gram (xs ++ dead ++ ys) start).Ok)
    (hst : ∃ r ∈ xs ++ ys, r.lhs = start) (hd : ∀ r ∈ dead, ¬ (gram (xs ++ ys) start).InReach r.lhs) (p p' : Parser N T E) (ws ws' : List Warning)
    (hp : MakesParser o (xs ++ ys) start p ws) (hp' : MakesParser o' (xs ++ dead ++ ys) start p' ws') (idx : T → Nat) :
    SameParsing (fun i => if i < xs.length then i else i + dead.length) idx idx p p' := by
  have hok1 : (gram (xs ++ ys) start).Ok := by
    intro r hr
    apply hok r
    simp only [gram, List.map_append, List.mem_append] at hr ⊢
    rcases hr with hr | hr
    · exact .inl (.inl hr)
    · exact .inr hr
  refine c59_outcomes o o' ho ho' hok1 hok hst (sameUpTo_dead hd) p p' ws ws' hp hp' (.inl ?_) idx idx fun _ _ _ => Iff.rfl
  intro i j _ _ hlt
  show (if i < xs.length then i else i + dead.length) < (if j < xs.length then j else j + dead.length)
  split <;> split <;> omega

/-! ## Order -/

theorem perm_places {α : Type} {l l' : List α} (h : l.Perm l') :
    ∃ σ : Nat → Nat, (∀ i, i < l.length → l'[σ i]? = l[i]?) ∧ (∀ i j, i < l.length → j < l.length → σ i = σ j → i = j) ∧
      ∀ j, j < l'.length → ∃ i, i < l.length ∧ j = σ i := by
  induction h with
  | nil => exact ⟨id, by simp, by simp, by simp⟩
  | cons x _ ih =>
    obtain ⟨σ, h1, h2, h3⟩ := ih
    refine ⟨fun i => match i with | 0 => 0 | i + 1 => σ i + 1, ?_, ?_, ?_⟩
    · intro i hi
      match i, hi with
      | 0, _ => rfl
      | i + 1, hi => simpa using h1 i (by simpa using hi)
    · intro i j hi hj e
      match i, j, hi, hj, e with
      | 0, 0, _, _, _ => rfl
      | 0, j + 1, _, _, e => simp at e
      | i + 1, 0, _, _, e => simp at e
      | i + 1, j + 1, hi, hj, e => rw [h2 i j (by simpa using hi) (by simpa using hj) (by simpa using e)]
    · intro j hj
      match j, hj with
      | 0, _ => exact ⟨0, by simp, rfl⟩
      | j + 1, hj =>
        obtain ⟨i, hi, e⟩ := h3 j (by simpa using hj)
        exact ⟨i + 1, by simpa using hi, by simp [e]⟩
  | swap x y l =>
    refine ⟨fun i => match i with | 0 => 1 | 1 => 0 | i + 2 => i + 2, ?_, ?_, ?_⟩
    · intro i _
      match i with
      | 0 => rfl
      | 1 => rfl
      | i + 2 => rfl
    · intro i j _ _ e
      match i, j, e with
      | 0, 0, _ => rfl
      | 1, 1, _ => rfl
      | 0, 1, e => simp at e
      | 1, 0, e => simp at e
      | 0, j + 2, e => simp at e
      | 1, j + 2, e => simp at e
      | i + 2, 0, e => simp at e
      | i + 2, 1, e => simp at e
      | i + 2, j + 2, e => exact e
    · intro j hj
      match j, hj with
      | 0, _ => exact ⟨1, by simp, rfl⟩
      | 1, _ => exact ⟨0, by simp, rfl⟩
      | j + 2, hj => exact ⟨j + 2, hj, rfl⟩
  | trans hp1 hp2 ih1 ih2 =>
    obtain ⟨σ, h1, h2, h3⟩ := ih1
    obtain ⟨τ, g1, g2, g3⟩ := ih2
    have hlen := hp1.length_eq
    have hσ : ∀ i, i < _ → σ i < _ := fun i hi => (List.getElem?_eq_some_iff.1 ((h1 i hi).trans (List.getElem?_eq_getElem hi))).1
    refine ⟨fun i => τ (σ i), ?_, ?_, ?_⟩
    · intro i hi
      rw [g1 _ (hσ i hi), h1 i hi]
    · intro i j hi hj e
      exact h2 i j hi hj (g2 _ _ (hσ i hi) (hσ j hj) e)
    · intro k hk
      obtain ⟨j, hj, rfl⟩ := g3 k hk
      obtain ⟨i, hi, rfl⟩ := h3 j hj
      exact ⟨i, hi, rfl⟩

theorem sameUpTo_perm (hperm : rules.Perm rules') : ∃ σ : Nat → Nat, (∀ i, i < rules.length → rules'[σ i]? = rules[i]?) ∧
    SameUpTo id id σ rules start rules' start := by
  obtain ⟨σ, h1, h2, h3⟩ := perm_places hperm
  have hlt : ∀ i, (gram rules start).RuleInReach i → i < rules.length := by
    intro i hi
    obtain ⟨r, hr, _⟩ := hi.get
    exact (List.getElem?_eq_some_iff.1 hr).1
  refine ⟨σ, h1, rfl, ?_, ?_, fun _ _ _ _ e => e, fun _ _ _ _ e => e, fun i j hi hj => h2 i j (hlt i hi) (hlt j hj)⟩
  · intro i r hr _
    rw [h1 i (List.getElem?_eq_some_iff.1 hr).1, hr, Rule.rename_id]
  · intro j r hr hre
    obtain ⟨i, hi, rfl⟩ := h3 j (List.getElem?_eq_some_iff.1 hr).1
    rw [h1 i hi] at hr
    exact ⟨i, ⟨r.plain, by simp [gram, hr], inReach_sub (fun r hr _ => hperm.mem_iff.2 hr) hre⟩, rfl⟩

/-- C59: without warnings the order of the rules has no influence on parsing. -/
theorem c59_order (o o' : Seeds) (ho : o.Fair) (ho' : o'.Fair) (hok : (gram rules start).Ok) (hst : ∃ r ∈ rules, r.lhs = start)
    (hperm : rules.Perm rules') (p : Parser N T E) (hp : MakesParser o rules start p []) :
    ∃ (p' : Parser N T E) (σ : Nat → Nat), MakesParser o' rules' start p' [] ∧ (∀ i, i < rules.length → rules'[σ i]? = rules[i]?) ∧
      ∀ idx : T → Nat, SameParsing σ idx idx p p' := by
  obtain ⟨σ, hσ, h⟩ := sameUpTo_perm (start := start) hperm
  have hok' : (gram rules' start).Ok := by
    intro r hr
    exact hok r ((hperm.map Rule.plain).mem_iff.2 hr)
  have hs := c59_same o o' ho ho' hok hok' hst h
  obtain ⟨x, hx, _⟩ := c20_new_terminates o' ho' (gram rules' start) hok'
  have hnp : x ≠ .panic := by
    rintro rfl
    cases newGives_unique (hs.1.2 hx) hp.1
  cases x with
  | panic => exact absurd rfl hnp
  | fuel => obtain ⟨_, _, h⟩ := hx; exact absurd rfl h
  | ok x =>
    obtain ⟨d, hd⟩ := hp.2
    let p' : Parser N T E := ⟨rules' ++ [⟨freshSym (rules'.map Rule.plain), [.nt start], d⟩], x.1⟩
    have hp' : MakesParser o' rules' start p' x.2 := ⟨hx, d, rfl⟩
    have he := ((hs.2 p [] p' x.2 hp hp').1).1 rfl
    rw [he] at hp'
    exact ⟨p', σ, hp', hσ, fun idx => c59_outcomes o o' ho ho' hok hok' hst h p p' [] [] hp hp' (.inr rfl) idx idx fun _ _ _ => Iff.rfl⟩

/-! ## Examples -/

/-- `A ↦ A + 5`, `t ↦ t + 7`: the numbers of another table of symbols. -/
def shifted : List (Rule Nat Nat Nat) := (plainRules gList).map (Rule.rename (· + 5) (· + 7))

/-- The renumbered list grammar has a parser. -/
theorem shifted_makes : ∃ p', MakesParser idSeeds shifted 5 p' [] := by
  let p' : Parser Nat Nat Nat := ⟨shifted ++ [⟨freshSym (shifted.map Rule.plain), [.nt 5], fun _ => .error 0⟩],
    { action := [(0, [(.sym 7, .shift 3), (.err, .shift 4)]), (1, [(.sym 7, .shift 3), (.err, .shift 4), (.eoi, .accept)]),
        (2, [(.sym 7, .reduce 1), (.err, .reduce 1), (.eoi, .reduce 1)]), (3, [(.sym 8, .shift 6)]), (4, [(.sym 8, .shift 7)]),
        (5, [(.sym 7, .reduce 0), (.err, .reduce 0), (.eoi, .reduce 0)]), (6, [(.sym 7, .reduce 2), (.err, .reduce 2), (.eoi, .reduce 2)]),
        (7, [(.sym 7, .reduce 3), (.err, .reduce 3), (.eoi, .reduce 3)])]
      goto := [(0, [(5, 1), (6, 2)]), (1, [(6, 5)])]
      errors := [(0, [3, 3, 3]), (1, [3, 3, 3])]
      start := 0 }⟩
  exact ⟨p', ⟨30, by decide, by simp⟩, _, rfl⟩

/-- Even with recoveries, whatever the seeds. -/
example (o : Seeds) (ho : o.Fair) (p' : Parser Nat Nat Nat) (ws' : List Warning) (hp' : MakesParser o shifted 5 p' ws') :
    ∃ c, ParsesTo (fun t => t + 7) p' [2, 2, 1, 0, 0, 1, 0, 1] (.ok 2) c ∧ c.log.reverse =
      [(3, [.err [2, 2], .tok 1]), (1, [.nt 2]), (3, [.err [0, 0], .tok 1]), (0, [.nt 1, .nt 2]), (2, [.tok 0, .tok 1]), (0, [.nt 2, .nt 2])] := by
  have h := c59_renumber idSeeds o idSeeds_fair ho (a := (· + 5)) (b := (· + 7)) (by decide) ⟨_, List.mem_cons_self, rfl⟩
    (fun _ _ e => by simpa using e) (fun _ _ e => by simpa using e) pList p' [] ws' pList_makes hp' id
  obtain ⟨c, h1, h2⟩ := c42_two_errors
  obtain ⟨c', h3, h4, _⟩ := ((h [2, 2, 1, 0, 0, 1, 0, 1]).1 (.ok 2) _ c.pulls).2 ⟨c, h1, rfl, rfl⟩
  refine ⟨c', h3, h4.trans ?_⟩
  rw [h2]
  rfl

/-- In reverse order: the rules of the calls have other places, the rest is the same. -/
example (o : Seeds) (ho : o.Fair) : ∃ p' σ, MakesParser o (plainRules gList).reverse 0 p' [] ∧ SameParsing σ id id pList p' := by
  obtain ⟨p', σ, h1, _, h2⟩ := c59_order idSeeds o idSeeds_fair ho (by decide) ⟨_, List.mem_cons_self, rfl⟩ (List.reverse_perm _).symm pList pList_makes
  exact ⟨p', σ, h1, h2 id⟩

/-- `S → a {1}` and `S → a {2}` -/
def rTwice : List (Rule Nat Nat Nat) := [⟨0, [.tm (.sym 0)], fun _ => .ok 1⟩, ⟨0, [.tm (.sym 0)], fun _ => .ok 2⟩]

def tTwice : Tables :=
  { action := [(0, [(.sym 0, .shift 1)]), (1, [(.eoi, .reduce 0)]), (2, [(.eoi, .accept)])]
    goto := [(0, [(0, 2)])]
    errors := []
    start := 0 }

/-- With warnings the order matters: the rule that comes first is used. -/
theorem c59_order_matters : ∃ (p p' : Parser Nat Nat Nat) (ws : List Warning), ws ≠ [] ∧ MakesParser idSeeds rTwice 0 p ws ∧
    MakesParser idSeeds rTwice.reverse 0 p' ws ∧ (∃ c, ParsesTo id p [0] (.ok 1) c) ∧ ∃ c, ParsesTo id p' [0] (.ok 2) c :=
  ⟨⟨rTwice ++ [⟨1, [.nt 0], fun _ => .error 0⟩], tTwice⟩, ⟨rTwice.reverse ++ [⟨1, [.nt 0], fun _ => .error 0⟩], tTwice⟩,
    [.reduceReduce [⟨0, 1, .eoi⟩, ⟨1, 1, .eoi⟩] 0 1], by simp, ⟨⟨30, by decide, by simp⟩, _, rfl⟩, ⟨⟨30, by decide, by simp⟩, _, rfl⟩,
    ⟨_, 20, rfl⟩, ⟨_, 20, rfl⟩⟩

/-- A rule out of reach may even be in conflict with itself: `X → X` with the list grammar. -/
example (o : Seeds) (ho : o.Fair) (p' : Parser Nat Nat Nat) (ws' : List Warning)
    (hp' : MakesParser o ([] ++ [⟨7, [.nt 7], fun _ => .ok 0⟩, ⟨7, [.nt 7, .nt 9], fun _ => .ok 0⟩] ++ plainRules gList) 0 p' ws') :
    SameParsing (· + 2) id id pList p' := by
  have h := c59_unreachable idSeeds o idSeeds_fair ho [] _ (plainRules gList) (by decide) ⟨_, List.mem_cons_self, rfl⟩ ?_ pList p' [] ws' pList_makes hp' id
  · simpa using h
  · intro r hr hre
    have e : r.lhs = 7 := by
      simp only [List.mem_cons, List.not_mem_nil, or_false] at hr
      rcases hr with rfl | rfl <;> rfl
    have := hre.used ⟨_, List.mem_cons_self, rfl⟩
    rw [e] at this
    revert this
    simp [Gram.Used, gram, plainRules, gList, Rule.plain]

end Verif.Par
