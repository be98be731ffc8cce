import Verif.Par.SharedInv

/-!
# Source and callbacks that share a world: whole runs
-/

namespace Verif.Par

variable {S N T E : Type}

def EStep.cfg? : EStep S N T E → Option (Cfg N T)
  | .more c _ => some c
  | .done _ c _ => some c
  | .unwind c _ => some c
  | .panic => none

section
variable {p : EParser S N T E} {idx : T → Nat} {nxt : Source S T} {rules : List (ERule S N T E)} {start fresh : Nat}

theorem stepE_keeps {c c' : Cfg N T} {s : S} (hb : c.buffer ≠ []) (h : (stepE idx p c s).cfg? = some c') :
    c'.read = c.read ∧ c'.pulls = c.pulls := by
  have hv := stepE_view (idx := idx) (p := p) c s
  rw [fill_eq hb] at hv
  generalize stepE idx p c s = z at hv h
  cases hv with
  | tok => cases h; exact ⟨rfl, rfl⟩
  | eoi => cases h; exact ⟨rfl, rfl⟩
  | panic => cases h
  | accept => cases h; exact ⟨rfl, rfl⟩
  | error a i =>
    rcases onError_view (idx := idx) (p := (⟨[], p.tab⟩ : Parser N T E)) (c := c) (a := a) (i := i)
      with h' | h' | ⟨q, state, lo, hi, stack, buffer, recov, h', _⟩ <;> (rw [h'] at h; cases h)
    · exact ⟨rfl, rfl⟩
    · exact ⟨rfl, rfl⟩
  | reduce r =>
    have hv := onReduceE_view (p := p) c s r
    generalize onReduceE p c s r = z at hv h
    cases hv with
    | panic => cases h
    | call rule args x k1 k2 k3 k4 =>
      cases hact : rule.act s args with
      | panic s' => rw [hact] at k4; simp only at k4; rw [k4] at h; cases h; exact ⟨rfl, rfl⟩
      | error e s' => rw [hact] at k4; simp only at k4; rw [k4] at h; cases h; exact ⟨rfl, rfl⟩
      | ok v s' =>
        rw [hact] at k4
        rcases k4 with k4 | ⟨q, q0, i, rec, k4⟩ <;> (rw [k4] at h; cases h)
        exact ⟨rfl, rfl⟩

theorem runX_add (m n : Nat) (c : Cfg N T) (s : S) : runX idx nxt p (m + n) c s =
    match runX idx nxt p m c s with
    | .more c s => runX idx nxt p n c s
    | r => r := by
  induction m generalizing c s with
  | zero => rw [Nat.zero_add]; rfl
  | succ m ih =>
    rw [Nat.add_right_comm]
    simp only [runX]
    cases stepE idx p (pull idx nxt c s).1 (pull idx nxt c s).2 with
    | more c' s' => exact ih c' s'
    | done | unwind | panic => rfl

/-- The last round of a run. -/
theorem runX_last {n : Nat} {c : Cfg N T} {s : S} {z : EStep S N T E} (h : runX idx nxt p n c s = z) (hz : ∀ c' s', z ≠ .more c' s') :
    ∃ m c1 s1, m < n ∧ runX idx nxt p m c s = .more c1 s1 ∧ stepE idx p (pull idx nxt c1 s1).1 (pull idx nxt c1 s1).2 = z := by
  induction n generalizing c s with
  | zero => exact absurd h.symm (hz c s)
  | succ n ih =>
    simp only [runX] at h
    cases hs : stepE idx p (pull idx nxt c s).1 (pull idx nxt c s).2 with
    | more c' s' =>
      rw [hs] at h
      obtain ⟨m, c1, s1, h0, h1, h2⟩ := ih h
      refine ⟨m + 1, c1, s1, by omega, ?_, h2⟩
      simp only [runX, hs]
      exact h1
    | done x c' s' => rw [hs] at h; exact ⟨0, c, s, by omega, rfl, hs.trans h⟩
    | unwind c' s' => rw [hs] at h; exact ⟨0, c, s, by omega, rfl, hs.trans h⟩
    | panic => rw [hs] at h; exact ⟨0, c, s, by omega, rfl, hs.trans h⟩

theorem Begun.self (c : Cfg N T) : Begun idx c (c.read.map idx) := ⟨List.prefix_rfl, fun _ => rfl⟩

/-- Looking at the next item. -/
theorem Begun.back {c : Cfg N T} {s s0 : S} {w : List Nat} {j γ fs lg as args}
    (h : InvX idx nxt p rules (c.read.map idx) s0 c s j γ fs lg as args) (hb : Begun idx (pull idx nxt c s).1 w) :
    Begun idx c w ∧ aheadX idx nxt w c s ≠ none := by
  have hp := h.inv.pulls
  obtain ⟨state, read, src, buffer, stack, recov, log, pulls⟩ := c
  cases buffer with
  | cons b buffer => exact ⟨hb, by simp [aheadX]⟩
  | nil =>
    have hp : pulls = read.length := by
      have hlen : (seenAs idx (List.map idx read) (⟨state, read, src, [], stack, recov, log, pulls⟩ : Cfg N T)).read.length = read.length := by
        simp [seenAs, Cfg.map, Cfg.withSrc]
      rw [if_neg (by simp [seenAs, Cfg.map, Cfg.withSrc])] at hp
      exact hp.trans hlen
    simp only [aheadX, pull, draw] at hb ⊢
    cases hn : nxt s with
    | mk a s' =>
      rw [hn] at hb
      cases a with
      | none =>
        obtain ⟨h1, h2⟩ := hb
        have h2 := h2 (by simp [hp])
        simp only at h2
        subst h2
        refine ⟨⟨h1, fun _ => rfl⟩, ?_⟩
        simp
      | some t =>
        obtain ⟨h1, h2⟩ := hb
        simp only [List.map_append, List.map_cons, List.map_nil] at h1
        obtain ⟨l, hl⟩ := h1
        refine ⟨⟨⟨[idx t] ++ l, by rw [← hl]; simp⟩, fun h3 => ?_⟩, ?_⟩
        · simp only at h3; omega
        · have : w.drop read.length = idx t :: l := by
            rw [← hl, List.append_assoc, List.drop_left' (by simp)]
            rfl
          simp [this]

/-- At every moment the parse has gone through a forest over any `w` that begins with what has been read. -/
theorem reachX (hx : Ctx (plainE p) (plainRulesE rules) start fresh) (hpr : ∃ d, p.rules = rules ++ [d])
    (hn : (gramE rules start).NoError) (s0 : S) (n : Nat) : ∀ (c : Cfg N T) (s : S), runX idx nxt p n (p.init []) s0 = .more c s →
    ∀ w, Begun idx c w → run id (plainE p) n (Cfg.init (plainE p) w) = .more (seenAs idx w c) ∧
      ∃ j γ fs lg as args, InvX idx nxt p rules w s0 c s j γ fs lg as args := by
  induction n with
  | zero =>
    intro c s h w _
    cases h
    exact ⟨rfl, _, _, _, _, _, _, .init w s0⟩
  | succ n ih =>
    intro c' s' h w hb
    rw [runX_add] at h
    cases hr : runX idx nxt p n (p.init []) s0 with
    | more c s =>
      rw [hr] at h
      simp only [runX] at h
      have hk : c'.read = (pull idx nxt c s).1.read ∧ c'.pulls = (pull idx nxt c s).1.pulls := by
        apply stepE_keeps (idx := idx) (p := p) (s := (pull idx nxt c s).2) (pull_front (idx := idx) (nxt := nxt) c s)
        cases hs : stepE idx p (pull idx nxt c s).1 (pull idx nxt c s).2 with
        | more c1 s1 => rw [hs] at h; cases h; rfl
        | done => rw [hs] at h; cases h
        | unwind => rw [hs] at h; cases h
        | panic => rw [hs] at h; cases h
      have hb1 : Begun idx (pull idx nxt c s).1 w := by
        unfold Begun at hb ⊢
        rw [hk.1, hk.2] at hb
        exact hb
      obtain ⟨_, _, _, _, _, _, _, hi0⟩ := ih c s hr _ (Begun.self c)
      obtain ⟨hb2, hne⟩ := Begun.back hi0 hb1
      obtain ⟨hrun, _, _, _, _, _, _, hi⟩ := ih c s hr w hb2
      rcases roundX hx hpr hn hi with h1 | ⟨m, h1, h2, h3⟩
      · exact absurd h1 hne
      · rw [h2] at h
        rcases h3 with ⟨c2, s2, j', γ', fs', lg', as', args', k1, k2, k3, k4, _⟩ | ⟨v, f, k1, _⟩ | ⟨c2, k1, _⟩ |
          ⟨c2, d', j', γ', fs', lg', as', a, r, _, _, _, _, _, _, _, _, ⟨e, s2, k1, _⟩ | ⟨s2, k1, _⟩⟩
        · rw [k1] at h
          cases h
          refine ⟨?_, _, _, _, _, _, _, k3⟩
          rw [run_add, hrun]
          simp only [run, k2]
        · rw [k1] at h; cases h
        · rw [k1] at h; cases h
        · rw [k1] at h; cases h
        · rw [k1] at h; cases h
    | done => rw [hr] at h; cases h
    | unwind => rw [hr] at h; cases h
    | panic => rw [hr] at h; cases h

/-- The last round, for any `w` that begins with what has been read. -/
theorem lastX (hx : Ctx (plainE p) (plainRulesE rules) start fresh) (hpr : ∃ d, p.rules = rules ++ [d])
    (hn : (gramE rules start).NoError) {s0 : S} {n : Nat} {z : EStep S N T E} (h : runX idx nxt p n (p.init []) s0 = z)
    (hz : ∀ c' s', z ≠ .more c' s') : z ≠ .panic ∧ ∀ c', z.cfg? = some c' →
    ∀ w, Begun idx c' w → ∃ m c s j γ fs lg as args, m < n ∧ runX idx nxt p m (p.init []) s0 = .more c s ∧
      stepE idx p (pull idx nxt c s).1 (pull idx nxt c s).2 = z ∧ c'.read = (pull idx nxt c s).1.read ∧ c'.pulls = (pull idx nxt c s).1.pulls ∧
      run id (plainE p) m (Cfg.init (plainE p) w) = .more (seenAs idx w c) ∧ aheadX idx nxt w c s ≠ none ∧
      InvX idx nxt p rules w s0 c s j γ fs lg as args := by
  obtain ⟨m, c, s, h0, h1, h2⟩ := runX_last h hz
  obtain ⟨_, j0, γ0, fs0, lg0, as0, args0, hi0⟩ := reachX hx hpr hn s0 m c s h1 _ (Begun.self c)
  constructor
  · intro hp
    subst hp
    obtain ⟨hb2, hne⟩ := Begun.back hi0 (Begun.self _)
    obtain ⟨_, _, _, _, _, _, _, hi⟩ := reachX hx hpr hn s0 m c s h1 _ hb2
    rcases roundX hx hpr hn hi with k | ⟨m', k0, k2, k3⟩
    · exact absurd k hne
    · rw [k2] at h2
      rcases k3 with ⟨c2, s2, j', γ', fs', lg', as', args', k1, _⟩ | ⟨v, f, k1, _⟩ | ⟨c2, k1, _⟩ |
          ⟨c2, d', j', γ', fs', lg', as', a, r, _, _, _, _, _, _, _, _, ⟨e, s2, k1, _⟩ | ⟨s2, k1, _⟩⟩ <;> (rw [k1] at h2; cases h2)
  · intro c' hc w hb
    have hk : c'.read = (pull idx nxt c s).1.read ∧ c'.pulls = (pull idx nxt c s).1.pulls := by
      apply stepE_keeps (idx := idx) (p := p) (s := (pull idx nxt c s).2) (pull_front (idx := idx) (nxt := nxt) c s)
      rw [h2, hc]
    have hb1 : Begun idx (pull idx nxt c s).1 w := by
      unfold Begun at hb ⊢
      rw [hk.1, hk.2] at hb
      exact hb
    obtain ⟨hb2, hne⟩ := Begun.back hi0 hb1
    obtain ⟨hrun, j, γ, fs, lg, as, args, hi⟩ := reachX hx hpr hn s0 m c s h1 w hb2
    exact ⟨m, c, s, j, γ, fs, lg, as, args, h0, h1, h2, hk.1, hk.2, hrun, hne, hi⟩

/-- If the parser without effects accepts `w`, there is a tree over `w` that begins with what has been gone through. -/
theorem contX (hx : Ctx (plainE p) (plainRulesE rules) start fresh) (hn : (gramE rules start).NoError) {w : List Nat} (n : Nat) :
    ∀ {d d' : Cfg Unit Nat} {j γ fs lg as}, Inv (plainE p) (plainRulesE rules) id w d j γ fs lg as → errs fs = [] →
    run id (plainE p) n d = .done (.ok ()) d' →
    ∃ f, IsTree (rules.map ERule.plain) start id w f ∧ Cont idx nxt rules fs [f] := by
  induction n with
  | zero => intro d d' j γ fs lg as _ _ h; cases h
  | succ n ih =>
    intro d d' j γ fs lg as hi he h
    simp only [run] at h
    obtain ⟨a, m1, m2, m3, m4⟩ := step_cases hx hi
    rcases m4 with ⟨k, q, n1, n2, n3, n4, n5⟩ | ⟨r, n1, n2⟩ | ⟨v, n1, n2, n3, n4, ⟨f, n5⟩, n6, n7⟩ | ⟨n1, n2⟩
    · rw [n4] at h
      obtain ⟨f, h1, h2⟩ := ih n5 (by simp [errs_append, he, errs, Tree.errs]) h
      exact ⟨f, h1, (Cont.append _ _).trans h2⟩
    · have hst : (fill id d).state = d.state := fill_state d
      obtain ⟨rule2, γ0, f0, f1, l0, l1, a0, a1, z1, z2, z3, z4, z5, z6⟩ := m2.reduce hx (a := a) (r := r) (by rw [hst]; exact n1)
      rw [z3, errs_append, List.append_eq_nil_iff] at he
      rcases z6 with ⟨_, _, z6⟩ | ⟨z6, z7, z8, z9, z10⟩
      · exact absurd he.2 z6
      obtain ⟨q, q0, i', st, y1, y2⟩ := z10 () (plainE_gen _ (List.mem_of_getElem? z1) _)
      rw [n2, y1] at h
      obtain ⟨f, h1, h2⟩ := ih y2 (by simp [errs_append, he.1, he.2, errs, Tree.errs]) h
      rw [z3]
      exact ⟨f, h1, (Cont.reduce f0 f1 r).trans h2⟩
    · subst n5
      have hel := hi.seg.elems
      refine ⟨f, ⟨?_, he, ?_⟩, Cont.refl _⟩
      · rw [← plainE_plain, ← n4]
        refine hel.built ?_
        intro lo hi hm
        exact absurd he (hel.errs_ne hm)
      · rw [(hi.clean he).1, n3, List.take_length]
    · rcases n2 with n2 | ⟨c', j', γ', fs', lg', as', n2, n3, n4, n5, n6, n7, n8, n9, n10⟩
      · rw [n2] at h; cases h
      · exact absurd n9 (no_err_expected (by rw [plainE_gram]; exact hn))

/-- The parse from (c, s) on does what going through the tree comes to. -/
def DoesX (idx : T → Nat) (nxt : Source S T) (p : EParser S N T E) (n : Nat) (c : Cfg N T) (s : S) : Went S T (Arg N T) E → Prop
  | .ok a m => ∃ v c', a = .nt v ∧ runX idx nxt p n c s = .done (.ok v) c' m.world
  | .error e s' => ∃ c', runX idx nxt p n c s = .done (.error (.reducer e)) c' s'
  | .panic s' => ∃ c', runX idx nxt p n c s = .unwind c' s'
  | .strays => True

/-- If the parser without effects accepts `w`, the parse does what going through a tree over `w` comes to. -/
theorem mainX (hx : Ctx (plainE p) (plainRulesE rules) start fresh) (hpr : ∃ d, p.rules = rules ++ [d])
    (hn : (gramE rules start).NoError) {w : List Nat} {s0 : S} (n : Nat) :
    ∀ {c : Cfg N T} {s : S} {j γ fs lg as args d'}, InvX idx nxt p rules w s0 c s j γ fs lg as args →
    run id (plainE p) n (seenAs idx w c) = .done (.ok ()) d' →
    ∃ f, IsTree (rules.map ERule.plain) start id w f ∧ Cont idx nxt rules fs [f] ∧ DoesX idx nxt p n c s (f.performs idx nxt rules w s0) := by
  have single : ∀ (f : Tree Nat) (x : Went S T (List (Arg N T)) E), startX idx nxt rules w s0 [f] = x →
      (x = .strays → f.performs idx nxt rules w s0 = .strays) ∧ (∀ e s, x = .error e s → f.performs idx nxt rules w s0 = .error e s) ∧
      (∀ s, x = .panic s → f.performs idx nxt rules w s0 = .panic s) ∧
      ∀ a m, x = .ok [a] m → f.performs idx nxt rules w s0 = .ok a m := by
    intro f x h
    rw [startX_single] at h
    cases hp : f.performs idx nxt rules w s0 with
    | ok a m => rw [hp] at h; subst h; simp [Went.bind]
    | error e s => rw [hp] at h; subst h; simp [Went.bind]
    | panic s => rw [hp] at h; subst h; simp [Went.bind]
    | strays => rw [hp] at h; subst h; simp [Went.bind]
  induction n with
  | zero => intro c s j γ fs lg as args d' _ h; cases h
  | succ n ih =>
    intro c s j γ fs lg as args d' hi h
    rcases roundX hx hpr hn hi with h1 | ⟨m, h1, h2, h3⟩
    · obtain ⟨f, k1, k2⟩ := contX (idx := idx) (nxt := nxt) hx hn (n + 1) hi.inv hi.clean h
      refine ⟨f, k1, k2, ?_⟩
      obtain ⟨K, hK⟩ := startX_cont k2
      have := hi.play
      rw [h1] at this
      simp only at this
      have h4 := hK w s0
      rw [this] at h4
      rw [(single f _ h4).1 rfl]
      trivial
    · have hrun : ∀ z, stepE idx p (pull idx nxt c s).1 m.world = z → runX idx nxt p (n + 1) c s =
          match z with
          | .more c s => runX idx nxt p n c s
          | r => r := by
        intro z hz
        simp only [runX, h2, hz]
        cases z <;> rfl
      simp only [run] at h
      rcases h3 with ⟨c2, s2, j', γ', fs', lg', as', args', k1, k2, k3, k4, _⟩ | ⟨v, f, k1, k2, k3, k4, k5, _⟩ | ⟨c2, k1, k2, _⟩ |
        ⟨c2, d2, j', γ', fs', lg', as', a, r, k1, k2, k3, k4, _, _, _, _, k5⟩
      · rw [k2] at h
        obtain ⟨f, g1, g2, g3⟩ := ih k3 h
        refine ⟨f, g1, k4.trans g2, ?_⟩
        have e := hrun _ k1
        simp only at e
        revert g3
        cases f.performs idx nxt rules w s0 <;> simp only [DoesX, e] <;> exact id
      · refine ⟨f, k5, by rw [k3]; exact Cont.refl _, ?_⟩
        have := hi.play
        rw [h1, k3, k4] at this
        simp only at this
        rw [(single f _ this).2.2.2 _ _ rfl]
        exact ⟨v, _, rfl, hrun _ k1⟩
      · rw [k2] at h; cases h
      · rw [k3] at h
        obtain ⟨f, g1, g2⟩ := contX (idx := idx) (nxt := nxt) hx hn n k1 k2 h
        refine ⟨f, g1, k4.trans g2, ?_⟩
        obtain ⟨K, hK⟩ := startX_cont g2
        have h4 := hK w s0
        rcases k5 with ⟨e, s', k5, k6⟩ | ⟨s', k5, k6⟩
        · rw [k6] at h4
          rw [(single f _ h4).2.1 _ _ rfl]
          exact ⟨_, hrun _ k5⟩
        · rw [k6] at h4
          rw [(single f _ h4).2.2.1 _ rfl]
          exact ⟨_, hrun _ k5⟩

end

end Verif.Par
