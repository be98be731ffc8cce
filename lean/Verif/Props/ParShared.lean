import Verif.Par.SharedAll
import Verif.Props.ParPlay

/-!
# Property C57: a source and callbacks that share a world
-/

namespace Verif.Par

variable {S N T E : Type}

/-! ## Helper lemmas -/

section
variable {o : Seeds} {p : EParser S N T E} {idx : T → Nat} {nxt : Source S T} {rules : List (ERule S N T E)} {start : Nat}

theorem ctxX (ho : o.Fair) (hok : (gramE rules start).Ok) {ws : List Warning} (hp : MakesE o rules start p ws) :
    (∃ d, p.rules = rules ++ [d]) ∧ ∃ fresh, Ctx (plainE p) (plainRulesE rules) start fresh :=
  ⟨⟨_, hp.2.choose_spec⟩, ctx_of_makes ho (by rw [plainE_gram]; exact hok) (makes_plainE hp)⟩

theorem plain_accepts (ho : o.Fair) (hok : (gramE rules start).Ok) (hp : MakesE o rules start p []) {w : List Nat}
    (hw : (gramE rules start).Sentence w) : ∃ d, ParsesTo id (plainE p) w (.ok ()) d := by
  obtain ⟨v, c, h⟩ := c24_accepts o ho (plainRulesE rules) start (by rw [plainE_gram]; exact hok)
    (fun r hr l => ⟨(), plainE_gen r hr l⟩) (plainE p) (makes_plainE hp) id w (by rw [plainE_gram, List.map_id]; exact hw)
  exact ⟨c, h⟩

/-- How far the reading has got. -/
theorem InvX.looked {w : List Nat} {s0 s : S} {c : Cfg N T} {j γ fs lg as args} {fresh : Nat}
    (hx : Ctx (plainE p) (plainRulesE rules) start fresh) (h : InvX idx nxt p rules w s0 c s j γ fs lg as args)
    {m : Mid S T} (ha : aheadX idx nxt w c s = some m) :
    Inv (plainE p) (plainRulesE rules) id w (seenAs idx w (pull idx nxt c s).1) j γ fs lg as ∧
    (pull idx nxt c s).1.read.length ≤ j + 1 ∧ (pull idx nxt c s).1.read.map idx <+: w ∧ j ≤ (pull idx nxt c s).1.read.length ∧
    (j = w.length → m.look = none ∧ m.rest = []) ∧
    ((pull idx nxt c s).1.pulls = (pull idx nxt c s).1.read.length + 1 → j = (pull idx nxt c s).1.read.length) ∧
    (pull idx nxt c s).1.pulls ≤ j + 1 := by
  obtain ⟨k1, k2, k3, k4⟩ := ahead_fill ha
  obtain ⟨a, m1, m2, _⟩ := step_cases hx h.inv
  rw [k1] at m2
  have hl : (seenAs idx w (pull idx nxt c s).1).read.length = (pull idx nxt c s).1.read.length := by simp [seenAs, Cfg.map, Cfg.withSrc]
  have hb : (seenAs idx w (pull idx nxt c s).1).buffer = (pull idx nxt c s).1.buffer := rfl
  have h1 : (pull idx nxt c s).1.read.length ≤ j + 1 := by rw [← hl]; exact (m2.clean h.clean).2.2.2
  have h2 : (pull idx nxt c s).1.read.map idx <+: w := ⟨_, m2.read⟩
  have h3 : j ≤ (pull idx nxt c s).1.read.length := by rw [← hl]; exact m2.jle
  have heoi : (pull idx nxt c s).1.buffer = [(.eoi, 0)] → j = (pull idx nxt c s).1.read.length := by
    intro he
    rcases m2.buf with h5 | ⟨_, _, h5⟩
    · rw [hb, he] at h5
      exact absurd h5.symm bufOf_ne_eoi
    · rw [h5, hl]
  have hpulls := m2.pulls
  rw [hl] at hpulls
  refine ⟨m2, h1, h2, h3, ?_, ?_, ?_⟩
  · intro hj
    have h4 : (pull idx nxt c s).1.read.length ≤ w.length := by
      have := h2.length_le
      simpa using this
    constructor
    · rw [← k3]
      rcases m2.buf with h5 | ⟨h5, _⟩
      · exfalso
        rw [hb] at h5
        apply pull_front (idx := idx) (nxt := nxt) c s
        rw [h5, bufOf, List.drop_eq_nil_of_le (by rw [hl]; omega)]
        rfl
      · rw [hb] at h5
        simp only [lookOf, h5]
    · rw [k4, List.drop_eq_nil_of_le (by omega)]
  · intro hq
    have hq' : (seenAs idx w (pull idx nxt c s).1).pulls = (pull idx nxt c s).1.read.length + 1 := hq
    rw [hpulls] at hq'
    split at hq'
    · rename_i he; exact heoi he
    · omega
  · have e : (seenAs idx w (pull idx nxt c s).1).pulls = (pull idx nxt c s).1.pulls := rfl
    rw [e] at hpulls
    split at hpulls
    · rename_i he; have := heoi he; omega
    · omega

/-- If a callback fails then it does so in a tree over a sentence. -/
theorem failsX (ho : o.Fair) (hok : (gramE rules start).Ok) (hn : (gramE rules start).NoError) (hpr : (gramE rules start).Productive)
    (hp : MakesE o rules start p []) {s : S} {n : Nat} {z : EStep S N T E} {c' : Cfg N T} (h : runX idx nxt p n (p.init []) s = z)
    (hz : (∃ e s', z = .done (.error (.reducer e)) c' s') ∨ ∃ s', z = .unwind c' s') :
    ∃ w f, Begun idx c' w ∧ IsTree (rules.map ERule.plain) start id w f ∧
      (∀ e s', z = .done (.error (.reducer e)) c' s' → f.performs idx nxt rules w s = .error e s') ∧
      (∀ s', z = .unwind c' s' → f.performs idx nxt rules w s = .panic s') := by
  obtain ⟨hd, fresh, hx⟩ := ctxX ho hok hp
  have hm : ∀ c s, z ≠ .more c s := by rcases hz with ⟨e, s', rfl⟩ | ⟨s', rfl⟩ <;> simp
  have hc : z.cfg? = some c' := by rcases hz with ⟨e, s', rfl⟩ | ⟨s', rfl⟩ <;> rfl
  have last := (lastX hx hd hn h hm).2 c' hc
  -- what is read is begun by a sentence
  have hw : ∃ w, Begun idx c' w ∧ (gramE rules start).Sentence w := by
    obtain ⟨k, c, t, j, γ, fs, lg, as, args, _, h1, h2, h3, h4, h5, h6, hi⟩ := last _ (Begun.self c')
    rcases roundX hx hd hn hi with g | ⟨m, g1, g2, g3⟩
    · exact absurd g h6
    obtain ⟨l1, l2, l3, l4, _, l6, _⟩ := hi.looked hx g1
    rw [g2] at h2
    rcases g3 with ⟨c2, s2, j', γ', fs', lg', as', args', k1, _⟩ | ⟨v, f, k1, _⟩ | ⟨c2, k1, _⟩ |
          ⟨c2, d', j', γ', fs', lg', as', a, r, _, _, _, _, _, _, k1, k2, _⟩
    · rw [k1] at h2; subst h2; rcases hz with ⟨_, _, hz⟩ | ⟨_, hz⟩ <;> cases hz
    · rw [k1] at h2; subst h2; rcases hz with ⟨_, _, hz⟩ | ⟨_, hz⟩ <;> cases hz
    · rw [k1] at h2; subst h2; rcases hz with ⟨_, _, hz⟩ | ⟨_, hz⟩ <;> cases hz
    · have hv := (hi.inv.viable hx (by rw [plainE_gram]; exact hn) (by rw [plainE_gram]; exact hpr) hi.clean).2 a (.reduce r) k2
      rw [plainE_gram] at hv
      simp only [List.map_id] at hv
      rw [h3] at hv k1
      have hlen : ((pull idx nxt c t).1.read.map idx).length = (pull idx nxt c t).1.read.length := by simp
      rcases hv with ⟨rfl, hv⟩ | ⟨t', w, rfl, hv⟩
      · rcases k1 with ⟨_, k1, _⟩ | ⟨_, k1⟩
        · cases k1
        · rw [k1, List.take_length, ← h3] at hv
          exact ⟨_, Begun.self c', hv⟩
      · rcases k1 with ⟨x, k1, k3⟩ | ⟨k1, _⟩
        · have k1 : t' = x := by simpa using k1
          subst k1
          have hlt : j < (pull idx nxt c t).1.read.length := by
            have := (List.getElem?_eq_some_iff.1 k3).1
            rw [hlen] at this
            exact this
          have e : ((pull idx nxt c t).1.read.map idx).take j ++ [t'] = (pull idx nxt c t).1.read.map idx := by
            have : (pull idx nxt c t).1.read.length = j + 1 := by omega
            conv => rhs; rw [← List.take_length (l := (pull idx nxt c t).1.read.map idx), hlen, this]
            rw [List.take_add_one, k3]
            rfl
          rw [show t' :: w = [t'] ++ w from rfl, ← List.append_assoc, e, ← h3] at hv
          refine ⟨_, ⟨⟨w, rfl⟩, ?_⟩, hv⟩
          intro hq
          rw [h4, h3] at hq
          have := l6 hq
          omega
        · cases k1
  obtain ⟨w, hb, hs⟩ := hw
  obtain ⟨k, c, t, j, γ, fs, lg, as, args, _, h1, h2, h3, h4, h5, h6, hi⟩ := last w hb
  obtain ⟨dfin, N, hN⟩ := plain_accepts ho hok hp hs
  rcases roundX hx hd hn hi with g | ⟨m, g1, g2, g3⟩
  · exact absurd g h6
  rw [g2] at h2
  rcases g3 with ⟨c2, s2, j', γ', fs', lg', as', args', k1, _⟩ | ⟨v, f, k1, _⟩ | ⟨c2, k1, _⟩ |
        ⟨c2, d', j', γ', fs', lg', as', a, r, k1, k2, k3, k4, _, _, _, _, k5⟩
  · rw [k1] at h2; subst h2; rcases hz with ⟨_, _, hz⟩ | ⟨_, hz⟩ <;> cases hz
  · rw [k1] at h2; subst h2; rcases hz with ⟨_, _, hz⟩ | ⟨_, hz⟩ <;> cases hz
  · rw [k1] at h2; subst h2; rcases hz with ⟨_, _, hz⟩ | ⟨_, hz⟩ <;> cases hz
  · have hk : run id (plainE p) (k + 1) (Cfg.init (plainE p) w) = .more d' := by
      rw [run_add, h5]
      simp only [run, k3]
    have hacc : ∃ N', run id (plainE p) N' d' = .done (.ok ()) dfin := by
      by_cases hle : N ≤ k + 1
      · obtain ⟨q, hq⟩ := Nat.exists_eq_add_of_le hle
        rw [hq, run_add, hN] at hk
        cases hk
      · obtain ⟨q, hq⟩ := Nat.exists_eq_add_of_le (Nat.le_of_not_le hle)
        rw [hq, run_add, hk] at hN
        exact ⟨q, hN⟩
    obtain ⟨N', hN'⟩ := hacc
    obtain ⟨f, f1, f2⟩ := contX (idx := idx) (nxt := nxt) hx hn N' k1 k2 hN'
    obtain ⟨K, hK⟩ := startX_cont f2
    have hK := hK w s
    rw [startX_single] at hK
    refine ⟨w, f, hb, f1, ?_, ?_⟩
    · rintro e s' rfl
      rcases k5 with ⟨e', s'', k5, k6⟩ | ⟨s'', k5, k6⟩
      · rw [k5] at h2
        cases h2
        rw [k6] at hK
        cases hf : f.performs idx nxt rules w s <;> rw [hf] at hK <;> simp only [Went.bind] at hK <;> cases hK
        rfl
      · rw [k5] at h2; cases h2
    · rintro s' rfl
      rcases k5 with ⟨e', s'', k5, k6⟩ | ⟨s'', k5, k6⟩
      · rw [k5] at h2; cases h2
      · rw [k5] at h2
        cases h2
        rw [k6] at hK
        cases hf : f.performs idx nxt rules w s <;> rw [hf] at hK <;> simp only [Went.bind] at hK <;> cases hK
        rfl

end

/-! ## C57 -/

/-- C57: if `parse` returns a value, then it has gone through a derivation tree over just the items that the source answered, asking for the
items and calling the callbacks in the order of the tree, one item in advance; the value and the world left behind are what this comes to.
The source has been asked until it answered `None`.  Conflicts may have been resolved. -/
theorem c57_sound (o : Seeds) (ho : o.Fair) (rules : List (ERule S N T E)) (start : Nat) (hok : (gramE rules start).Ok)
    (hn : (gramE rules start).NoError) (p : EParser S N T E) (ws : List Warning) (hp : MakesE o rules start p ws) (idx : T → Nat)
    (nxt : Source S T) (s : S) (v : N) (c : Cfg N T) (s' : S) (h : ParsesX idx nxt p s (.ok v) c s') :
    ∃ f, IsTree (rules.map ERule.plain) start id (c.read.map idx) f ∧
      f.performs idx nxt rules (c.read.map idx) s = .ok (.nt v) ⟨s', none, []⟩ := by
  obtain ⟨hd, fresh, hx⟩ := ctxX ho hok hp
  obtain ⟨n, h⟩ := h
  obtain ⟨k, c1, t, j, γ, fs, lg, as, args, _, h1, h2, h3, h4, h5, h6, hi⟩ := (lastX hx hd hn h (by simp)).2 c rfl _ (Begun.self c)
  rcases roundX hx hd hn hi with g | ⟨m, g1, g2, g3⟩
  · exact absurd g h6
  rw [g2] at h2
  rcases g3 with ⟨c2, s2, j', γ', fs', lg', as', args', k1, _⟩ | ⟨v', f, k1, k2, k3, k4, k5, k6⟩ | ⟨c2, k1, _⟩ |
        ⟨c2, d', j', γ', fs', lg', as', a, r, _, _, _, _, _, _, _, _, ⟨e', s'', k1, _⟩ | ⟨s'', k1, _⟩⟩
  · rw [k1] at h2; cases h2
  · obtain ⟨_, _, _, _, l5, _⟩ := hi.looked hx g1
    obtain ⟨l7, l8⟩ := l5 k6
    rw [k1] at h2
    simp only [EStep.done.injEq, Except.ok.injEq] at h2
    obtain ⟨e1, _, e3⟩ := h2
    subst e1
    have hm : m = ⟨s', none, []⟩ := by
      obtain ⟨mw, ml, mr⟩ := m
      simp only at e3 l7 l8
      rw [e3, l7, l8]
    have := hi.play
    rw [g1, k3, k4, startX_single] at this
    simp only at this
    refine ⟨f, k5, ?_⟩
    rw [← hm]
    cases hf : f.performs idx nxt rules (c.read.map idx) s <;> rw [hf] at this <;> simp only [Went.bind] at this <;> cases this
    rfl
  · rw [k1] at h2; cases h2
  · rw [k1] at h2; cases h2
  · rw [k1] at h2; cases h2

/-- `parse`, begun in world `s`, does what going through a tree comes to.  Nothing is said if the source answers something that does not fit
the tree. -/
def FollowsX (idx : T → Nat) (nxt : Source S T) (p : EParser S N T E) (s : S) : Went S T (Arg N T) E → Prop
  | .ok a m => ∃ v c, a = .nt v ∧ ParsesX idx nxt p s (.ok v) c m.world
  | .error e s' => ∃ c, ParsesX idx nxt p s (.error (.reducer e)) c s'
  | .panic s' => ∃ c, UnwindsX idx nxt p s c s'
  | .strays => True

/-- C57: without warnings, every sentence has a derivation tree that `parse` goes through if the source answers this sentence. -/
theorem c57_complete (o : Seeds) (ho : o.Fair) (rules : List (ERule S N T E)) (start : Nat) (hok : (gramE rules start).Ok)
    (hn : (gramE rules start).NoError) (p : EParser S N T E) (hp : MakesE o rules start p []) (idx : T → Nat) (nxt : Source S T) (s : S)
    (w : List Nat) (hw : (gramE rules start).Sentence w) :
    ∃ f, IsTree (rules.map ERule.plain) start id w f ∧ FollowsX idx nxt p s (f.performs idx nxt rules w s) := by
  obtain ⟨hd, fresh, hx⟩ := ctxX ho hok hp
  obtain ⟨d, n, hN⟩ := plain_accepts ho hok hp hw
  obtain ⟨f, h1, _, h3⟩ := mainX (idx := idx) (nxt := nxt) hx hd hn (s0 := s) n (InvX.init w s) hN
  refine ⟨f, h1, ?_⟩
  revert h3
  cases f.performs idx nxt rules w s with
  | ok a m => rintro ⟨v, c, h1, h2⟩; exact ⟨v, c, h1, n, h2⟩
  | error e s' => rintro ⟨c, h2⟩; exact ⟨c, n, h2⟩
  | panic s' => rintro ⟨c, h2⟩; exact ⟨c, n, h2⟩
  | strays => exact fun _ => trivial

/-- C57: without warnings and cycles, `parse` goes through any derivation tree that the answers of the source fit. -/
theorem c57_evaluation (o : Seeds) (ho : o.Fair) (rules : List (ERule S N T E)) (start : Nat) (hok : (gramE rules start).Ok)
    (hn : (gramE rules start).NoError) (hc : ¬ (gramE rules start).Cyclic) (p : EParser S N T E) (hp : MakesE o rules start p [])
    (idx : T → Nat) (nxt : Source S T) (s : S) (w : List Nat) (f : Tree Nat) (hf : IsTree (rules.map ERule.plain) start id w f) :
    FollowsX idx nxt p s (f.performs idx nxt rules w s) := by
  obtain ⟨f', h1, h2⟩ := c57_complete o ho rules start hok hn p hp idx nxt s w
    (by have := sentence_iff (g := gramE rules start) (idx := id) (input := w) |>.2 ⟨f, hf⟩; rwa [List.map_id] at this)
  have := c25_unambiguous o ho (gramE rules start) hok p.tab hp.1 hc id w f f' hf h1
  rw [this]
  exact h2

/-- C57: if a callback fails, then in a derivation tree of a sentence that begins with the items read so far. -/
theorem c57_failed (o : Seeds) (ho : o.Fair) (rules : List (ERule S N T E)) (start : Nat) (hok : (gramE rules start).Ok)
    (hn : (gramE rules start).NoError) (hpr : (gramE rules start).Productive) (p : EParser S N T E) (hp : MakesE o rules start p [])
    (idx : T → Nat) (nxt : Source S T) (s : S) :
    (∀ e c s', ParsesX idx nxt p s (.error (.reducer e)) c s' → ∃ w f, Begun idx c w ∧ IsTree (rules.map ERule.plain) start id w f ∧
      f.performs idx nxt rules w s = .error e s') ∧
    (∀ c s', UnwindsX idx nxt p s c s' → ∃ w f, Begun idx c w ∧ IsTree (rules.map ERule.plain) start id w f ∧
      f.performs idx nxt rules w s = .panic s') := by
  constructor
  · rintro e c s' ⟨n, h⟩
    obtain ⟨w, f, h1, h2, h3, _⟩ := failsX ho hok hn hpr hp h (Or.inl ⟨e, s', rfl⟩)
    exact ⟨w, f, h1, h2, h3 e s' rfl⟩
  · rintro c s' ⟨n, h⟩
    obtain ⟨w, f, h1, h2, _, h4⟩ := failsX ho hok hn hpr hp h (Or.inr ⟨s', rfl⟩)
    exact ⟨w, f, h1, h2, h4 s' rfl⟩

/-- C57: if `parse` returns `RecoveryRuleNotFound`, no sentence begins with the items read; after `None` they are no sentence. -/
theorem c57_rejected (o : Seeds) (ho : o.Fair) (rules : List (ERule S N T E)) (start : Nat) (hok : (gramE rules start).Ok)
    (hn : (gramE rules start).NoError) (p : EParser S N T E) (hp : MakesE o rules start p []) (idx : T → Nat) (nxt : Source S T) (s : S)
    (c : Cfg N T) (s' : S) (h : ParsesX idx nxt p s (.error .noRecovery) c s') (w : List Nat) (hb : Begun idx c w) :
    ¬ (gramE rules start).Sentence w := by
  intro hs
  obtain ⟨hd, fresh, hx⟩ := ctxX ho hok hp
  obtain ⟨n, h⟩ := h
  obtain ⟨k, c1, t, j, γ, fs, lg, as, args, _, h1, h2, h3, h4, h5, h6, hi⟩ := (lastX hx hd hn h (by simp)).2 c rfl w hb
  obtain ⟨d, hN⟩ := plain_accepts ho hok hp hs
  rcases roundX hx hd hn hi with g | ⟨m, g1, g2, g3⟩
  · exact absurd g h6
  rw [g2] at h2
  rcases g3 with ⟨c2, s2, j', γ', fs', lg', as', args', k1, _⟩ | ⟨v, f, k1, _⟩ | ⟨c2, k1, k2, _⟩ |
        ⟨c2, d', j', γ', fs', lg', as', a, r, _, _, _, _, _, _, _, _, ⟨e', s'', k1, _⟩ | ⟨s'', k1, _⟩⟩
  · rw [k1] at h2; cases h2
  · rw [k1] at h2; cases h2
  · have : ParsesTo id (plainE p) w (.error .noRecovery) (seenAs idx w c2) := by
      refine ⟨k + 1, ?_⟩
      rw [run_add, h5]
      simp only [run, k2]
    have := (hN.unique this).1
    cases this
  · rw [k1] at h2; cases h2
  · rw [k1] at h2; cases h2

/-- C57: at every moment the answers to all calls of `next` but the last begin a sentence: nothing more is asked of the source when it is
clear that there will be no result. -/
theorem c57_viable (o : Seeds) (ho : o.Fair) (rules : List (ERule S N T E)) (start : Nat) (hok : (gramE rules start).Ok)
    (hn : (gramE rules start).NoError) (hpr : (gramE rules start).Productive) (p : EParser S N T E) (ws : List Warning)
    (hp : MakesE o rules start p ws) (idx : T → Nat) (nxt : Source S T) (s : S) (n : Nat) (c : Cfg N T)
    (h : (runX idx nxt p n (p.init []) s).cfg? = some c) :
    ∃ w, (gramE rules start).Sentence w ∧ (c.read.map idx).take (c.pulls - 1) <+: w ∧ c.pulls ≤ c.read.length + 1 := by
  obtain ⟨hd, fresh, hx⟩ := ctxX ho hok hp
  have fin : ∀ {d : Cfg Unit Nat} {j γ fs lg as}, Inv (plainE p) (plainRulesE rules) id (c.read.map idx) d j γ fs lg as → errs fs = [] →
      c.pulls ≤ j + 1 → ∃ w, (gramE rules start).Sentence w ∧ (c.read.map idx).take (c.pulls - 1) <+: w := by
    intro d j γ fs lg as hi he hle
    obtain ⟨w, hw⟩ := (hi.viable hx (by rw [plainE_gram]; exact hn) (by rw [plainE_gram]; exact hpr) he).1
    rw [plainE_gram, List.map_id] at hw
    refine ⟨_, hw, ?_⟩
    exact (List.take_prefix_take_left (by omega)).trans (List.prefix_append _ _)
  by_cases hm : ∃ c' s', runX idx nxt p n (p.init []) s = .more c' s'
  · obtain ⟨c', s', hm⟩ := hm
    rw [hm] at h
    cases h
    obtain ⟨_, j, γ, fs, lg, as, args, hi⟩ := reachX hx hd hn s n c s' hm _ (Begun.self c)
    have hpl := hi.inv.pulls
    have hl : (seenAs idx (c.read.map idx) c).read.length = c.read.length := by simp [seenAs, Cfg.map, Cfg.withSrc]
    have hcl := (hi.inv.clean hi.clean).2.2.2
    have hq : (seenAs idx (c.read.map idx) c).pulls = c.pulls := rfl
    have hb : (seenAs idx (c.read.map idx) c).buffer = c.buffer := rfl
    rw [hl] at hcl hpl
    rw [hq] at hpl
    have : c.pulls ≤ j + 1 ∧ c.pulls ≤ c.read.length + 1 := by
      split at hpl
      · rename_i he
        rcases hi.inv.buf with h5 | ⟨_, _, h5⟩
        · rw [he] at h5
          exact absurd h5.symm bufOf_ne_eoi
        · rw [hl] at h5; omega
      · omega
    obtain ⟨w, h1, h2⟩ := fin hi.inv hi.clean this.1
    exact ⟨w, h1, h2, this.2⟩
  · have hm : ∀ c' s', runX idx nxt p n (p.init []) s ≠ .more c' s' := fun c' s' h => hm ⟨c', s', h⟩
    obtain ⟨k, c1, t, j, γ, fs, lg, as, args, _, h1, h2, h3, h4, h5, h6, hi⟩ := (lastX hx hd hn rfl hm).2 c h _ (Begun.self c)
    cases ha : aheadX idx nxt (c.read.map idx) c1 t with
    | none => exact absurd ha h6
    | some m =>
      obtain ⟨l1, l2, l3, l4, _, _, l7⟩ := hi.looked hx ha
      rw [← h4] at l7
      obtain ⟨w, w1, w2⟩ := fin hi.inv hi.clean l7
      refine ⟨w, w1, w2, ?_⟩
      rw [h3]
      omega

/-- C57: `parse` itself does not panic, whatever the source and the callbacks do to one another. -/
theorem c57_no_panic (o : Seeds) (ho : o.Fair) (rules : List (ERule S N T E)) (start : Nat) (hok : (gramE rules start).Ok)
    (hn : (gramE rules start).NoError) (p : EParser S N T E) (ws : List Warning) (hp : MakesE o rules start p ws) (idx : T → Nat)
    (nxt : Source S T) (s : S) : ¬ PanicsX idx nxt p s := by
  obtain ⟨hd, fresh, hx⟩ := ctxX ho hok hp
  rintro ⟨n, h⟩
  exact (lastX hx hd hn h (by simp)).1 rfl

/-- C57: the number of rounds is bounded by the number of items read, so that only a source that never answers `None` can keep `parse` busy
for ever. -/
theorem c57_linear (g : Gram) (hok : g.Ok) (hn : g.NoError) (hpr : g.Productive) :
    ∃ C, ∀ (S N T E : Type) (o : Seeds) (_ : o.Fair) (rules : List (ERule S N T E)) (_ : gramE rules g.start = g) (p : EParser S N T E)
      (_ : MakesE o rules g.start p []) (idx : T → Nat) (nxt : Source S T) (s : S) (n : Nat) (c : Cfg N T) (s' : S),
      runX idx nxt p n (p.init []) s = .more c s' → n < C * (c.read.length + 1) := by
  obtain ⟨C, hC⟩ := c52_linear g hok hn hpr
  refine ⟨C, ?_⟩
  intro S N T E o ho rules hr p hp idx nxt s n c s' h
  obtain ⟨hd, fresh, hx⟩ := ctxX ho (by rw [hr]; exact hok) hp
  obtain ⟨h1, _⟩ := reachX hx hd (by rw [hr]; exact hn) s n c s' h _ (Begun.self c)
  obtain ⟨m, x, d, h2, h3, _⟩ := hC Unit Nat Unit o ho (plainRulesE rules) (by rw [plainE_gram]; exact hr) (plainE p) (makes_plainE hp)
    id (c.read.map idx)
  simp only [List.length_map] at h2
  rcases Nat.lt_or_ge n m with h4 | h4
  · omega
  · exfalso
    obtain ⟨q, rfl⟩ := Nat.exists_eq_add_of_le h4
    rw [run_add, h3] at h1
    cases h1

/-- C57: `parse` has no more than one outcome. -/
theorem c57_one_outcome (p : EParser S N T E) (idx : T → Nat) (nxt : Source S T) (s : S) :
    (∀ x c s1 x' c' s1', ParsesX idx nxt p s x c s1 → ParsesX idx nxt p s x' c' s1' → x = x' ∧ c = c' ∧ s1 = s1') ∧
    (∀ c s1 c' s1', UnwindsX idx nxt p s c s1 → UnwindsX idx nxt p s c' s1' → c = c' ∧ s1 = s1') ∧
    ∀ x c s1 c' s1', ParsesX idx nxt p s x c s1 → ¬ UnwindsX idx nxt p s c' s1' := by
  have key : ∀ n m, (∀ c t, runX idx nxt p n (p.init []) s ≠ .more c t) → (∀ c t, runX idx nxt p m (p.init []) s ≠ .more c t) →
      runX idx nxt p n (p.init []) s = runX idx nxt p m (p.init []) s := by
    intro n m h1 h2
    have e1 : runX idx nxt p (n + m) (p.init []) s = runX idx nxt p n (p.init []) s := by
      rw [runX_add]
      cases h : runX idx nxt p n (p.init []) s with
      | more c t => exact absurd h (h1 c t)
      | done | unwind | panic => rfl
    have e2 : runX idx nxt p (m + n) (p.init []) s = runX idx nxt p m (p.init []) s := by
      rw [runX_add]
      cases h : runX idx nxt p m (p.init []) s with
      | more c t => exact absurd h (h2 c t)
      | done | unwind | panic => rfl
    rw [← e1, Nat.add_comm, e2]
  refine ⟨?_, ?_, ?_⟩
  · rintro x c s1 x' c' s1' ⟨n, hn⟩ ⟨m, hm⟩
    have := key n m (by rw [hn]; simp) (by rw [hm]; simp)
    rw [hn, hm] at this
    cases this
    exact ⟨rfl, rfl, rfl⟩
  · rintro c s1 c' s1' ⟨n, hn⟩ ⟨m, hm⟩
    have := key n m (by rw [hn]; simp) (by rw [hm]; simp)
    rw [hn, hm] at this
    cases this
    exact ⟨rfl, rfl⟩
  · rintro x c s1 c' s1' ⟨n, hn⟩ ⟨m, hm⟩
    have := key n m (by rw [hn]; simp) (by rw [hm]; simp)
    rw [hn, hm] at this
    cases this

/-- C57, all together: without warnings and cycles, `parse` returns a value, returns the error of a callback, or lets the panic of a callback
through, just when there is a derivation tree that the answers of the source fit so far and going through it comes to this.  If it returns
`RecoveryRuleNotFound`, the answers fit no derivation tree. -/
theorem c57_outcomes (o : Seeds) (ho : o.Fair) (rules : List (ERule S N T E)) (start : Nat) (hok : (gramE rules start).Ok)
    (hn : (gramE rules start).NoError) (hpr : (gramE rules start).Productive) (hc : ¬ (gramE rules start).Cyclic) (p : EParser S N T E)
    (hp : MakesE o rules start p []) (idx : T → Nat) (nxt : Source S T) (s : S) :
    (∀ v s', (∃ c, ParsesX idx nxt p s (.ok v) c s') ↔
      ∃ w f, IsTree (rules.map ERule.plain) start id w f ∧ f.performs idx nxt rules w s = .ok (.nt v) ⟨s', none, []⟩) ∧
    (∀ e s', (∃ c, ParsesX idx nxt p s (.error (.reducer e)) c s') ↔
      ∃ w f, IsTree (rules.map ERule.plain) start id w f ∧ f.performs idx nxt rules w s = .error e s') ∧
    (∀ s', (∃ c, UnwindsX idx nxt p s c s') ↔
      ∃ w f, IsTree (rules.map ERule.plain) start id w f ∧ f.performs idx nxt rules w s = .panic s') ∧
    ((∃ c s', ParsesX idx nxt p s (.error .noRecovery) c s') →
      ∀ w f, IsTree (rules.map ERule.plain) start id w f → f.performs idx nxt rules w s = .strays) := by
  have ev := c57_evaluation o ho rules start hok hn hc p hp idx nxt s
  obtain ⟨f1, f2⟩ := c57_failed o ho rules start hok hn hpr p hp idx nxt s
  obtain ⟨u1, u2, u3⟩ := c57_one_outcome p idx nxt s
  refine ⟨?_, ?_, ?_, ?_⟩
  · intro v s'
    constructor
    · rintro ⟨c, h⟩
      obtain ⟨f, h1, h2⟩ := c57_sound o ho rules start hok hn p [] hp idx nxt s v c s' h
      exact ⟨_, f, h1, h2⟩
    · rintro ⟨w, f, h1, h2⟩
      have := ev w f h1
      rw [h2] at this
      obtain ⟨v', c, h3, h4⟩ := this
      cases h3
      exact ⟨c, h4⟩
  · intro e s'
    constructor
    · rintro ⟨c, h⟩
      obtain ⟨w, f, _, h1, h2⟩ := f1 e c s' h
      exact ⟨w, f, h1, h2⟩
    · rintro ⟨w, f, h1, h2⟩
      have := ev w f h1
      rw [h2] at this
      exact this
  · intro s'
    constructor
    · rintro ⟨c, h⟩
      obtain ⟨w, f, _, h1, h2⟩ := f2 c s' h
      exact ⟨w, f, h1, h2⟩
    · rintro ⟨w, f, h1, h2⟩
      have := ev w f h1
      rw [h2] at this
      exact this
  · rintro ⟨c, s', h⟩ w f hf
    have := ev w f hf
    cases hp : f.performs idx nxt rules w s with
    | strays => rfl
    | ok a m =>
      rw [hp] at this
      obtain ⟨v, c', _, h4⟩ := this
      cases (u1 _ _ _ _ _ _ h h4).1
    | error e s2 =>
      rw [hp] at this
      obtain ⟨c', h4⟩ := this
      cases (u1 _ _ _ _ _ _ h h4).1
    | panic s2 =>
      rw [hp] at this
      obtain ⟨c', h4⟩ := this
      exact absurd h4 (u3 _ _ _ _ _ h)

/-- A list is drawn from, in a world that has nothing else to do with it. -/
def nxtList : Source (List T × S) T := fun s => (s.1.head?, (s.1.tail, s.2))

/-- The callback keeps away from the list. -/
def ERule.beside (A : Type) (r : ERule S N T E) : ERule (A × S) N T E :=
  ⟨r.lhs, r.rhs, fun s args => match r.act s.2 args with
    | .ok v s' => .ok v (s.1, s')
    | .error e s' => .error e (s.1, s')
    | .panic s' => .panic (s.1, s')⟩

def EParser.beside (A : Type) (p : EParser S N T E) : EParser (A × S) N T E := ⟨p.rules.map (ERule.beside A), p.tab⟩

/-- The rest of the input as part of the world. -/
def EStep.outside : EStep S N T E → EStep (List T × S) N T E
  | .more c s => .more (c.withSrc []) (c.src, s)
  | .done r c s => .done r (c.withSrc []) (c.src, s)
  | .unwind c s => .unwind (c.withSrc []) (c.src, s)
  | .panic => .panic

/-- C57: if the source is a list and the callbacks keep away from it, this is the parser with effects of C54 and C55. -/
theorem c57_apart (p : EParser S N T E) (idx : T → Nat) (input : List T) (s : S) (n : Nat) :
    runX idx nxtList (p.beside (List T)) n ((p.beside (List T)).init []) (input, s) = (runE idx p n (p.init input) s).outside := by
  have hpull : ∀ (c : Cfg N T) (s : S), pull idx nxtList (c.withSrc []) (c.src, s) = ((fill idx c).withSrc [], ((fill idx c).src, s)) := by
    rintro ⟨state, read, src, buffer, stack, recov, log, pulls⟩ s
    cases buffer with
    | cons b buffer => rfl
    | nil => cases src <;> rfl
  have hred : ∀ (c : Cfg N T) (s : S) (r : Nat), onReduceE (p.beside (List T)) (c.withSrc []) (c.src, s) r = (onReduceE p c s r).outside := by
    intro c s r
    unfold onReduceE
    simp only [EParser.beside, List.getElem?_map]
    cases p.rules[r]? with
    | none => rfl
    | some rule =>
      simp only [Option.map_some, ERule.beside]
      by_cases hlt : c.stack.length < rule.rhs.length
      · rw [if_pos hlt, if_pos (show (c.withSrc []).stack.length < rule.rhs.length from hlt)]; rfl
      · rw [if_neg hlt, if_neg (show ¬ (c.withSrc []).stack.length < rule.rhs.length from hlt)]
        simp only [Cfg.withSrc]
        cases mkArgs c.read 0 ((c.stack.take rule.rhs.length).reverse.map Prod.snd) with
        | none => rfl
        | some args =>
          simp only
          cases rule.act s args with
          | panic s' => rfl
          | error e s' => rfl
          | ok v s' =>
            simp only
            cases (get _ p.tab.goto).bind (get rule.lhs) <;> rfl
  have herr : ∀ (c : Cfg N T) (s : S) (a : Term) (i : Nat), (onError idx (⟨[], p.tab⟩ : Parser N T E) (c.withSrc []) a i).still (c.src, s) =
      ((onError idx (⟨[], p.tab⟩ : Parser N T E) c a i).still s).outside := by
    intro c s a i
    unfold onError
    simp only [Cfg.withSrc]
    cases recover p.tab.errors (a == .eoi) c.recov c.stack c.state i i false with
    | none => rfl
    | some x =>
      obtain ⟨state, stack, recov, head, errHead, back⟩ := x
      simp only
      cases repush idx c.read head i c.buffer with
      | none => rfl
      | some buffer =>
        simp only
        cases get state p.tab.action with
        | none => rfl
        | some acts =>
          simp only
          cases get Term.err acts with
          | none => rfl
          | some act => cases act <;> rfl
  have hstep : ∀ (c : Cfg N T) (s : S), stepE idx (p.beside (List T)) ((fill idx c).withSrc []) ((fill idx c).src, s) = (stepE idx p c s).outside := by
    intro c s
    have hb : (fill idx c).buffer ≠ [] := by
      unfold fill
      split
      · rename_i h; rw [h]; simp
      · split <;> simp
    unfold stepE
    rw [fill_eq (c := (fill idx c).withSrc []) hb]
    generalize fill idx c = d
    have e : (d.withSrc []).buffer = d.buffer ∧ (d.withSrc []).state = d.state ∧ (d.withSrc []).stack = d.stack := ⟨rfl, rfl, rfl⟩
    simp only [e.1, e.2.1, e.2.2]
    have et : (p.beside (List T)).tab = p.tab := rfl
    simp only [et]
    cases d.buffer with
    | nil => rfl
    | cons ai buffer =>
      obtain ⟨a, i⟩ := ai
      simp only
      cases get d.state p.tab.action with
      | none => rfl
      | some acts =>
        simp only
        cases get a acts with
        | none => exact herr d s a i
        | some act =>
          cases act with
          | shift q => cases a <;> rfl
          | reduce r => exact hred d s r
          | accept =>
            simp only
            cases d.stack with
            | nil => rfl
            | cons sy st =>
              obtain ⟨q, y⟩ := sy
              cases y <;> rfl
  have : ∀ (n : Nat) (c : Cfg N T) (s : S), runX idx nxtList (p.beside (List T)) n (c.withSrc []) (c.src, s) = (runE idx p n c s).outside := by
    intro n
    induction n with
    | zero => intro c s; rfl
    | succ n ih =>
      intro c s
      simp only [runX, runE, hpull, hstep]
      cases stepE idx p c s with
      | more c' s' => exact ih c' s'
      | done x c' s' => rfl
      | unwind c' s' => rfl
      | panic => rfl
  exact this n (p.init input) s

/-! ## Examples -/

/-- `S → D X X; D → d; X → known | unknown` -/
def gHack : Gram := ⟨[⟨0, [.nt 1, .nt 2, .nt 2]⟩, ⟨1, [.tm (.sym 0)]⟩, ⟨2, [.tm (.sym 1)]⟩, ⟨2, [.tm (.sym 2)]⟩], 0⟩

/-- The world is the position in the text `d x x` and whether `x` has been declared.  The callback of `D → d` declares it. -/
def rHack : List (ERule (Nat × Bool) Nat Nat Nat) :=
  [⟨0, [.nt 1, .nt 2, .nt 2], fun s args => match args with
      | [_, .nt x, .nt y] => .ok (10 * x + y) s
      | _ => .panic s⟩,
   ⟨1, [.tm (.sym 0)], fun s _ => .ok 0 (s.1, true)⟩,
   ⟨2, [.tm (.sym 1)], fun s _ => .ok 1 s⟩,
   ⟨2, [.tm (.sym 2)], fun s _ => .ok 2 s⟩]

/-- The tokenizer tells `x` as `known` (1) or `unknown` (2), as it has been declared or not. -/
def nxtHack : Source (Nat × Bool) Nat := fun s =>
  if s.1 = 0 then (some 0, (1, s.2)) else if s.1 ≤ 2 then (some (if s.2 then 1 else 2), (s.1 + 1, s.2)) else (none, s)

def pHack : EParser (Nat × Bool) Nat Nat Nat :=
  ⟨rHack ++ [⟨3, [.nt 0], fun s _ => .panic s⟩],
   { action := [(0, [(.sym 0, .shift 2)]), (1, [(.sym 1, .shift 5), (.sym 2, .shift 6)]), (2, [(.sym 1, .reduce 1), (.sym 2, .reduce 1)]),
       (3, [(.eoi, .accept)]), (4, [(.sym 1, .shift 8), (.sym 2, .shift 9)]), (5, [(.sym 1, .reduce 2), (.sym 2, .reduce 2)]),
       (6, [(.sym 1, .reduce 3), (.sym 2, .reduce 3)]), (7, [(.eoi, .reduce 0)]), (8, [(.eoi, .reduce 2)]), (9, [(.eoi, .reduce 3)])]
     goto := [(0, [(1, 1), (0, 3)]), (1, [(2, 4)]), (4, [(2, 7)])]
     errors := []
     start := 0 }⟩

theorem pHack_makes : MakesE idSeeds rHack 0 pHack [] := ⟨(⟨30, by decide, by simp⟩ : NewGives idSeeds gHack _), _, rfl⟩

theorem pHack_ok : (gramE rHack 0).Ok := (by decide : gHack.Ok)

theorem pHack_noError : (gramE rHack 0).NoError := (by unfold Gram.NoError; decide : gHack.NoError)

/-- C57: the item after a declaration has been asked for before the callback of the declaration is called.  So of the two `x` after `d` the
first is still told as unknown and only the second as known. -/
theorem c57_look_ahead : ∃ c, ParsesX id nxtHack pHack (0, false) (.ok 21) c (3, true) ∧ c.read = [0, 2, 1] := ⟨_, ⟨20, rfl⟩, rfl⟩

def fHack : Tree Nat := .node 0 [.node 1 [.leaf 0 0], .node 3 [.leaf 1 2], .node 2 [.leaf 2 1]]

theorem fHack_tree : IsTree (rHack.map ERule.plain) 0 id [0, 2, 1] fHack :=
  ⟨.node 0 ⟨0, [.nt 1, .nt 2, .nt 2]⟩ _ [] [] rfl
    (.node 1 ⟨1, [.tm (.sym 0)]⟩ _ _ _ rfl (.leaf 0 0 _ _ rfl .nil)
      (.node 3 ⟨2, [.tm (.sym 2)]⟩ _ _ _ rfl (.leaf 1 2 _ _ rfl .nil)
        (.node 2 ⟨2, [.tm (.sym 1)]⟩ _ _ _ rfl (.leaf 2 1 _ _ rfl .nil) .nil))) .nil, rfl, rfl⟩

-- c57_sound, c57_complete, c57_evaluation: this is what going through the tree of `d unknown known` comes to
example : fHack.performs id nxtHack rHack [0, 2, 1] (0, false) = .ok (.nt 21) ⟨(3, true), none, []⟩ := rfl

-- the tree of `d known known` does not fit
example : Tree.performs id nxtHack rHack [0, 1, 1] (.node 0 [.node 1 [.leaf 0 0], .node 2 [.leaf 1 1], .node 2 [.leaf 2 1]]) (0, false) = .strays :=
  rfl

example : ∃ f, IsTree (rHack.map ERule.plain) 0 id [0, 2, 1] f ∧ f.performs id nxtHack rHack [0, 2, 1] (0, false) = .ok (.nt 21) ⟨(3, true), none, []⟩ := by
  obtain ⟨c, h1, h2⟩ := c57_look_ahead
  have := c57_sound idSeeds idSeeds_fair rHack 0 pHack_ok pHack_noError pHack [] pHack_makes id nxtHack (0, false) 21 c (3, true) h1
  rwa [h2] at this

/-- A source that shares the counter of `rCount`: it answers `a` on numbers below the one given, then `b`, and `None` above. -/
def nxtCount (b : Nat) : Source Nat Nat := fun s => if s < b then (some 0, s + 1) else if s = b then (some 1, s + 1) else (none, s)

theorem rCount_productive : (gramE rCount 0).Productive := gRight_productive

theorem rCount_not_cyclic : ¬ (gramE rCount 0).Cyclic := gRight_not_cyclic

-- c57_failed: `a a a a b`, begun with 0: the callback of `S → b` finds the 5 the source left and fails
example : ∃ c, ParsesX id (nxtCount 4) pCount 0 (.error (.reducer 55)) c 6 ∧ c.read = [0, 0, 0, 0, 1] := ⟨_, ⟨20, rfl⟩, rfl⟩

-- and panics with a 7
example : ∃ c, UnwindsX id (nxtCount 6) pCount 0 c 8 := ⟨_, 20, rfl⟩

example : ∃ w f, IsTree (rCount.map ERule.plain) 0 id w f ∧ f.performs id (nxtCount 4) rCount w 0 = .error 55 6 :=
  ((c57_outcomes idSeeds idSeeds_fair rCount 0 pCount_ok pCount_noError rCount_productive rCount_not_cyclic pCount pCount_makes id (nxtCount 4)
    0).2.1 55 6).1 ⟨_, 20, rfl⟩

-- c57_rejected: the source answers `b a`; it is not asked for more
example : ∃ c s', ParsesX id (fun s => (some (if s = 0 then 1 else 0), s + 1)) pCount 0 (.error .noRecovery) c s' ∧ c.read = [1, 0] ∧ s' = 2 :=
  ⟨_, _, ⟨20, rfl⟩, rfl, rfl⟩

-- c57_linear: a source that never answers `None`
example : ∃ c s', runX id (fun s => (some 0, s)) pCount 7 (pCount.init []) 0 = .more c s' ∧ c.read.length = 7 := ⟨_, _, rfl, rfl⟩

end Verif.Par
