import Verif.Par.Residue
import Verif.Props.ParPart
import Verif.Props.ParFamily

/-!
# C97: languages for which every grammar has warnings

Whatever rules are written for the palindromes of two letters, `LR1Parser::new` has a warning for them.  What grammars without
warnings have in common: there is a finite list of languages such that every beginning of a sentence that is not its end can be
continued, within a sentence, to a point from where exactly the strings of one of the languages may follow.
-/

namespace Verif.Par

theorem slim_decided (o : Seeds) (ho : o.Fair) (g : Gram) (hok : g.Ok) (tab : Tables) (h : NewGives o g (.ok (tab, [])))
    (hs : ∃ w, g.Sentence w) : DecidedInside (Numbered g.slim.rules) g.slim.start := by
  have hs' : ∃ w, Gen g.rules [.nt g.start] (tms (syms w)) := by
    obtain ⟨w, hw⟩ := hs
    exact ⟨w, Gram.slim_gen (Gram.sentence_slim.1 hw)⟩
  have hfr := Gram.slim_fruitful hs'
  have hok' : g.slim.Ok := fun r hr => hok r (Gram.mem_slim.1 hr).1
  obtain ⟨r, ⟨fuel, h1, h2⟩, _⟩ := c20_new_terminates o ho g.slim hok'
  cases r with
  | fuel => exact absurd rfl h2
  | panic => exact absurd ((new_spec ho hok' fuel).2.1 h1) (hfr.not_bad (freshSym_unused g.slim))
  | ok x =>
    obtain ⟨tab', ws'⟩ := x
    have ha : Among g.slim.rules g.rules := ⟨_, .refl _, by unfold Gram.slim; exact List.filter_sublist⟩
    obtain rfl := c72_fewer_rules o o ho ho g g.slim hok ha rfl tab tab' ws' h ⟨fuel, h1, h2⟩
    exact hfr.decided_inside ((warn_iff (rules'_start g.slim) ((new_spec ho hok' fuel).1 tab' [] h1).2.1).1 rfl)

/-- C97: without warnings there is a finite list of languages such that every proper beginning of a sentence has a continuation,
within a sentence, after which exactly the strings of one of these languages may follow. -/
theorem c97_residues (o : Seeds) (ho : o.Fair) (g : Gram) (hok : g.Ok) (tab : Tables) (h : NewGives o g (.ok (tab, []))) :
    ∃ Ks : List (List Nat → Prop), ∀ u z, z ≠ [] → g.Sentence (u ++ z) →
      ∃ v z', g.Sentence (u ++ v ++ z') ∧ ∃ K ∈ Ks, ∀ y, g.Sentence (u ++ v ++ y) ↔ K y := by
  refine ⟨(residues g.slim.rules g.slim.start).map fun K z => K (syms z), fun u z hz hs => ?_⟩
  have hd := slim_decided o ho g hok tab h ⟨_, hs⟩
  have hs0 : ∃ w, Gen g.rules [.nt g.start] (tms (syms w)) := ⟨_, Gram.slim_gen (Gram.sentence_slim.1 hs)⟩
  obtain ⟨v, z', h1, K, hK, h2⟩ := residue_exists hd (syms u) (syms z) (by simpa [syms] using hz)
    (by have := Gram.sentence_slim.1 hs; simpa [syms] using this)
  obtain ⟨w, hw⟩ := Gram.slim_syms hs0 h1
  obtain ⟨w12, w3, rfl, e12, e3⟩ := List.map_eq_append_iff.1 hw.symm
  obtain ⟨w1, w2, rfl, e1, e2⟩ := List.map_eq_append_iff.1 e12
  have hv : v = syms w2 := e2.symm
  have hz' : z' = syms w3 := e3.symm
  subst hv hz'
  have e : ∀ y, tms (syms (u ++ w2 ++ y)) = tms (syms u ++ syms w2 ++ syms y) := by intro y; simp [syms]
  refine ⟨w2, w3, Gram.sentence_slim.2 (by rw [e]; exact h1), _, List.mem_map_of_mem hK, fun y => ?_⟩
  rw [Gram.sentence_slim, e]
  exact h2 (syms y)

/-- C97: if beginnings of sentences of different lengths never have the same continuations, and sentences are as long as one
likes, then there is a warning. -/
theorem c97_distinct (o : Seeds) (ho : o.Fair) (g : Gram) (hok : g.Ok) (tab : Tables) (ws : List Warning) (h : NewGives o g (.ok (tab, ws)))
    (hlong : ∀ n, ∃ u z, n ≤ u.length ∧ z ≠ [] ∧ g.Sentence (u ++ z))
    (hdiff : ∀ u u' z z', u.length < u'.length → g.Sentence (u ++ z) → g.Sentence (u' ++ z') →
      ¬ ∀ y, g.Sentence (u ++ y) ↔ g.Sentence (u' ++ y)) : ws ≠ [] := by
  rintro rfl
  obtain ⟨Ks, hKs⟩ := c97_residues o ho g hok tab h
  have key : ∀ Ks : List (List Nat → Prop), ¬ ∀ n, ∃ w z, n ≤ w.length ∧ g.Sentence (w ++ z) ∧ ∃ K ∈ Ks, ∀ y, g.Sentence (w ++ y) ↔ K y := by
    intro Ks
    induction Ks with
    | nil =>
      intro hn
      obtain ⟨_, _, _, _, K, hK, _⟩ := hn 0
      cases hK
    | cons K Ks ih =>
      intro hn
      by_cases h0 : ∃ w z, g.Sentence (w ++ z) ∧ ∀ y, g.Sentence (w ++ y) ↔ K y
      · obtain ⟨w, z, h1, h2⟩ := h0
        refine ih fun n => ?_
        obtain ⟨w', z', h3, h4, K', h5, h6⟩ := hn (n + w.length + 1)
        rcases List.mem_cons.1 h5 with rfl | h5
        · exact absurd (fun y => (h2 y).trans (h6 y).symm) (hdiff w w' z z' (by omega) h1 h4)
        · exact ⟨w', z', by omega, h4, K', h5, h6⟩
      · refine ih fun n => ?_
        obtain ⟨w', z', h3, h4, K', h5, h6⟩ := hn n
        rcases List.mem_cons.1 h5 with rfl | h5
        · exact absurd ⟨w', z', h4, h6⟩ h0
        · exact ⟨w', z', h3, h4, K', h5, h6⟩
  refine key Ks fun n => ?_
  obtain ⟨u, z, h1, h2, h3⟩ := hlong n
  obtain ⟨v, z', h4, K, h5, h6⟩ := hKs u z h2 h3
  exact ⟨u ++ v, z', by simp; omega, h4, K, h5, h6⟩

/-- C97: every grammar whose sentences are palindromes of some letters, among them those of even length, has warnings if there are
two letters.  So have all grammars for the palindromes and for the palindromes of even length. -/
theorem c97_palindromes (o : Seeds) (ho : o.Fair) (g : Gram) (hok : g.Ok) (tab : Tables) (ws : List Warning) (h : NewGives o g (.ok (tab, ws)))
    (letter : Nat → Prop) (a b : Nat) (ha : letter a) (hb : letter b) (hab : a ≠ b)
    (hpal : ∀ w, g.Sentence w → w.reverse = w ∧ ∀ x ∈ w, letter x)
    (heven : ∀ u : List Nat, (∀ x ∈ u, letter x) → g.Sentence (u ++ u.reverse)) : ws ≠ [] := by
  refine c97_distinct o ho g hok tab ws h (fun n => ?_) fun u u' z z' hlt hs hs' hall => ?_
  · refine ⟨List.replicate n a, a :: (a :: List.replicate n a), by simp, by simp, ?_⟩
    have := heven (List.replicate n a ++ [a]) (by simp; rintro x (⟨_, rfl⟩ | rfl) <;> exact ha)
    simpa using this
  · have hu : ∀ x ∈ u, letter x := fun x hx => (hpal _ hs).2 x (by simp [hx])
    have key : ∀ c, letter c → u'[u.length]? = some c := by
      intro c hc
      have h1 := heven (u ++ List.replicate u'.length c) (by
        intro x hx
        rcases List.mem_append.1 hx with hx | hx
        · exact hu x hx
        · rw [(List.mem_replicate.1 hx).2]; exact hc)
      have h2 : g.Sentence (u ++ (List.replicate u'.length c ++ (u ++ List.replicate u'.length c).reverse)) := by simpa using h1
      have h3 := (hpal _ ((hall _).1 h2)).1
      have h4 := congrArg (fun l => l[u.length]?) h3
      have h5 : (u' ++ (List.replicate u'.length c ++ (u ++ List.replicate u'.length c).reverse)).reverse
          = u ++ (List.replicate u'.length c ++ (List.replicate u'.length c ++ u'.reverse)) := by
        simp only [List.reverse_append, List.reverse_reverse, List.reverse_replicate, List.append_assoc]
      simp only [h5] at h4
      rw [List.getElem?_append_right (Nat.le_refl _), List.getElem?_append_left hlt, List.getElem?_append_left (by simp; omega)] at h4
      rw [← h4, Nat.sub_self, List.getElem?_replicate, if_pos (by omega)]
    have := (key a ha).symm.trans (key b hb)
    exact hab (Option.some.inj this)

/-! ## Examples -/

/-- `S → 0 S 0 | 1 S 1 | m`. -/
def gMirrored (m : List Nat) : Gram :=
  { start := 0
    rules := [⟨0, [.tm (.sym 0), .nt 0, .tm (.sym 0)]⟩, ⟨0, [.tm (.sym 1), .nt 0, .tm (.sym 1)]⟩, ⟨0, tms (syms m)⟩] }

theorem gen_tokens {R : List PRule} {m : List Term} {w : List Sym} (h : Gen R (tms m) w) : w = tms m := by
  induction m generalizing w with
  | nil => exact h.nil_left
  | cons a m ih =>
    obtain ⟨v, rfl, hv⟩ := Gen.terminal (t := a) (l := tms m) (by simpa using h)
    rw [ih hv]; rfl

theorem mirrored_sentence (m w : List Nat) : (gMirrored m).Sentence w ↔ ∃ u, (∀ x ∈ u, x = 0 ∨ x = 1) ∧ w = u ++ m ++ u.reverse := by
  have e : (w.map fun t => Sym.tm (.sym t)) = tms (syms w) := by simp [tms, syms]
  unfold Gram.Sentence
  rw [e, ← gen_iff]
  constructor
  · clear e
    generalize hn : w.length = n
    intro h
    induction n using Nat.strongRecOn generalizing w with
    | _ n ih =>
      have two : ∀ c, (c = 0 ∨ c = 1) → Gen (gMirrored m).rules [.tm (.sym c), .nt 0, .tm (.sym c)] (tms (syms w)) →
          ∃ u, (∀ x ∈ u, x = 0 ∨ x = 1) ∧ w = u ++ m ++ u.reverse := by
        intro c hc h
        obtain ⟨v, h1, h2⟩ := h.terminal
        obtain ⟨v1, v2, h3, h4, h5⟩ := h2.split_cons
        obtain ⟨v3, h6, h7⟩ := h5.terminal
        have := h7.nil_left
        subst this
        cases w with
        | nil => simp [syms] at h1
        | cons d w =>
          simp [syms] at h1
          obtain ⟨rfl, h1⟩ := h1
          have h1' : v1 ++ v2 = tms (syms w) := by rw [← h3, ← h1]; simp [syms]
          obtain ⟨w1, w2, rfl, e1, e2⟩ := syms_split h1'
          subst e1
          rw [h6] at e2
          cases w2 with
          | nil => simp [syms] at e2
          | cons d' w2 =>
            simp [syms] at e2
            obtain ⟨rfl, e2⟩ := e2
            obtain rfl : w2 = [] := by simpa using e2
            obtain ⟨u, hu, hw⟩ := ih w1.length (by simp at hn; omega) w1 rfl h4
            refine ⟨d :: u, ?_, by rw [hw]; simp⟩
            intro x hx
            rcases List.mem_cons.1 hx with rfl | hx
            · exact hc
            · exact hu x hx
      rcases gen_single h with h | ⟨r, hr, h1, h2⟩
      · cases w with
        | nil => simp [syms] at h
        | cons a w => simp [syms] at h
      · simp only [gMirrored, List.mem_cons, List.not_mem_nil, or_false] at hr
        rcases hr with rfl | rfl | rfl
        · exact two 0 (.inl rfl) h2
        · exact two 1 (.inr rfl) h2
        · have := gen_tokens h2
          have : w = m := by
            have := tms_inj this
            simpa [syms, List.map_inj_right] using this
          exact ⟨[], by simp, by simp [this]⟩
  · rintro ⟨u, hu, rfl⟩
    clear e
    induction u with
    | nil =>
      have := Gen.rule (R := (gMirrored m).rules) (r := ⟨0, tms (syms m)⟩) (by simp [gMirrored])
      simpa [gMirrored] using this
    | cons x u ih =>
      have ih := ih fun y hy => hu y (by simp [hy])
      have h1 : (⟨0, [.tm (.sym x), .nt 0, .tm (.sym x)]⟩ : PRule) ∈ (gMirrored m).rules := by
        rcases hu x (by simp) with rfl | rfl <;> simp [gMirrored]
      have h2 := (Gen.rule h1).trans ((Gen.refl [.tm (.sym x)]).append (ih.append (Gen.refl [.tm (.sym x)])))
      simpa [gMirrored, syms] using h2

/-- C97: a mark in the middle is enough: `S → 0 S 0 | 1 S 1 | 2` has no warnings. -/
theorem c97_marked : (∃ tab, NewGives idSeeds (gMirrored [2]) (.ok (tab, []))) ∧
    ∀ w, (gMirrored [2]).Sentence w ↔ ∃ u, (∀ x ∈ u, x = 0 ∨ x = 1) ∧ w = u ++ 2 :: u.reverse :=
  ⟨⟨_, 60, rfl, by simp⟩, fun w => by rw [mirrored_sentence]; simp⟩

/-- C97: `S → 0 S 0 | 1 S 1 |` is a grammar for the palindromes of even length, with tables. -/
example : (∃ tab ws, NewGives idSeeds (gMirrored []) (.ok (tab, ws))) ∧
    (∀ w, (gMirrored []).Sentence w → w.reverse = w ∧ ∀ x ∈ w, x = 0 ∨ x = 1) ∧
    ∀ u : List Nat, (∀ x ∈ u, x = 0 ∨ x = 1) → (gMirrored []).Sentence (u ++ u.reverse) := by
  refine ⟨⟨_, _, 60, rfl, by simp⟩, fun w hw => ?_, fun u hu => (mirrored_sentence _ _).2 ⟨u, hu, by simp⟩⟩
  obtain ⟨u, hu, rfl⟩ := (mirrored_sentence _ _).1 hw
  refine ⟨by simp, fun x hx => hu x ?_⟩
  simpa using hx

/-- C97: that the letters differ is needed: `S → 0 0 S |` has no warnings. -/
example : ∃ tab, NewGives idSeeds ⟨[⟨0, [.tm (.sym 0), .tm (.sym 0), .nt 0]⟩, ⟨0, []⟩], 0⟩ (.ok (tab, [])) := ⟨_, 60, rfl, by simp⟩

/-- C97: a proper beginning of a sentence in a grammar without warnings. -/
example : (gMirrored [2]).Sentence ([0, 1, 2] ++ [1, 0]) := (mirrored_sentence _ _).2 ⟨[0, 1], by decide, rfl⟩

end Verif.Par
