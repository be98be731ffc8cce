import Verif.Props.TokGen

/-!
# Tokenizing a text in pieces: C60
-/

namespace Verif.Tok

variable {π ρ α E : Type} {parse : π → Except ρ Hir} {s : Seeds} {ps : List (π × (List Nat → List α → E))}
  {t : Tokenizer α E} {ws : List (Nat × Nat)}

/-! ## Specification -/

/-- The first calls of `next` on `input` return the tokens `es` and leave `rest`. -/
def Takes (t : Tokenizer α E) (map : α → Nat) (input : List α) (es : List E) (rest : List α) : Prop :=
  ∃ it, t.calls map es.length (It.start input) = (es.map .token, it) ∧ it.rest = rest

/-- On the text `w` alone, the first token is all of `w`. -/
def OneToken (t : Tokenizer α E) (map : α → Nat) (w : List α) : Prop :=
  ∃ e it, t.next map (It.start w) = (.token e, it) ∧ it.rest = []

/-! ## Lemmas -/

/-- What the tables accept. -/
def Acc' (t : Tokenizer α E) (k : Nat) (w : List Nat) : Prop := t.accepts w = some k

theorem next_acc (hparse : ParserOk parse) (hs : s.Fair) (hb : BuildsTo s parse ps (.ok (t, ws))) (map : α → Nat) (it : It α) :
    ((t.next map it).1 = .none ∧ NoToken (Acc' t) map it.rest) ∨
    ∃ (n k : Nat) (p : π × (List Nat → List α → E)), NextToken (Acc' t) map it.rest n k ∧ ps[k]? = some p ∧
      (t.next map it).1 = .token (p.2 ((it.rest.take n).map map) (it.rest.take n)) ∧ (t.next map it).2.rest = it.rest.drop n := by
  obtain ⟨r, _, _, _, _, ⟨a1, _, a3⟩ | ⟨n, k, p, b0, _, b2, b3, b4, b5, b6⟩⟩ := next_built map hparse hs hb it
  · left
    refine ⟨a1, ?_⟩
    intro n j hj
    rw [List.map_take, Acc', a3 n] at hj
    cases hj
  · right
    refine ⟨n, k, p, ⟨b0, ?_, ?_, ?_⟩, b2, by rw [List.map_take]; exact b5, b6⟩
    · rw [List.map_take]; exact b3
    · intro j hj
      rw [List.map_take, Acc', b3]
      simp; omega
    · intro m hm hm' j
      rw [List.map_take, Acc', b4 m hm hm']
      simp

theorem takes_iff (hparse : ParserOk parse) (hs : s.Fair) (hb : BuildsTo s parse ps (.ok (t, ws))) (map : α → Nat) (input : List α)
    (es : List E) (rest : List α) : Takes t map input es rest ↔ Tokens (Acc' t) ps map input es rest :=
  (stream_spec (next_acc hparse hs hb map) input es).1 rest

theorem oneToken_iff (hparse : ParserOk parse) (hs : s.Fair) (hb : BuildsTo s parse ps (.ok (t, ws))) (map : α → Nat) (w : List α) :
    OneToken t map w ↔ ∃ k, Acc' t k (w.map map) := by
  have hr : (It.start w).rest = w := by simp [It.rest, It.start]
  rcases next_acc hparse hs hb map (It.start w) with ⟨h1, h2⟩ | ⟨n, k, p, h1, h2, h3, h4⟩
  · rw [hr] at h2
    constructor
    · rintro ⟨e, it, he, _⟩
      rw [he] at h1
      cases h1
    · rintro ⟨k, hk⟩
      exact absurd (by simpa using hk) (h2 w.length k)
  · rw [hr] at h1 h3 h4
    constructor
    · rintro ⟨e, it, he, hre⟩
      rw [he] at h4
      simp only [hre] at h4
      have : w.length ≤ n := by
        have := congrArg List.length h4
        simp at this
        omega
      have e : w.take n = w := List.take_of_length_le this
      exact ⟨k, by simpa [e] using h1.2.1⟩
    · rintro ⟨k', hk⟩
      have hn : n = w.length := by
        rcases Nat.lt_or_ge n w.length with hlt | hge
        · exact absurd (by simpa using hk) (h1.2.2.2 w.length hlt (Nat.le_refl _) k')
        · exact Nat.le_antisymm h1.1 hge
      refine ⟨_, _, Prod.ext h3 rfl, ?_⟩
      rw [h4, hn]
      simp

/-- The outcomes of `next` depend only on the items not yet consumed. -/
theorem next_rest (hparse : ParserOk parse) (hs : s.Fair) (hb : BuildsTo s parse ps (.ok (t, ws))) (map : α → Nat) {it it' : It α}
    (h : it.rest = it'.rest) : (t.next map it).1 = (t.next map it').1 ∧ (t.next map it).2.rest = (t.next map it').2.rest := by
  obtain ⟨r, a1, a2, a3, _, a5⟩ := next_built map hparse hs hb it
  obtain ⟨r', b1, b2, b3, _, b5⟩ := next_built map hparse hs hb it'
  rw [← h] at b1 b2 b3 b5
  have hr : r = r' := by
    rcases Nat.lt_trichotomy r r' with hlt | he | hlt
    · rcases a3 with a3 | a3
      · omega
      · exact absurd a3 (b2 r hlt)
    · exact he
    · rcases b3 with b3 | b3
      · omega
      · exact absurd b3 (a2 r' hlt)
  subst hr
  rcases a5 with ⟨c1, c2, c3⟩ | ⟨n, k, p, c0, c1, c2, c3, c4, c5, c6⟩ <;> rcases b5 with ⟨d1, d2, d3⟩ | ⟨m, k', p', d0, d1, d2, d3, d4, d5, d6⟩
  · exact ⟨by rw [c1, d1], by rw [c2, d2]⟩
  · rw [c3 m] at d3; cases d3
  · rw [d3 n] at c3; cases c3
  · have hn : n = m := by
      rcases Nat.lt_trichotomy n m with hlt | he | hlt
      · rw [c4 m hlt d0] at d3; cases d3
      · exact he
      · rw [d4 n hlt c0] at c3; cases c3
    subst hn
    rw [c3] at d3
    cases d3
    rw [c2] at d2
    cases d2
    exact ⟨by rw [c5, d5], by rw [c6, d6]⟩

theorem calls_rest (hparse : ParserOk parse) (hs : s.Fair) (hb : BuildsTo s parse ps (.ok (t, ws))) (map : α → Nat) : ∀ (n : Nat) {it it' : It α},
    it.rest = it'.rest → (t.calls map n it).1 = (t.calls map n it').1
  | 0, _, _, _ => rfl
  | n + 1, it, it', h => by
    obtain ⟨h1, h2⟩ := next_rest hparse hs hb map h
    show (t.next map it).1 :: (t.calls map n (t.next map it).2).1 = (t.next map it').1 :: (t.calls map n (t.next map it').2).1
    rw [h1, calls_rest hparse hs hb map n h2]

theorem calls_add (t : Tokenizer α E) (map : α → Nat) : ∀ (m n : Nat) (it : It α),
    t.calls map (m + n) it = ((t.calls map m it).1 ++ (t.calls map n (t.calls map m it).2).1, (t.calls map n (t.calls map m it).2).2)
  | 0, n, it => by rw [Nat.zero_add]; rfl
  | m + 1, n, it => by
    have := calls_add t map m n (t.next map it).2
    rw [show m + 1 + n = (m + n) + 1 by omega]
    show ((t.next map it).1 :: (t.calls map (m + n) (t.next map it).2).1, (t.calls map (m + n) (t.next map it).2).2) = _
    rw [this]
    rfl

section
variable {M : Nat → List Nat → Prop} {map : α → Nat}

theorem Tokens.suffix {l : List α} {es : List E} {rest : List α} (h : Tokens M ps map l es rest) : ∃ c, l = c ++ rest := by
  induction h with
  | nil l => exact ⟨[], rfl⟩
  | cons l n k p es rest _ _ _ ih =>
    obtain ⟨c, hc⟩ := ih
    exact ⟨l.take n ++ c, by rw [List.append_assoc, ← hc, List.take_append_drop]⟩

theorem Tokens.det {l : List α} {es : List E} {rest rest' : List α} (h : Tokens M ps map l es rest) (h' : Tokens M ps map l es rest') : rest = rest' := by
  induction h with
  | nil l => cases h'; rfl
  | cons l n k p es rest h1 _ _ ih =>
    generalize he : p.2 ((l.take n).map map) (l.take n) = e at h'
    cases h' with
    | cons _ n' k' p' _ _ g1 g2 g3 =>
      obtain ⟨rfl, rfl⟩ := h1.unique g1
      exact ih g3

theorem Tokens.append {l mid rest : List α} {es fs : List E} (h : Tokens M ps map l es mid) (h' : Tokens M ps map mid fs rest) :
    Tokens M ps map l (es ++ fs) rest := by
  induction h with
  | nil l => exact h'
  | cons l n k p es mid h1 h2 _ ih => exact .cons l n k p _ _ h1 h2 (ih h')

theorem Tokens.split : ∀ {es fs : List E} {l rest : List α}, Tokens M ps map l (es ++ fs) rest → ∃ mid, Tokens M ps map l es mid ∧ Tokens M ps map mid fs rest
  | [], _, l, _, h => ⟨l, .nil l, h⟩
  | e :: es, fs, l, rest, h => by
    generalize hx : e :: es ++ fs = xs at h
    cases h with
    | nil => cases hx
    | cons _ n k p xs _ h1 h2 h3 =>
      simp only [List.cons_append, List.cons.injEq] at hx
      obtain ⟨rfl, rfl⟩ := hx
      obtain ⟨mid, g1, g2⟩ := h3.split
      exact ⟨mid, .cons l n k p es mid h1 h2 g1, g2⟩

theorem NextToken.le {l c v : List α} {n k : Nat} (_ : NextToken M map l n k) (h : l.drop n = c ++ v) (hn : n ≤ l.length) {u : List α} (hl : l = u ++ v) :
    n ≤ u.length ∧ u.drop n = c := by
  have hlen := congrArg List.length h
  rw [hl] at hlen hn
  simp only [List.length_drop, List.length_append] at hlen hn
  have hu : n ≤ u.length := by omega
  refine ⟨hu, ?_⟩
  rw [hl, List.drop_append_of_le_length hu] at h
  exact List.append_cancel_right h

theorem NextToken.cut {u v : List α} {n k : Nat} (h : NextToken M map (u ++ v) n k) (hn : n ≤ u.length) : NextToken M map u n k := by
  obtain ⟨_, h2, h3, h4⟩ := h
  have ht : ∀ m, m ≤ u.length → (u ++ v).take m = u.take m := fun m hm => List.take_append_of_le_length hm
  refine ⟨hn, by rw [← ht n hn]; exact h2, fun j hj => by rw [← ht n hn]; exact h3 j hj, ?_⟩
  intro m hm hm' j
  rw [← ht m hm']
  exact h4 m hm (by simp; omega) j

/-- Tokens that leave `y` of `x`, if the text goes on behind. -/
theorem Tokens.cut {l : List α} {es : List E} {rest : List α} (h : Tokens M ps map l es rest) : ∀ {x y v : List α}, l = x ++ v → rest = y ++ v →
    Tokens M ps map x es y := by
  induction h with
  | nil l =>
    intro x y v h1 h2
    rw [h1] at h2
    rw [List.append_cancel_right h2]
    exact .nil _
  | cons l n k p es rest h1 h2 h3 ih =>
    intro x y v e1 e2
    obtain ⟨c, hc⟩ := h3.suffix
    rw [e2, ← List.append_assoc] at hc
    obtain ⟨hn, hd⟩ := h1.le hc h1.1 e1
    have hi := ih (x := c ++ y) (v := v) hc e2
    rw [← hd] at hi
    rw [e1] at h1 ⊢
    rw [List.take_append_of_le_length hn]
    exact .cons x n k p es y (h1.cut hn) h2 hi

/-- No match begins where a token begins and reaches over the end of `u` into `v`. -/
def Apart (M : Nat → List Nat → Prop) (ps : List (π × (List Nat → List α → E))) (map : α → Nat) (u v : List α) (es : List E) : Prop :=
  ∀ es1 e es2 rest1, es = es1 ++ e :: es2 → Tokens M ps map u es1 rest1 → ∀ b, b ≠ [] → b <+: v → ∀ k, ¬ M k ((rest1 ++ b).map map)

theorem Tokens.apart {u v : List α} {es : List E} (h : Tokens M ps map (u ++ v) es v) : Apart M ps map u v es := by
  rintro es1 e es2 rest1 rfl h1 b hb ⟨b', rfl⟩ k
  obtain ⟨mid, g1, g2⟩ := h.split
  obtain ⟨c, rfl⟩ := g2.suffix
  have := (g1.cut rfl rfl).det h1
  subst this
  generalize hx : e :: es2 = xs at g2
  generalize hy : c ++ (b ++ b') = ys at g2
  generalize hz : b ++ b' = zs at g2
  cases g2 with
  | nil => cases hx
  | cons _ n k' p xs _ a1 a2 a3 =>
    subst hy hz
    obtain ⟨d, hd⟩ := a3.suffix
    have hle := (a1.le hd a1.1 rfl).1
    have := a1.2.2.2 (c.length + b.length) (by have := List.length_pos_iff.2 hb; omega) (by simp) k
    rwa [List.take_append, List.take_of_length_le (by omega), show c.length + b.length - c.length = b.length by omega, List.take_append_of_le_length (Nat.le_refl _),
      List.take_length] at this

theorem Tokens.join {u : List α} {es : List E} {y v : List α} (h : Tokens M ps map u es y) : Apart M ps map u v es → Tokens M ps map (u ++ v) es (y ++ v) := by
  induction h with
  | nil l => intro _; exact .nil _
  | cons l n k p es rest h1 h2 h3 ih =>
    intro ha
    have hn := h1.1
    rw [← List.take_append_of_le_length (l₂ := v) hn]
    refine .cons (l ++ v) n k p es _ ⟨by simp; omega, ?_, ?_, ?_⟩ h2 ?_
    · rw [List.take_append_of_le_length hn]; exact h1.2.1
    · rw [List.take_append_of_le_length hn]; exact h1.2.2.1
    · intro m hm hm' j
      rcases Nat.lt_or_ge l.length m |>.symm with hle | hlt
      · rw [List.take_append_of_le_length hle]
        exact h1.2.2.2 m hm hle j
      · rw [List.take_append, List.take_of_length_le (by omega)]
        refine ha [] _ es l rfl (.nil l) (v.take (m - l.length)) ?_ (List.take_prefix _ _) j
        intro e
        simp only [List.length_append] at hm'
        rcases List.take_eq_nil_iff.1 e with e | e
        · omega
        · rw [e] at hm'
          simp only [List.length_nil] at hm'
          omega
    · rw [List.drop_append_of_le_length hn]
      apply ih
      rintro es1 e es2 rest1 rfl g1
      exact ha (_ :: es1) e es2 rest1 rfl (.cons l n k p es1 rest1 h1 h2 g1)

end

/-! ## C60 -/

/-- C60: if on the text `u ++ v` the first tokens are `es` and cover exactly `u`, then `u` alone has the tokens `es`, and all
further calls have the outcomes they have on `v` alone. -/
theorem c60_parts (hparse : ParserOk parse) (hs : s.Fair) (hb : BuildsTo s parse ps (.ok (t, ws))) (map : α → Nat) (u v : List α) (es : List E)
    (h : Takes t map (u ++ v) es v) :
    Takes t map u es [] ∧
    ∀ n, (t.calls map (es.length + n) (It.start (u ++ v))).1 = es.map .token ++ (t.calls map n (It.start v)).1 := by
  constructor
  · rw [takes_iff hparse hs hb] at h ⊢
    exact h.cut (y := []) rfl rfl
  · intro n
    obtain ⟨it, h1, h2⟩ := h
    rw [calls_add, h1]
    rw [calls_rest hparse hs hb map n (it := it) (it' := It.start v) (by rw [h2]; simp [It.rest, It.start])]

/-- C60: two texts that have a token end in front of the same rest have the same tokens from there on. -/
theorem c60_resync (hparse : ParserOk parse) (hs : s.Fair) (hb : BuildsTo s parse ps (.ok (t, ws))) (map : α → Nat) (x y v : List α)
    (es es' : List E) (h : Takes t map (x ++ v) es v) (h' : Takes t map (y ++ v) es' v) (n : Nat) :
    (t.calls map (es.length + n) (It.start (x ++ v))).1.drop es.length = (t.calls map (es'.length + n) (It.start (y ++ v))).1.drop es'.length := by
  rw [(c60_parts hparse hs hb map x v es h).2 n, (c60_parts hparse hs hb map y v es' h').2 n]
  rw [List.drop_left' (by simp), List.drop_left' (by simp)]

/-- C60, exactly when pieces can be tokenized separately: `u` is covered by the tokens `es`, and no text that begins where
one of these tokens begins and ends within `v` is a token. -/
theorem c60_join_iff (hparse : ParserOk parse) (hs : s.Fair) (hb : BuildsTo s parse ps (.ok (t, ws))) (map : α → Nat) (u v : List α) (es : List E) :
    Takes t map (u ++ v) es v ↔ Takes t map u es [] ∧
      ∀ es1 e es2 rest1, es = es1 ++ e :: es2 → Takes t map u es1 rest1 → ∀ b, b ≠ [] → b <+: v → ¬ OneToken t map (rest1 ++ b) := by
  simp only [takes_iff hparse hs hb, oneToken_iff hparse hs hb, not_exists]
  constructor
  · intro h
    exact ⟨h.cut (y := []) rfl rfl, h.apart⟩
  · rintro ⟨h, ha⟩
    exact h.join (y := []) ha

/-- C60: an item behind which no token goes on (a line end, say): a text can be cut behind each such item. -/
theorem c60_separator (hparse : ParserOk parse) (hs : s.Fair) (hb : BuildsTo s parse ps (.ok (t, ws))) (map : α → Nat) (x : α)
    (hsep : ∀ w w', w' ≠ [] → ¬ OneToken t map (w ++ x :: w')) (hne : ¬ OneToken t map []) (u v : List α) (es : List E) :
    (Takes t map (u ++ [x]) es [] → Takes t map (u ++ x :: v) es v) ∧
    ∀ (lines : List (List α)) (ess : List (List E)), lines.length = ess.length →
      (∀ (i : Nat) l es, lines[i]? = some l → ess[i]? = some es → Takes t map (l ++ [x]) es []) →
      Takes t map (lines.flatMap fun l => l ++ [x]) ess.flatten [] := by
  have one : ∀ (u v : List α) (es : List E), Takes t map (u ++ [x]) es [] → Takes t map (u ++ x :: v) es v := by
    intro u v es h
    have e : u ++ x :: v = (u ++ [x]) ++ v := by simp
    rw [e, c60_join_iff hparse hs hb]
    refine ⟨h, ?_⟩
    rintro es1 e es2 rest1 rfl h1 b hb' _
    rw [takes_iff hparse hs hb] at h h1
    obtain ⟨mid, g1, g2⟩ := h.split
    have := g1.det h1
    subst this
    obtain ⟨c, hc⟩ := g1.suffix
    rcases List.eq_nil_or_concat mid with rfl | ⟨d, z, rfl⟩
    · exfalso
      apply hne
      rw [oneToken_iff hparse hs hb]
      generalize hx : e :: es2 = xs at g2
      generalize hy : ([] : List α) = ys at g2
      cases g2 with
      | nil => cases hx
      | cons _ n k' p xs _ a1 a2 a3 =>
        subst hy
        exact ⟨k', by simpa using a1.2.1⟩
    · have : u ++ [x] = (c ++ d) ++ [z] := by rw [hc]; simp
      have := List.append_inj_right' this rfl
      cases this
      have := hsep d b hb'
      simpa using this
  refine ⟨one u v es, ?_⟩
  intro lines
  induction lines with
  | nil =>
    intro ess hl _
    cases ess with
    | nil => exact ⟨_, rfl, rfl⟩
    | cons _ _ => cases hl
  | cons l lines ih =>
    intro ess hl h
    cases ess with
    | nil => cases hl
    | cons es ess =>
      have h1 := one l (lines.flatMap fun l => l ++ [x]) es (h 0 l es rfl rfl)
      have h2 := ih ess (by simpa using hl) fun i l es hi he => h (i + 1) l es hi he
      rw [takes_iff hparse hs hb] at h1 h2 ⊢
      simpa using h1.append h2

/-! ## Examples -/

/-- `a+` and the line end, as tokens with their text. -/
def linePats : List (Hir × (List Nat → List Nat → Nat × List Nat)) := tagged [.rep .oneOrMore ra, .classU [(10, 10)]]

/-- The tokenizer built from them. -/
def lineTok : Tokenizer Nat (Nat × List Nat) :=
  { dfa := { rows := [[((10, 11), 2), ((97, 98), 1)], [((97, 98), 1)], []], b := 0, ends := [none, some 0, some 1] }, maker := linePats.map Prod.snd }

theorem lineTok_builds : BuildsTo seeds0 parse0 linePats (.ok (lineTok, [])) := ⟨50, rfl⟩

/-- Pieces that are cut elsewhere may have other tokens: `aa` is one token, `a` and `a` are two. -/
theorem c60_not_anywhere : Takes lineTok id [97] [(0, [97])] [] ∧ Takes lineTok id [97, 97] [(0, [97, 97])] [] ∧
    ¬ Takes lineTok id [97, 97] [(0, [97])] [97] := by
  refine ⟨⟨_, rfl, rfl⟩, ⟨_, rfl, rfl⟩, ?_⟩
  rintro ⟨it, h, _⟩
  have h : (lineTok.calls id 1 (It.start [97, 97])).1 = [.token (0, [97])] := congrArg Prod.fst h
  revert h
  decide

/-- No token goes on behind a line end. -/
theorem lineTok_sep (w w' : List Nat) (hw : w' ≠ []) : ¬ OneToken lineTok id (w ++ 10 :: w') := by
  rw [oneToken_iff parse0_ok seeds0_fair lineTok_builds]
  rintro ⟨k, hk⟩
  have key : ∀ (w : List Nat) (q : Nat), lineTok.dfa.run q (w ++ 10 :: w') = none := by
    intro w
    induction w with
    | nil =>
      intro q
      cases w' with
      | nil => exact absurd rfl hw
      | cons c w' =>
        match q with
        | 0 => rfl
        | 1 => rfl
        | 2 => rfl
        | q + 3 => rfl
    | cons c w ih =>
      intro q
      simp only [List.cons_append, DFA.run]
      cases lineTok.dfa.next q c with
      | none => rfl
      | some m => exact ih m
  simp [Acc', Tokenizer.accepts, DFA.obs, key] at hk

/-- Line by line. -/
example : Takes lineTok id ([97, 97] ++ [10] ++ ([97] ++ [10])) [(0, [97, 97]), (1, [10]), (0, [97]), (1, [10])] [] := by
  have h := (c60_separator parse0_ok seeds0_fair lineTok_builds id 10 lineTok_sep (by
    rw [oneToken_iff parse0_ok seeds0_fair lineTok_builds]
    rintro ⟨k, hk⟩
    cases hk) [] [] []).2 [[97, 97], [97]] [[(0, [97, 97]), (1, [10])], [(0, [97]), (1, [10])]] rfl
  refine h ?_
  intro i l es h1 h2
  match i with
  | 0 => cases h1; cases h2; exact ⟨_, rfl, rfl⟩
  | 1 => cases h1; cases h2; exact ⟨_, rfl, rfl⟩
  | i + 2 => cases h1

/-- After an edit of the first line the tokens of the rest are the same: the calls after the first line give the same. -/
example : (lineTok.calls id 4 (It.start ([97, 10] ++ [97, 10]))).1.drop 2 = (lineTok.calls id 3 (It.start ([10] ++ [97, 10]))).1.drop 1 :=
  c60_resync parse0_ok seeds0_fair lineTok_builds id [97, 10] [10] [97, 10] [(0, [97]), (1, [10])] [(1, [10])] ⟨_, rfl, rfl⟩ ⟨_, rfl, rfl⟩ 2

end Verif.Tok
