import Verif.Tok.LayoutProof
import Verif.Props.Calc
import Verif.Props.ParComplete
import Verif.Props.TokRead

/-!
# Property C92: white space, and reading what has been written
-/

namespace Verif.Par

open Verif.Tok (BlanksApart chunks Spelled Worded GoesOn PatCode)

variable {N T E α π ρ : Type} {parse : π → Except ρ Tok.Hir} {ts : Tok.Seeds} {t : Tok.Tokenizer α (Option T)}
  {ps : List (π × (List Nat → List α → Option T))} {tws : List (Nat × Nat)}

/-! ## C92 -/

/-- C92: two texts with the same parts between blanks have the same tokens (after `flatten`). -/
theorem c92_tokens (hparse : Tok.ParserOk parse) (hs : ts.Fair) (hc : Tok.Calm ts parse ps) (hb : Tok.BuildsTo ts parse ps (.ok (t, tws)))
    (map : α → Nat) (B : Nat → Bool) (hB : BlanksApart (PatCode parse ps) ps map B) (u v : List α) (huv : chunks B map u = chunks B map v) :
    ∃ es es' it it' fuel, t.collect map fuel (Tok.It.start u) = some (es, it) ∧ t.collect map fuel (Tok.It.start v) = some (es', it') ∧
      es.filterMap id = es'.filterMap id := by
  obtain ⟨es, rest, h1, h2⟩ := Tok.tokens_exist (map := map) hparse hs hc hb hB.nonempty u
  obtain ⟨es', rest', h1', h2'⟩ := Tok.tokens_exist (map := map) hparse hs hc hb hB.nonempty v
  obtain ⟨n, it, hn⟩ := (Tok.c41_stream hparse hs hc hb map u es).2.2 ⟨rest, h1, h2⟩
  obtain ⟨m, it', hm⟩ := (Tok.c41_stream hparse hs hc hb map v es').2.2 ⟨rest', h1', h2'⟩
  have mono : ∀ (n k : Nat) (it : Tok.It α) r, t.collect map n it = some r → t.collect map (n + k) it = some r := by
    intro n k
    induction n with
    | zero => intro it r h; cases h
    | succ n ih =>
      intro it r h
      rw [Nat.add_right_comm]
      unfold Tok.Tokenizer.collect at h ⊢
      split at h
      · rename_i e it1 he
        cases hr : t.collect map n it1 with
        | none => rw [hr] at h; cases h
        | some r' =>
          rw [hr] at h
          simp only [ih _ _ hr]
          exact h
      · exact h
  refine ⟨es, es', it, it', n + m, mono n m _ _ hn, ?_, ?_⟩
  · rw [Nat.add_comm]; exact mono m n _ _ hm
  · have g1 := Tok.chunks_give hB h1 h2
    have g2 := Tok.chunks_give hB h1' h2'
    rw [huv] at g1
    exact g1.det hB.nonempty g2

/-- C92: so `parse` does the same on both: same result, same calls of the callbacks, same number of tokens read, same panics and endless runs. -/
theorem c92_layout (hparse : Tok.ParserOk parse) (hs : ts.Fair) (hc : Tok.Calm ts parse ps) (hb : Tok.BuildsTo ts parse ps (.ok (t, tws)))
    (map : α → Nat) (B : Nat → Bool) (hB : BlanksApart (PatCode parse ps) ps map B) (u v : List α) (huv : chunks B map u = chunks B map v)
    (o : Seeds) (ho : o.Fair) (rules : List (Rule N T E)) (start : Nat) (hok : (gram rules start).Ok)
    (p : Parser N T E) (ws : List Warning) (hm : MakesParser o rules start p ws) (idx : T → Nat) (f : Source (Tok.It α) T) (hf : Flattens (tokSource t map) f) :
    (∀ x c it, ParsesFrom idx f p (Tok.It.start u) x c it →
      ∃ c' it', ParsesFrom idx f p (Tok.It.start v) x c' it' ∧ c'.log = c.log ∧ c'.pulls = c.pulls) ∧
    (PanicsFrom idx f p (Tok.It.start u) ↔ PanicsFrom idx f p (Tok.It.start v)) ∧
    (DivergesFrom idx f p (Tok.It.start u) ↔ DivergesFrom idx f p (Tok.It.start v)) := by
  obtain ⟨es, rest, h1, h2⟩ := Tok.tokens_exist (map := map) hparse hs hc hb hB.nonempty u
  obtain ⟨es', rest', h1', h2'⟩ := Tok.tokens_exist (map := map) hparse hs hc hb hB.nonempty v
  have g1 := Tok.chunks_give hB h1 h2
  have g2 := Tok.chunks_give hB h1' h2'
  rw [huv] at g1
  have e := g1.det hB.nonempty g2
  obtain ⟨a1, a2, a3, a4⟩ := c47_flatten hparse hs hc hb o ho rules start hok p ws hm idx map u es rest h1 h2 f hf
  obtain ⟨b1, b2, b3, b4⟩ := c47_flatten hparse hs hc hb o ho rules start hok p ws hm idx map v es' rest' h1' h2' f hf
  rw [← e] at b1 b2 b3 b4
  refine ⟨?_, a3.trans b3.symm, a4.trans b4.symm⟩
  intro x c it h
  obtain ⟨_, c0, k1, k2, k3⟩ := a1 x c it h
  obtain ⟨c', it', k4⟩ := b2 x c0 k1
  obtain ⟨_, c1, k5, k6, k7⟩ := b1 x c' it' k4
  obtain ⟨_, rfl⟩ := k1.unique k5
  exact ⟨c', it', k4, by rw [← k6, k2], by rw [← k7, k3]⟩

/-- C92: words that are kept apart by blanks are read as these words, wherever the blanks are. -/
theorem c92_separated (hparse : Tok.ParserOk parse) (hs : ts.Fair) (hc : Tok.Calm ts parse ps) (hb : Tok.BuildsTo ts parse ps (.ok (t, tws)))
    (map : α → Nat) (B : Nat → Bool) (hB : BlanksApart (PatCode parse ps) ps map B) (u : List α) (es : List (Option T))
    (hu : Worded (PatCode parse ps) ps map (chunks B map u) es) :
    ∃ all it fuel, t.collect map fuel (Tok.It.start u) = some (all, it) ∧ all.filterMap id = es.filterMap id := by
  obtain ⟨all, rest, h1, h2⟩ := Tok.tokens_exist (map := map) hparse hs hc hb hB.nonempty u
  obtain ⟨n, it, hn⟩ := (Tok.c41_stream hparse hs hc hb map u all).2.2 ⟨rest, h1, h2⟩
  exact ⟨all, it, n, hn, (Tok.chunks_give hB h1 h2).det hB.nonempty hu.give⟩

/-- C92: words one behind the other, with or without blanks, are read as these words if no word goes on with the first character of the next. -/
theorem c92_spelled {F : Type} {t : Tok.Tokenizer α F} {ps : List (π × (List Nat → List α → F))}
    (hparse : Tok.ParserOk parse) (hs : ts.Fair) (hc : Tok.Calm ts parse ps) (hb : Tok.BuildsTo ts parse ps (.ok (t, tws)))
    (map : α → Nat) (h0 : ∀ k, ¬ PatCode parse ps k []) (l : List (List α)) (es : List F) (hl : Spelled (PatCode parse ps) ps map l es) :
    ∃ fuel it, t.collect map fuel (Tok.It.start l.flatten) = some (es, it) :=
  (Tok.c41_stream hparse hs hc hb map l.flatten es).2.2 ⟨[], hl.tokens, Tok.no_token_nil h0⟩

/-- C92: whether a word can go on can be seen in the tables (for patterns without empty character classes). -/
theorem c92_goes_on {F : Type} {t : Tok.Tokenizer α F} {ps : List (π × (List Nat → List α → F))}
    (hparse : Tok.ParserOk parse) (hs : ts.Fair) (hc : Tok.Calm ts parse ps) (hl : Tok.PatsLive parse ps) (hb : Tok.BuildsTo ts parse ps (.ok (t, tws)))
    (u : List Nat) (c : Nat) : GoesOn (PatCode parse ps) u c ↔ ps ≠ [] ∧ ¬ t.stuck (u ++ [c]) := by
  constructor
  · rintro ⟨z, j, h⟩
    refine ⟨?_, fun hst => ?_⟩
    · rintro rfl
      obtain ⟨p, _, h1, _⟩ := h
      cases h1
    · have hn : t.accepts (u ++ c :: z) = none := by
        have e : u ++ c :: z = (u ++ [c]) ++ z := by simp
        simp only [Tok.Tokenizer.accepts, Tok.DFA.obs, e, Tok.DFA.run_append, show t.dfa.run t.dfa.b (u ++ [c]) = none from hst]
        rfl
      exact (Tok.c41_translated_language hparse hs hc hb _).2.1 hn j h
  · rintro ⟨hne, h⟩
    rw [Tok.stuck_iff_viable hparse hs hc hl hne hb, Classical.not_not] at h
    obtain ⟨v, k, _, h⟩ := h
    exact ⟨v, k, by simpa using h⟩

/-- C92: reading what has been written.  If the grammar gives no warnings, then for every tree, however its tokens are spelled, `parse` makes the calls of this
tree and returns its value. -/
theorem c92_roundtrip (hparse : Tok.ParserOk parse) (hs : ts.Fair) (hc : Tok.Calm ts parse ps) (hb : Tok.BuildsTo ts parse ps (.ok (t, tws)))
    (map : α → Nat) (h0 : ∀ k, ¬ PatCode parse ps k []) (l : List (List α)) (es : List (Option T)) (hl : Spelled (PatCode parse ps) ps map l es)
    (o : Seeds) (ho : o.Fair) (rules : List (Rule N T E)) (start : Nat) (hok : (gram rules start).Ok) (hcy : ¬ (gram rules start).Cyclic)
    (p : Parser N T E) (hm : MakesParser o rules start p []) (idx : T → Nat) (f : Source (Tok.It α) T) (hf : Flattens (tokSource t map) f)
    (tree : Tree T) (htree : IsTree (rules.map Rule.plain) start idx (es.filterMap id) tree) (calls : List (Call N T)) (v : N)
    (hev : Evals rules [tree] calls (.ok [.nt v])) :
    ∃ c it, ParsesFrom idx f p (Tok.It.start l.flatten) (.ok v) c it ∧ c.log.reverse = calls := by
  obtain ⟨a1, a2, _, _⟩ := c47_flatten hparse hs hc hb o ho rules start hok p [] hm idx map l.flatten es [] hl.tokens (Tok.no_token_nil h0) f hf
  obtain ⟨c0, k1, k2⟩ := ((c30_evaluation o ho rules start hok p hm hcy idx (es.filterMap id) tree htree calls).1 v).1 hev
  obtain ⟨c, it, k3⟩ := a2 _ _ k1
  obtain ⟨_, c1, k4, k5, _⟩ := a1 _ _ _ k3
  obtain ⟨_, rfl⟩ := k1.unique k4
  exact ⟨c, it, k3, by rw [← k5, k2]⟩

/-! ## The calculator -/

section
open Verif.Calc

variable {V : Type}

theorem numeral_chars {w : List Nat} (h : Numeral w) : ∀ c ∈ w, Digit c ∨ c = 46 ∨ c = 69 ∨ c = 101 ∨ c = 43 ∨ c = 45 := by
  obtain ⟨m, x, rfl, hm, hx⟩ := h
  intro c hc
  rcases List.mem_append.1 hc with hc | hc
  · rcases (mantissa_chars hm).2 c hc with h | h <;> simp [h]
  · rcases hx with rfl | ⟨e, s, d, rfl, he, hs, _, hd⟩
    · cases hc
    · simp only [List.mem_cons, List.mem_append] at hc
      rcases hc with rfl | hc | hc
      · rcases he with rfl | rfl <;> simp
      · rcases hs with rfl | rfl | rfl <;> simp at hc <;> simp [hc]
      · exact .inl (hd c hc)

/-- Characters that are in no token of the calculator: no digits, no points, no operators, no brackets, no letters of `sqrt` and no `e`. -/
def Idle (c : Nat) : Prop :=
  ¬ Digit c ∧ c ≠ 46 ∧ c ≠ 69 ∧ c ≠ 101 ∧ c ≠ 43 ∧ c ≠ 45 ∧ c ≠ 42 ∧ c ≠ 47 ∧ c ≠ 40 ∧ c ≠ 41 ∧ c ≠ 115 ∧ c ≠ 113 ∧ c ≠ 114 ∧ c ≠ 116 ∧ c < 0x110000

theorem calc_blanks (A : Arith V) (B : Nat → Bool) (hB : ∀ c, B c = true → Idle c) : BlanksApart (PatCode Tok.parse0 (pats A)) (pats A) id B := by
  have hI : ∀ c, ¬ Idle c → B c = false := by
    intro c h
    cases hc : B c with
    | false => rfl
    | true => exact absurd (hB c hc) h
  have hbusy : ∀ k w, k ≠ 8 → Matches k w → ∀ c ∈ w, B c = false := by
    intro k w hk h c hc
    apply hI
    unfold Idle
    unfold Matches at h
    split at h
    · rcases numeral_chars h c hc with h | h | h | h | h | h <;> simp [h]
    all_goals first
      | (subst h; simp at hc; simp [hc]; done)
      | (subst h; simp at hc; rcases hc with rfl | rfl | rfl | rfl <;> simp; done)
      | (exact absurd rfl hk)
      | (exact h.elim)
  refine ⟨?_, ?_, ?_, ?_⟩
  · intro k
    rw [patCode_iff]
    exact not_matches_nil k
  · intro k w h
    rw [patCode_iff] at h
    by_cases hk : k = 8
    · subst hk
      obtain ⟨c, rfl, _⟩ := h
      cases hc : B c with
      | true => exact .inl (by simp [hc])
      | false => exact .inr (by simp [hc])
    · exact .inr (hbusy k w hk h)
  · intro x hx
    exact ⟨8, patCode_iff.2 ⟨x, rfl, (hB x hx).2.2.2.2.2.2.2.2.2.2.2.2.2.2⟩⟩
  · intro k p w hp h hw
    rw [patCode_iff, List.map_id] at h
    by_cases hk : k = 8
    · subst hk
      cases hp
      rfl
    · exfalso
      cases w with
      | nil => exact not_matches_nil k h
      | cons x w =>
        have h1 := hbusy k _ hk h x (by simp)
        have h2 := hw x (by simp)
        rw [id_eq, h1] at h2
        cases h2

/-- C92: the calculator's answer does not change if blanks are replaced by others, on any text; blanks are any characters of no token. -/
theorem c92_calculator (A : Arith V) (o : Par.Seeds) (ho : o.Fair) (p : Parser (Val V) (Token V) Unit) (ws : List Warning) (hm : MakesParser o (rules A) start p ws)
    (ts : Tok.Seeds) (hs : ts.Fair) (t : Tok.Tokenizer Nat (Option (Token V))) (tws : List (Nat × Nat)) (hb : Tok.BuildsTo ts Tok.parse0 (pats A) (.ok (t, tws)))
    (f : Source (Tok.It Nat) (Token V)) (hf : Flattens (tokSource t id) f) (B : Nat → Bool) (hB : ∀ c, B c = true → Idle c) (u v : List Nat)
    (huv : chunks B id u = chunks B id v) (x : Except (PErr Unit) (Val V)) :
    (∃ c it, ParsesFrom Token.index f p (Tok.It.start u) x c it) ↔ ∃ c it, ParsesFrom Token.index f p (Tok.It.start v) x c it := by
  have key := fun u v h => (c92_layout Tok.parse0_ok hs (pats_calm A ts hs) hb id B (calc_blanks A B hB) u v h o ho (rules A) start gCalc_ok p ws hm Token.index f hf).1
  constructor
  · rintro ⟨c, it, h⟩
    obtain ⟨c', it', h', _⟩ := key u v huv x c it h
    exact ⟨c', it', h'⟩
  · rintro ⟨c, it, h⟩
    obtain ⟨c', it', h', _⟩ := key v u huv.symm x c it h
    exact ⟨c', it', h'⟩

/-- Spaces and line ends. -/
example : (∀ c, (c == 32 || c == 10) = true → Idle c) ∧
    chunks (fun c => c == 32 || c == 10) id [49, 32, 43, 50, 10] = chunks (fun c => c == 32 || c == 10) id [10, 49, 10, 32, 43, 50] := by
  refine ⟨?_, rfl⟩
  intro c h
  simp only [Bool.or_eq_true, beq_iff_eq] at h
  rcases h with rfl | rfl <;> simp [Idle, Digit]

end

/-! ## Examples -/

/-- `a+`, `b` and blanks. -/
def spPats : List (Tok.Hir × (List Nat → List Nat → Option Nat)) :=
  [(.rep .oneOrMore Tok.ra, fun _ _ => some 0), (Tok.rb, fun _ _ => some 1), (.rep .oneOrMore (.classU [(32, 32)]), fun _ _ => none)]

/-- The tokenizer built from them. -/
def spTok : Tok.Tokenizer Nat (Option Nat) :=
  match Tok.builderBuild 50 Tok.seeds0 Tok.parse0 spPats with
  | some (.ok r) => r.1
  | _ => { dfa := { b := 0, rows := [], ends := [] }, maker := [] }

theorem spTok_builds : Tok.BuildsTo Tok.seeds0 Tok.parse0 spPats (.ok (spTok, [])) := ⟨50, rfl⟩

theorem spTok_calm : Tok.Calm Tok.seeds0 Tok.parse0 spPats := fun _ => Iff.rfl

theorem spPats_iff (w : List Nat) : (∀ k, spTok.accepts w = some k ↔ PatCode Tok.parse0 spPats k w ∧ ∀ j < k, ¬ PatCode Tok.parse0 spPats j w) ∧
    (spTok.accepts w = none ↔ ∀ j, ¬ PatCode Tok.parse0 spPats j w) :=
  Tok.c41_translated_language Tok.parse0_ok Tok.seeds0_fair spTok_calm spTok_builds w

theorem spPats_live : Tok.PatsLive Tok.parse0 spPats := by
  intro p hp h hh
  simp only [spPats, List.mem_cons, List.not_mem_nil, or_false] at hp
  rcases hp with rfl | rfl | rfl <;> cases hh <;> rfl

/-- The text `aa b` from its words. -/
theorem sp_spelled : Spelled (PatCode Tok.parse0 spPats) spPats id [[97, 97], [32], [98]] [some 0, none, some 1] := by
  have hgo := c92_goes_on Tok.parse0_ok Tok.seeds0_fair spTok_calm spPats_live spTok_builds
  have h1 := ((spPats_iff [97, 97]).1 0).1 rfl
  have h2 := ((spPats_iff [32]).1 2).1 rfl
  have h3 := ((spPats_iff [98]).1 1).1 rfl
  refine .cons [97, 97] 0 (.rep .oneOrMore Tok.ra, fun _ _ => some 0) _ _ (by simp) h1.1 h1.2 rfl ?_
    (.cons [32] 2 (.rep .oneOrMore (.classU [(32, 32)]), fun _ _ => none) _ _ (by simp) h2.1 h2.2 rfl ?_
      (.cons [98] 1 (Tok.rb, fun _ _ => some 1) _ _ (by simp) h3.1 h3.2 rfl ?_ .nil))
  · intro x v e
    cases e
    rw [hgo]
    exact fun h => h.2 rfl
  · intro x v e
    cases e
    rw [hgo]
    exact fun h => h.2 rfl
  · intro x v e
    cases e

/-- The hypotheses of `c92_roundtrip` are met: `aa b` is read as a tree of `S → a S`, `S → b`, which has the value 1. -/
example (f : Source (Tok.It Nat) Nat) (hf : Flattens (tokSource spTok id) f) : ∃ c it, ParsesFrom id f pRight (Tok.It.start [97, 97, 32, 98]) (.ok 1) c it := by
  obtain ⟨c, it, h, _⟩ := c92_roundtrip Tok.parse0_ok Tok.seeds0_fair spTok_calm spTok_builds id (fun k h => (spPats_iff []).2.1 rfl k h) _ _ sp_spelled
    idSeeds idSeeds_fair rRight 0 (by decide) gRight_not_cyclic pRight pRight_makes id f hf (.node 0 [.leaf 0 0, .node 1 [.leaf 1 1]])
    ⟨.node 0 ⟨0, [.tm (.sym 0), .nt 0]⟩ _ _ _ rfl (.leaf 0 0 _ _ rfl (.node 1 ⟨0, [.tm (.sym 1)]⟩ _ _ _ rfl (.leaf 1 1 _ _ rfl .nil) .nil)) .nil, rfl, rfl⟩ _ 1
    (.node 0 _ _ _ _ 1 _ _ _ rfl (.leaf _ _ _ _ _ (.node 1 _ _ _ _ 0 _ _ _ rfl (.leaf _ _ _ _ _ .nil) rfl .nil)) rfl .nil)
  exact ⟨c, it, h⟩

/-- The word `a b`, `a`, `b` and blanks. -/
def mixPats : List (Tok.Hir × (List Nat → List Nat → Option Nat)) :=
  [(.concat [Tok.ra, .classU [(32, 32)], Tok.rb], fun _ _ => some 2), (Tok.ra, fun _ _ => some 0), (Tok.rb, fun _ _ => some 1),
   (.rep .oneOrMore (.classU [(32, 32)]), fun _ _ => none)]

def mixTok : Tok.Tokenizer Nat (Option Nat) :=
  match Tok.builderBuild 50 Tok.seeds0 Tok.parse0 mixPats with
  | some (.ok r) => r.1
  | _ => { dfa := { b := 0, rows := [], ends := [] }, maker := [] }

/-- C92: if blanks can be inside of words, they matter: with the words `a b`, `a`, `b`, the texts `a b` and `a  b` have different tokens. -/
theorem c92_needs_unmixed : Tok.BuildsTo Tok.seeds0 Tok.parse0 mixPats (.ok (mixTok, [])) ∧
    chunks (fun c => c == 32) id [97, 32, 98] = chunks (fun c => c == 32) id [97, 32, 32, 98] ∧
    (∃ it, mixTok.collect id 9 (Tok.It.start [97, 32, 98]) = some ([some 2], it)) ∧
    ∃ it, mixTok.collect id 9 (Tok.It.start [97, 32, 32, 98]) = some ([some 0, none, some 1], it) :=
  ⟨⟨50, rfl⟩, rfl, ⟨_, rfl⟩, ⟨_, rfl⟩⟩

/-- C92: blanks must not disappear where a word can go on: `a a` and `aa` have different tokens. -/
theorem c92_needs_blank : (∃ it, spTok.collect id 9 (Tok.It.start [97, 32, 97]) = some ([some 0, none, some 0], it)) ∧
    (∃ it, spTok.collect id 9 (Tok.It.start [97, 97]) = some ([some 0], it)) ∧ GoesOn (PatCode Tok.parse0 spPats) [97] 97 :=
  ⟨⟨_, rfl⟩, ⟨_, rfl⟩, (c92_goes_on Tok.parse0_ok Tok.seeds0_fair spTok_calm spPats_live spTok_builds _ _).2 ⟨by simp [spPats], fun h => by cases h⟩⟩

end Verif.Par
