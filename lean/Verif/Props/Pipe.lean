import Verif.Par.PipeProof
import Verif.Props.ParSource

/-!
# Property C47: from text to parse result
-/

namespace Verif.Par

variable {N T E F α π ρ : Type} {parse : π → Except ρ Tok.Hir} {ts : Tok.Seeds} {t : Tok.Tokenizer α T}
  {ps : List (π × (List Nat → List α → T))} {tws : List (Nat × Nat)}

/-! ## C47 -/

/-- C47: parsing the token stream of a text.  If longest match / first pattern takes the tokens `es` from the text and then can take no
more, the outcome is that of parsing the list `es`; when `parse` ends after reading `k` of the tokens, the tokenizer is left behind
them. -/
theorem c47_pipeline (hparse : Tok.ParserOk parse) (hs : ts.Fair) (hc : Tok.Calm ts parse ps) (hb : Tok.BuildsTo ts parse ps (.ok (t, tws)))
    (o : Seeds) (ho : o.Fair) (rules : List (Rule N T E)) (start : Nat) (hok : (gram rules start).Ok)
    (p : Parser N T E) (ws : List Warning) (hm : MakesParser o rules start p ws) (idx : T → Nat) (map : α → Nat)
    (text : List α) (es : List T) (rest : List α) (ht : Tok.Tokens (Tok.PatCode parse ps) ps map text es rest)
    (hr : Tok.NoToken (Tok.PatCode parse ps) map rest) :
    (∀ x c it, ParsesFrom idx (tokSource t map) p (Tok.It.start text) x c it → c.pulls ≤ es.length + 1 ∧
      (c.pulls ≤ es.length → Tok.Tokens (Tok.PatCode parse ps) ps map text (es.take c.pulls) it.rest) ∧
      ∃ c0, ParsesTo idx p es x c0 ∧ c0.log = c.log ∧ c0.pulls = c.pulls) ∧
    (∀ x c0, ParsesTo idx p es x c0 → ∃ c it, ParsesFrom idx (tokSource t map) p (Tok.It.start text) x c it) ∧
    (PanicsFrom idx (tokSource t map) p (Tok.It.start text) ↔ ParsePanics idx p es) ∧
    (DivergesFrom idx (tokSource t map) p (Tok.It.start text) ↔ ParseDiverges idx p es) := by
  have hstream := fun es => Tok.c41_stream hparse hs hc hb map text es
  obtain ⟨fuel, it, hcol⟩ := (hstream es).2.2 ⟨rest, ht, hr⟩
  have hg := tokSource_gives es fuel _ _ hcol
  obtain ⟨h1, h2, h3, h4⟩ := c46_source o ho rules start hok p ws hm idx (tokSource t map) (Tok.It.start text) es hg
  refine ⟨fun x c it h => ?_, h2, h3, h4⟩
  obtain ⟨k1, k2, k3⟩ := h1 x c it h
  refine ⟨k1, fun hle => ?_, k3⟩
  obtain ⟨mid, hmid⟩ := tokens_split ht c.pulls
  obtain ⟨it1, g1, g2⟩ := ((hstream _).1 mid).2 hmid
  rw [List.length_take, Nat.min_eq_left hle] at g1
  have := calls_after t map c.pulls (Tok.It.start text)
  rw [g1, ← k2] at this
  subst g2
  cases this
  exact hmid

/-- C47 with `flatten`: callbacks return `Option`s, and the tokens `None` (white space, say) are dropped. -/
theorem c47_flatten {t : Tok.Tokenizer α (Option T)} {ps : List (π × (List Nat → List α → Option T))}
    (hparse : Tok.ParserOk parse) (hs : ts.Fair) (hc : Tok.Calm ts parse ps) (hb : Tok.BuildsTo ts parse ps (.ok (t, tws)))
    (o : Seeds) (ho : o.Fair) (rules : List (Rule N T E)) (start : Nat) (hok : (gram rules start).Ok)
    (p : Parser N T E) (ws : List Warning) (hm : MakesParser o rules start p ws) (idx : T → Nat) (map : α → Nat)
    (text : List α) (es : List (Option T)) (rest : List α) (ht : Tok.Tokens (Tok.PatCode parse ps) ps map text es rest)
    (hr : Tok.NoToken (Tok.PatCode parse ps) map rest) (f : Source (Tok.It α) T) (hf : Flattens (tokSource t map) f) :
    (∀ x c it, ParsesFrom idx f p (Tok.It.start text) x c it → c.pulls ≤ (es.filterMap id).length + 1 ∧
      ∃ c0, ParsesTo idx p (es.filterMap id) x c0 ∧ c0.log = c.log ∧ c0.pulls = c.pulls) ∧
    (∀ x c0, ParsesTo idx p (es.filterMap id) x c0 → ∃ c it, ParsesFrom idx f p (Tok.It.start text) x c it) ∧
    (PanicsFrom idx f p (Tok.It.start text) ↔ ParsePanics idx p (es.filterMap id)) ∧
    (DivergesFrom idx f p (Tok.It.start text) ↔ ParseDiverges idx p (es.filterMap id)) := by
  obtain ⟨fuel, it, hcol⟩ := (Tok.c41_stream hparse hs hc hb map text es).2.2 ⟨rest, ht, hr⟩
  obtain ⟨_, _, _, hg⟩ := flat_gives hf es _ (tokSource_gives es fuel _ _ hcol)
  obtain ⟨h1, h2, h3, h4⟩ := c46_source o ho rules start hok p ws hm idx f (Tok.It.start text) _ hg
  refine ⟨fun x c it h => ?_, h2, h3, h4⟩
  obtain ⟨k1, _, k3⟩ := h1 x c it h
  exact ⟨k1, k3⟩

/-- C47: if every character of the text alone is a token and the empty text is none, the tokens cover the text; so the outcome is that of
the tokens of the whole text. -/
theorem c47_whole_text (hparse : Tok.ParserOk parse) (hs : ts.Fair) (hc : Tok.Calm ts parse ps) (hb : Tok.BuildsTo ts parse ps (.ok (t, tws)))
    (map : α → Nat) (text : List α) (h0 : ∀ k, ¬ Tok.PatCode parse ps k []) (h1 : ∀ x ∈ text, ∃ k, Tok.PatCode parse ps k [map x]) :
    ∃ es, Tok.Tokens (Tok.PatCode parse ps) ps map text es [] ∧ Tok.NoToken (Tok.PatCode parse ps) map [] := by
  have hstep := Tok.next_lang hparse hs hc (fun _ _ h1 h5 h2 i w => Tok.own_code h1 h5 h2 i w) hb map
  have key : ∀ (n : Nat) (l : List α), l.length ≤ n → (∀ x ∈ l, ∃ k, Tok.PatCode parse ps k [map x]) →
      ∃ es, Tok.Tokens (Tok.PatCode parse ps) ps map l es [] := by
    intro n
    induction n with
    | zero =>
      intro l hl _
      have : l = [] := List.eq_nil_of_length_eq_zero (by omega)
      subst this
      exact ⟨[], .nil _⟩
    | succ n ih =>
      intro l hl hx
      cases l with
      | nil => exact ⟨[], .nil _⟩
      | cons x l =>
        have hrest : (Tok.It.start (x :: l)).rest = x :: l := rfl
        rcases hstep (Tok.It.start (x :: l)) with ⟨_, h⟩ | ⟨m, k, q, a1, a2, _, _⟩
        · obtain ⟨k, hk⟩ := hx x (by simp)
          rw [hrest] at h
          exact absurd hk (by simpa using h 1 k)
        · rw [hrest] at a1
          have hm : 0 < m := by
            apply Nat.pos_of_ne_zero
            rintro rfl
            exact h0 k (by simpa using a1.2.1)
          obtain ⟨es, hes⟩ := ih ((x :: l).drop m) (by rw [List.length_drop]; simp at hl ⊢; omega)
            (fun y hy => hx y (List.mem_of_mem_drop hy))
          exact ⟨_, .cons _ m k q es [] a1 a2 hes⟩
  obtain ⟨es, hes⟩ := key text.length text (Nat.le_refl _) h1
  refine ⟨es, hes, fun n j => ?_⟩
  simpa using h0 j

/-- C47: if some pattern matches the empty text, `parse` never returns `Ok`, on no text. -/
theorem c47_empty_match (hparse : Tok.ParserOk parse) (hs : ts.Fair) (hc : Tok.Calm ts parse ps) (hb : Tok.BuildsTo ts parse ps (.ok (t, tws)))
    (k : Nat) (hk : Tok.PatCode parse ps k [])
    (o : Seeds) (ho : o.Fair) (rules : List (Rule N T E)) (start : Nat) (hok : (gram rules start).Ok)
    (p : Parser N T E) (ws : List Warning) (hm : MakesParser o rules start p ws) (idx : T → Nat) (map : α → Nat) (text : List α) :
    ∀ v c it, ¬ ParsesFrom idx (tokSource t map) p (Tok.It.start text) (.ok v) c it := by
  refine (c46_endless o ho rules start hok p ws hm idx (tokSource t map) _ ?_).1
  have hstep := Tok.next_lang hparse hs hc (fun _ _ h1 h5 h2 i w => Tok.own_code h1 h5 h2 i w) hb map
  intro j h
  unfold answer at h
  rcases hstep (after (tokSource t map) j (Tok.It.start text)) with ⟨_, h'⟩ | ⟨_, _, _, _, _, h', _⟩
  · exact h' 0 k (by simpa using hk)
  · unfold tokSource at h
    split at h
    · cases h
    · rename_i o it hne heq
      rw [show t.next map (after (tokSource t map) j (Tok.It.start text)) = (o, it) from heq] at h'
      exact hne _ h'

/-- C47 and C26: for a grammar without warnings and error rules whose reachable non-terminals are productive, with callbacks that do not
fail, a text is accepted exactly if its tokens are a sentence, and otherwise refused. -/
theorem c47_decides (hparse : Tok.ParserOk parse) (hs : ts.Fair) (hc : Tok.Calm ts parse ps) (hb : Tok.BuildsTo ts parse ps (.ok (t, tws)))
    (o : Seeds) (ho : o.Fair) (rules : List (Rule N T E)) (start : Nat) (hok : (gram rules start).Ok)
    (hn : (gram rules start).NoError) (hp : (gram rules start).Productive) (hg : ∀ r ∈ rules, ∀ l, ∃ v, r.gen l = .ok v)
    (p : Parser N T E) (hm : MakesParser o rules start p []) (idx : T → Nat) (map : α → Nat)
    (text : List α) (es : List T) (rest : List α) (ht : Tok.Tokens (Tok.PatCode parse ps) ps map text es rest)
    (hr : Tok.NoToken (Tok.PatCode parse ps) map rest) :
    ((gram rules start).Sentence (es.map idx) ↔ ∃ v c it, ParsesFrom idx (tokSource t map) p (Tok.It.start text) (.ok v) c it) ∧
    (¬ (gram rules start).Sentence (es.map idx) ↔
      ∃ c it, ParsesFrom idx (tokSource t map) p (Tok.It.start text) (.error .noRecovery) c it) := by
  obtain ⟨h1, h2, _, _⟩ := c47_pipeline hparse hs hc hb o ho rules start hok p [] hm idx map text es rest ht hr
  obtain ⟨d1, d2⟩ := c26_decides o ho rules start hok hn hp hg p hm idx es
  constructor
  · rw [d1]
    constructor
    · rintro ⟨v, c, h⟩; obtain ⟨c', it, h⟩ := h2 _ _ h; exact ⟨v, c', it, h⟩
    · rintro ⟨v, c, it, h⟩; obtain ⟨_, _, c0, h, _⟩ := h1 _ _ _ h; exact ⟨v, c0, h⟩
  · rw [d2]
    constructor
    · rintro ⟨c, h⟩; obtain ⟨c', it, h⟩ := h2 _ _ h; exact ⟨c', it, h⟩
    · rintro ⟨c, it, h⟩; obtain ⟨_, _, c0, h, _⟩ := h1 _ _ _ h; exact ⟨c0, h⟩

/-! ## A text that is not covered by tokens, and examples -/

/-- Patterns `a` and `b` that make the tokens 0 and 1. -/
def abPats : List (Tok.Hir × (List Nat → List Nat → Nat)) := [(Tok.ra, fun _ _ => 0), (Tok.rb, fun _ _ => 1)]

/-- The tokenizer built from them. -/
def abTok : Tok.Tokenizer Nat Nat :=
  match Tok.builderBuild 50 Tok.seeds0 Tok.parse0 abPats with
  | some (.ok r) => r.1
  | _ => { dfa := { b := 0, rows := [], ends := [] }, maker := [] }

theorem abTok_builds : Tok.BuildsTo Tok.seeds0 Tok.parse0 abPats (.ok (abTok, [])) := ⟨50, rfl⟩

theorem abTok_calm : Tok.Calm Tok.seeds0 Tok.parse0 abPats := fun _ => Iff.rfl

/-- C47: an unreadable character looks like the end of the input: with `S → a S | b`, `parse` returns `Ok` on `ab@ab`, although no token
contains `@` and the rest is never looked at. -/
theorem c47_unreadable_ignored :
    (∃ v c it, ParsesFrom id (tokSource abTok id) pRight (Tok.It.start [97, 98, 64, 97, 98]) (.ok v) c it ∧ it.rest = [97, 98]) ∧
    MakesParser idSeeds rRight 0 pRight [] ∧ Tok.BuildsTo Tok.seeds0 Tok.parse0 abPats (.ok (abTok, [])) :=
  ⟨⟨_, _, _, ⟨30, rfl⟩, rfl⟩, pRight_makes, abTok_builds⟩

/-- The hypotheses of `c47_pipeline` are met by `aab`. -/
example : ∃ rest, Tok.Tokens (Tok.PatCode Tok.parse0 abPats) abPats id [97, 97, 98] [0, 0, 1] rest ∧
    Tok.NoToken (Tok.PatCode Tok.parse0 abPats) id rest :=
  (Tok.c41_stream Tok.parse0_ok Tok.seeds0_fair abTok_calm abTok_builds id [97, 97, 98] [0, 0, 1]).2.1 ⟨10, _, rfl⟩

/-- … and by `ab@ab`, where `@ab` is left. -/
example : ∃ rest, Tok.Tokens (Tok.PatCode Tok.parse0 abPats) abPats id [97, 98, 64, 97, 98] [0, 1] rest ∧
    Tok.NoToken (Tok.PatCode Tok.parse0 abPats) id rest :=
  (Tok.c41_stream Tok.parse0_ok Tok.seeds0_fair abTok_calm abTok_builds id [97, 98, 64, 97, 98] [0, 1]).2.1 ⟨10, _, rfl⟩

/-- `flatten` with a bound on the number of skipped items. -/
def flatFuel (nxt : Source σ (Option T)) : Nat → Source σ T
  | 0, s => (none, s)
  | n + 1, s =>
    match nxt s with
    | (none, s) => (none, s)
    | (some (some t), s) => (some t, s)
    | (some none, s) => flatFuel nxt n s

/-- Every source can be flattened. -/
theorem flattens_exists (nxt : Source σ (Option T)) : ∃ f, Flattens nxt f := by
  classical
  have huniq : ∀ s a s', FlatNext nxt s a s' → ∀ b s'', FlatNext nxt s b s'' → (b, s'') = (a, s') := by
    intro s a s' h
    induction h with
    | stop s s' h =>
      intro b s'' h'
      cases h' with
      | stop _ _ h' => rw [h] at h'; cases h'; rfl
      | item _ _ _ h' => rw [h] at h'; cases h'
      | skip _ _ _ _ h' _ => rw [h] at h'; cases h'
    | item s s' t h =>
      intro b s'' h'
      cases h' with
      | stop _ _ h' => rw [h] at h'; cases h'
      | item _ _ _ h' => rw [h] at h'; cases h'; rfl
      | skip _ _ _ _ h' _ => rw [h] at h'; cases h'
    | skip s s' s2 a h _ ih =>
      intro b s'' h'
      cases h' with
      | stop _ _ h' => rw [h] at h'; cases h'
      | item _ _ _ h' => rw [h] at h'; cases h'
      | skip _ _ _ _ h' h2 => rw [h] at h'; cases h'; exact ih _ _ h2
  refine ⟨fun s => if h : ∃ a, FlatNext nxt s a.1 a.2 then h.choose else (none, s), ?_⟩
  intro s a s' h
  have hex : ∃ a : Option T × σ, FlatNext nxt s a.1 a.2 := ⟨(a, s'), h⟩
  simp only [dif_pos hex]
  exact huniq _ _ _ h _ _ hex.choose_spec

/-- The source `0, None, 1` flattened. -/
example : ∃ a s', FlatNext (fun l => (l.head?, l.tail) : Source (List (Option Nat)) (Option Nat)) [none, some 0, none, some 1] a s' ∧
    flatFuel (fun l => (l.head?, l.tail) : Source (List (Option Nat)) (Option Nat)) 9 [none, some 0, none, some 1] = (a, s') :=
  ⟨_, _, .skip _ _ _ _ rfl (.item _ _ _ rfl), rfl⟩

end Verif.Par
