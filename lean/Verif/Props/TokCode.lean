import Verif.Props.TokBuild
import Verif.Props.TokGen
import Verif.Tok.CodeProof

/-!
# Property C41: the language every regex gets

For all regexes, also those outside the class `Hir.faithful`: the tokenizer follows the languages `PatCode` (Code.lean),
which are defined by recursion on the regex.
-/

namespace Verif.Tok

variable {π ρ α E : Type} {parse : π → Except ρ Hir} {s : Seeds} {ps : List (π × (List Nat → List α → E))}
  {t : Tokenizer α E} {ws : List (Nat × Nat)}

/-! ## C41 -/

/-- C41: a word is accepted with index `k` exactly if it is in the translated language of pattern `k` and of no earlier one;
it is not accepted exactly if it is in none of them. -/
theorem c41_translated_language (hparse : ParserOk parse) (hs : s.Fair) (hc : Calm s parse ps)
    (hb : BuildsTo s parse ps (.ok (t, ws))) (w : List Nat) :
    (∀ k, t.accepts w = some k ↔ PatCode parse ps k w ∧ ∀ j < k, ¬ PatCode parse ps j w) ∧
    (t.accepts w = none ↔ ∀ j, ¬ PatCode parse ps j w) := by
  obtain ⟨hirs, h1, h2, h3, h4⟩ := builds_spec hparse hs.calm ((hc _).1 hb)
  obtain ⟨tn, d, h5, _⟩ := h4.dfa
  have key := fun i => own_code h1 h5 h2 i w
  constructor
  · intro k
    rw [accepts_iff h4 s.calm_noCollision]
    simp only [key]
  · rw [accepts_none_iff h4 s.calm_noCollision]
    simp only [key]

/-- C41: the translated language contains the regular language, and is equal to it for the patterns in the class
`Hir.faithful`. -/
theorem c41_contains_language (hparse : ParserOk parse) (hs : s.Fair) (hb : BuildsTo s parse ps (.ok (t, ws))) (i : Nat)
    (w : List Nat) :
    (PatLang parse ps i w → PatCode parse ps i w) ∧ (PatFaithful parse ps i → PatCode parse ps i w → PatLang parse ps i w) := by
  obtain ⟨hirs, h1, h2, h3, h4⟩ := builds_spec hparse hs hb
  obtain ⟨tn, d, h5, _⟩ := h4.dfa
  have key := own_code h1 h5 h2 i w
  exact ⟨fun h => key.1 (patLang_own h1 h5 h2 h), fun hf h => own_patLang h1 h2 hf (key.2 h)⟩

/-- C41: the warnings are exact for the translated languages, for all hash seeds. -/
theorem c41_warnings (hparse : ParserOk parse) (hs : s.Fair) (hb : BuildsTo s parse ps (.ok (t, ws))) :
    WarningsExact (PatCode parse ps) ws := by
  obtain ⟨hirs, h1, h2, h3, h4⟩ := builds_spec hparse hs hb
  obtain ⟨tn, d, h5, _⟩ := h4.dfa
  apply warningsExact_of
  intro a b
  rw [h4.warn]
  simp only [own_code h1 h5 h2]

/-- C41: the token stream, for all regexes: longest match and first pattern with respect to the translated languages. -/
theorem c41_stream (hparse : ParserOk parse) (hs : s.Fair) (hc : Calm s parse ps)
    (hb : BuildsTo s parse ps (.ok (t, ws))) (map : α → Nat) (input : List α) (es : List E) :
    (∀ rest, (∃ it, t.calls map es.length (It.start input) = (es.map .token, it) ∧ it.rest = rest) ↔
      Tokens (PatCode parse ps) ps map input es rest) ∧
    ((∃ fuel it, t.collect map fuel (It.start input) = some (es, it)) ↔
      ∃ rest, Tokens (PatCode parse ps) ps map input es rest ∧ NoToken (PatCode parse ps) map rest) :=
  stream_spec (next_lang hparse hs hc (fun _ _ h1 h5 h2 i w => own_code h1 h5 h2 i w) hb map) input es

/-! ## Examples -/

/-- The languages of a star over a single letter. -/
theorem star_letter (c : Nat) (p q : Bool) (w : List Nat) :
    Code (.rep .zeroOrMore (.literalU c)) p q w ↔ ∃ n, w = List.replicate n c := by
  simp only [Code, Mat.rep, Mat.star]
  constructor
  · intro h
    have key : ∀ {p q w}, Mat.Jump (Mat.one fun w => w = [c]) true false p q w → ∃ n, w = List.replicate n c := by
      intro p q w h
      induction h with
      | @stay p q w h =>
        cases p <;> cases q <;> simp only [Mat.one] at h
        · exact ⟨0, h⟩
        · exact ⟨1, h⟩
        · exact ⟨0, h⟩
      | @jump p q u v h _ ih =>
        obtain ⟨n, rfl⟩ := ih
        cases p <;> simp only [Mat.one] at h
        · exact ⟨n + 1, by rw [h]; rfl⟩
        · exact ⟨n, by rw [h]; rfl⟩
    exact key h
  · rintro ⟨n, rfl⟩
    induction n with
    | zero => exact .stay rfl
    | succ n ih => exact .jump (u := [c]) rfl ih

/-- `(ab*)?` reads the words `abb…b` and `bb…b`, where it should read `abb…b` and the empty word. -/
theorem c41_opt_example (w : List Nat) : Code (.rep .zeroOrOne (.concat [ra, .rep .zeroOrMore rb])) false true w ↔
    ∃ n, w = 97 :: List.replicate n 98 ∨ w = List.replicate n 98 := by
  simp only [Code, Mat.rep, CodeSeq]
  have hM : ∀ p q w, Mat.seq (Mat.one fun w => w = [97]) (Code (.rep .zeroOrMore rb)) p q w ↔
      match p, q with
      | false, true => ∃ n, w = 97 :: List.replicate n 98
      | true, false => False
      | false, false => w = []
      | true, true => ∃ n, w = List.replicate n 98 := by
    intro p q w
    cases p <;> cases q <;> simp only [Mat.seq, Mat.one]
    · constructor
      · rintro ⟨u, v, rfl, rfl, h⟩
        obtain ⟨n, rfl⟩ := (star_letter 98 _ _ _).1 h
        exact ⟨n, rfl⟩
      · rintro ⟨n, rfl⟩
        exact ⟨[97], List.replicate n 98, rfl, rfl, (star_letter 98 _ _ _).2 ⟨n, rfl⟩⟩
    · exact star_letter 98 _ _ _
  constructor
  · intro h
    have key : ∀ {p q w}, Mat.Jump (Mat.seq (Mat.one fun w => w = [97]) (Code (.rep .zeroOrMore rb))) false true p q w →
        q = true → if p then ∃ n, w = List.replicate n 98 else ∃ n, w = 97 :: List.replicate n 98 ∨ w = List.replicate n 98 := by
      intro p q w h
      induction h with
      | @stay p q w h =>
        rintro rfl
        have h := (hM _ _ _).1 h
        cases p <;> simp only at h
        · obtain ⟨n, h⟩ := h; exact ⟨n, Or.inl h⟩
        · exact h
      | @jump p q u v h _ ih =>
        intro hq
        have h := (hM _ _ _).1 h
        obtain ⟨n, hn⟩ := ih hq
        cases p <;> simp only at h
        · exact ⟨n, Or.inr (by rw [h, hn]; rfl)⟩
    exact key (by simpa only [Code, Mat.rep] using h) rfl
  · rintro ⟨n, rfl | rfl⟩
    · exact .stay ((hM _ _ _).2 ⟨n, rfl⟩)
    · exact .jump (u := []) ((hM _ _ _).2 rfl) (.stay ((hM _ _ _).2 ⟨n, rfl⟩))

/-- The built tokenizer does that: `bb` is accepted, `ba` is not. -/
example : acc0 seeds0 [.rep .zeroOrOne (.concat [ra, .rep .zeroOrMore rb])] [98, 98] = some (some 0) ∧
    acc0 seeds0 [.rep .zeroOrOne (.concat [ra, .rep .zeroOrMore rb])] [98, 97] = some none := by decide

end Verif.Tok
