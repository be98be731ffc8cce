import Verif.Tok.Show
import Verif.Props.TokUnique

/-!
# Property C109: printing the ranges of a table
-/

namespace Verif.Tok

/-- Printing panics for reversed ranges and for `0..0` and for no others. -/
theorem c109_panics (r : Nat × Nat) : showRange r = none ↔ r.2 < r.1 ∨ r = (0, 0) := by
  obtain ⟨a, b⟩ := r
  unfold showRange subU32
  by_cases h : b < a
  · simp [h]
  · by_cases h1 : b - a = 1
    · simp [h, h1]
      omega
    · by_cases h2 : b < 1
      · simp [h, h1, h2]
        omega
      · simp [h, h1, h2]
        omega

example : showRange (98, 97) = none ∧ showRange (0, 0) = none ∧ showRange (97, 97) = some [97, 46, 46, 61, 96] ∧
    showRange (97, 98) = some [97] ∧ showRange (97, 123) = some [97, 46, 46, 61, 122] := by decide

/-- Ranges that begin and end with characters are printed differently, and from the text one reads the first and the last character. -/
theorem c109_text (a b : Nat) (h : a < b) (ha : IsScalar a) (hb : IsScalar (b - 1)) :
    ∃ s, showRange (a, b) = some s ∧ s.head? = some a ∧ s.getLast? = some (b - 1) ∧ (s.length = 1 ↔ b = a + 1) ∧
      ∀ a' b', a' < b' → IsScalar a' → IsScalar (b' - 1) → (showRange (a', b') = some s ↔ (a', b') = (a, b)) := by
  have key : ∀ a b : Nat, a < b → IsScalar a → IsScalar (b - 1) →
      showRange (a, b) = some (if b = a + 1 then [a] else [a, 46, 46, 61, b - 1]) := by
    intro a b h ha hb
    have h1 : ¬ b < a := by omega
    have h2 : ¬ b < 1 := by omega
    by_cases h3 : b = a + 1
    · subst h3
      have : a + 1 - a = 1 := by omega
      have h4 : ¬ a + 1 < a := by omega
      simp [showRange, subU32, charOr, this, ha, h4]
    · have : ¬ b - a = 1 := by omega
      simp [showRange, subU32, charOr, h1, h2, this, ha, hb, h3]
  refine ⟨_, key a b h ha hb, ?_, ?_, ?_, fun a' b' h' ha' hb' => ?_⟩
  · split <;> rfl
  · split
    · rename_i e
      subst e
      simp
    · simp
  · split <;> simp_all
  · rw [key a' b' h' ha' hb']
    constructor
    · intro e
      have e := Option.some.inj e
      split at e <;> split at e <;> simp at e
      · rename_i e1 e2
        rw [e1, e2, e]
      · obtain ⟨e1, e2⟩ := e
        subst e1
        have : b' = b := by omega
        rw [this]
    · intro e
      cases e
      rfl

example : showRange (97, 123) = some [97, 46, 46, 61, 122] ∧ IsScalar 97 ∧ IsScalar (123 - 1) := by decide

variable {π ρ α E : Type} {parse : π → Except ρ Hir} {s : Seeds} {ps : List (π × (List Nat → List α → E))}

/-- Every range in the tables of a built tokenizer is printed. -/
theorem c109_built {t : Tokenizer α E} {ws : List (Nat × Nat)} (hparse : ParserOk parse) (hs : s.Fair) (hb : BuildsTo s parse ps (.ok (t, ws))) :
    ∀ row ∈ t.dfa.rows, ∀ x ∈ row, showRange x.1 ≠ none := by
  intro row hr x hx e
  have h := ((c06_tables_well_formed hparse hs hb).1.rows row hr).ranges x hx
  rcases (c109_panics _).1 e with h1 | h1
  · omega
  · rw [h1] at h
    simp at h

/-- `[a-\u{D7FF}]`, `[a-\u{10FFFF}]` and `A[~-\u{10FFFF}]`. -/
def tildePats : List Hir :=
  [.classU [(97, 0xD7FF)], .classU [(97, 0x10FFFF)], .concat [.literalU 65, .classU [(126, 0x10FFFF)]]]

/-- The text does not determine the range: a built table can have two ranges with the same text, as a range can begin behind the last character before
the gap in the code points and is then printed like one that begins with `~`. -/
theorem c109_same : ∃ r, BuildsTo seeds0 parse0 (tagged tildePats) (.ok r) ∧
    (∃ row ∈ r.1.dfa.rows, ∃ m, ((0xD800, 0x110000), m) ∈ row) ∧ (∃ row ∈ r.1.dfa.rows, ∃ m, ((126, 0x110000), m) ∈ row) ∧
    showRange (0xD800, 0x110000) = showRange (126, 0x110000) ∧ showRange (126, 0x110000) = some [126, 46, 46, 61, 0x10FFFF] := by
  obtain ⟨r, h1, h2⟩ := tok0_spec (s := seeds0) (hs := tildePats)
    (g := fun r => (r.1.dfa.rows.any (fun row => row.any fun x => x.1 == (0xD800, 0x110000)),
      r.1.dfa.rows.any (fun row => row.any fun x => x.1 == (126, 0x110000)))) (x := (true, true)) (by decide +kernel)
  have get : ∀ (rows : List Row) (q : Nat × Nat), (rows.any fun row => row.any fun x => x.1 == q) = true → ∃ row ∈ rows, ∃ m, (q, m) ∈ row := by
    intro rows q h
    obtain ⟨row, hr, h⟩ := List.any_eq_true.1 h
    obtain ⟨⟨x, m⟩, hx, h⟩ := List.any_eq_true.1 h
    have : x = q := by simpa using h
    exact ⟨row, hr, m, this ▸ hx⟩
  have h3 := Prod.mk.inj h2
  exact ⟨r, h1, get _ _ h3.1, get _ _ h3.2, by decide, by decide⟩

end Verif.Tok
