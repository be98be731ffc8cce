import Verif.Calc.Spec
import Verif.Props.TokCode

/-!
# The languages the patterns of the calculator get
-/

namespace Verif.Calc

open Verif.Tok

/-- A single digit. -/
abbrev D (w : List Nat) : Prop := ∃ c, w = [c] ∧ ∃ r ∈ [((48 : Nat), (57 : Nat))], r.1 ≤ c ∧ c ≤ r.2

theorem D_iff {w : List Nat} : D w ↔ ∃ c, w = [c] ∧ Digit c := by simp [D, Digit]

theorem plus_sound {p q : Bool} {w : List Nat} (h : Mat.Jump (Mat.one D) true false p q w) :
    (∀ c ∈ w, Digit c) ∧ (p = false → q = true → w ≠ []) := by
  induction h with
  | @stay p q w h =>
    cases p <;> cases q <;> simp only [Mat.one] at h
    · subst h; simp
    · obtain ⟨c, rfl, hc⟩ := D_iff.1 h
      simpa using hc
    · subst h; simp
  | @jump p q u v h _ ih =>
    cases p <;> simp only [Mat.one] at h
    · obtain ⟨c, rfl, hc⟩ := D_iff.1 h
      simp only [List.cons_append, List.nil_append, List.mem_cons, ne_eq, reduceCtorEq, not_false_eq_true, implies_true, and_true]
      rintro x (rfl | hx)
      · exact hc
      · exact ih.1 x hx
    · subst h
      exact ⟨ih.1, fun h => by cases h⟩

theorem plus_complete {w : List Nat} (hd : ∀ c ∈ w, Digit c) :
    Mat.Jump (Mat.one D) true false false false w ∧ (w ≠ [] → Mat.Jump (Mat.one D) true false false true w) := by
  induction w with
  | nil => exact ⟨.stay rfl, fun h => absurd rfl h⟩
  | cons c w ih =>
    have hc : D [c] := D_iff.2 ⟨c, rfl, hd c (by simp)⟩
    obtain ⟨h1, h2⟩ := ih fun x hx => hd x (by simp [hx])
    refine ⟨.jump (u := [c]) hc h1, fun _ => ?_⟩
    by_cases hw : w = []
    · subst hw; exact .stay hc
    · exact .jump (u := [c]) hc (h2 hw)

theorem plus_iff {w : List Nat} : Mat.Jump (Mat.one D) true false false true w ↔ w ≠ [] ∧ ∀ c ∈ w, Digit c :=
  ⟨fun h => ⟨(plus_sound h).2 rfl rfl, (plus_sound h).1⟩, fun h => (plus_complete h.2).2 h.1⟩

theorem star_iff {w : List Nat} : Mat.Jump (Mat.one D) true false false false w ↔ ∀ c ∈ w, Digit c :=
  ⟨fun h => (plus_sound h).1, fun h => (plus_complete h).1⟩

/-- The mantissa part of the pattern. -/
theorem mantissa_code {m : List Nat} :
    Code (.group (.alt [.rep .oneOrMore digitH, .concat [.rep .oneOrMore digitH, .literalU 46, .rep .zeroOrMore digitH],
      .concat [.rep .zeroOrMore digitH, .literalU 46, .rep .oneOrMore digitH]])) false true m ↔ Mantissa m := by
  simp only [Code, Mat.one, CodeAny, CodeSeq, Mat.rep, digitH, Mat.seq, Mat.star]
  constructor
  · rintro (h | ⟨a, _, rfl, h1, _, b, rfl, rfl, h2⟩ | ⟨a, _, rfl, h1, _, b, rfl, rfl, h2⟩ | h)
    · exact Or.inl (plus_iff.1 h)
    · have h1 := plus_iff.1 h1
      exact Or.inr ⟨a, b, by simp, h1.2, star_iff.1 h2, Or.inl h1.1⟩
    · have h2 := plus_iff.1 h2
      exact Or.inr ⟨a, b, by simp, star_iff.1 h1, h2.2, Or.inr h2.1⟩
    · exact h.elim
  · rintro (h | ⟨a, b, rfl, h1, h2, h3⟩)
    · exact Or.inl (plus_iff.2 h)
    · by_cases ha : a = []
      · have hb : b ≠ [] := h3.resolve_left (by simpa using ha)
        exact Or.inr (Or.inr (Or.inl ⟨a, 46 :: b, rfl, star_iff.2 h1, [46], b, rfl, rfl, plus_iff.2 ⟨hb, h2⟩⟩))
      · exact Or.inr (Or.inl ⟨a, 46 :: b, rfl, plus_iff.2 ⟨ha, h1⟩, [46], b, rfl, rfl, star_iff.2 h2⟩)

/-- A sign. -/
abbrev S (w : List Nat) : Prop := ∃ c, w = [c] ∧ ∃ r ∈ [((43 : Nat), (43 : Nat)), (45, 45)], r.1 ≤ c ∧ c ≤ r.2

theorem sign_iff {s : List Nat} : Mat.Jump (Mat.one S) false true false true s ↔ s = [] ∨ s = [43] ∨ s = [45] := by
  have hS : ∀ s, S s ↔ s = [43] ∨ s = [45] := by
    intro s
    constructor
    · rintro ⟨c, rfl, r, hr, h1, h2⟩
      simp only [List.mem_cons, List.not_mem_nil, or_false] at hr
      rcases hr with rfl | rfl
      · left; rw [Nat.le_antisymm h2 h1]
      · right; rw [Nat.le_antisymm h2 h1]
    · rintro (rfl | rfl)
      · exact ⟨43, rfl, (43, 43), by simp, by simp, by simp⟩
      · exact ⟨45, rfl, (45, 45), by simp, by simp, by simp⟩
  have key : ∀ {p q w}, Mat.Jump (Mat.one S) false true p q w → q = true → if p then w = [] else w = [] ∨ w = [43] ∨ w = [45] := by
    intro p q w h
    induction h with
    | @stay p q w h =>
      rintro rfl
      cases p <;> simp only [Mat.one] at h
      · exact Or.inr ((hS _).1 h)
      · exact h
    | @jump p q u v h _ ih =>
      intro hq
      have ih := ih hq
      simp only [if_true] at ih
      subst ih
      cases p <;> simp only [Mat.one] at h
      subst h
      exact Or.inl rfl
  constructor
  · intro h; exact key h rfl
  · rintro (rfl | h)
    · exact .jump (u := []) (v := []) rfl (.stay rfl)
    · exact .stay ((hS _).2 h)

/-- The exponent part of the pattern also reads digits alone: there is a loop at its end. -/
theorem exponent_code {x : List Nat} :
    Code (.rep .zeroOrOne (.group (.concat [.classU [(69, 69), (101, 101)], .rep .zeroOrOne (.classU [(43, 43), (45, 45)]), .rep .oneOrMore digitH])))
      false true x ↔ Exponent x ∨ ∀ c ∈ x, Digit c := by
  simp only [Code, CodeSeq, Mat.rep, digitH]
  let X : List Nat → Prop := fun w => ∃ c, w = [c] ∧ ∃ r ∈ [((69 : Nat), (69 : Nat)), (101, 101)], r.1 ≤ c ∧ c ≤ r.2
  have hX : ∀ w, X w ↔ w = [69] ∨ w = [101] := by
    intro s
    constructor
    · rintro ⟨c, rfl, r, hr, h1, h2⟩
      simp only [List.mem_cons, List.not_mem_nil, or_false] at hr
      rcases hr with rfl | rfl
      · left; rw [Nat.le_antisymm h2 h1]
      · right; rw [Nat.le_antisymm h2 h1]
    · rintro (rfl | rfl)
      · exact ⟨69, rfl, (69, 69), by simp, by simp, by simp⟩
      · exact ⟨101, rfl, (101, 101), by simp, by simp, by simp⟩
  let M : Mat := Mat.seq (Mat.one X) (Mat.seq (Mat.Jump (Mat.one S) false true) (Mat.Jump (Mat.one D) true false))
  have hft : ∀ w, M false true w ↔ ∃ e s d, w = e :: (s ++ d) ∧ (e = 69 ∨ e = 101) ∧ (s = [] ∨ s = [43] ∨ s = [45]) ∧ d ≠ [] ∧ ∀ c ∈ d, Digit c := by
    intro w
    show (∃ u v, w = u ++ v ∧ X u ∧ ∃ s d, v = s ++ d ∧ Mat.Jump (Mat.one S) false true false true s ∧ Mat.Jump (Mat.one D) true false false true d) ↔ _
    constructor
    · rintro ⟨u, _, rfl, hu, s, d, rfl, hs, hd⟩
      have hs := sign_iff.1 hs
      have hd := plus_iff.1 hd
      rcases (hX u).1 hu with rfl | rfl
      · exact ⟨69, s, d, rfl, Or.inl rfl, hs, hd.1, hd.2⟩
      · exact ⟨101, s, d, rfl, Or.inr rfl, hs, hd.1, hd.2⟩
    · rintro ⟨e, s, d, rfl, he, hs, hd⟩
      refine ⟨[e], s ++ d, rfl, (hX _).2 ?_, s, d, rfl, sign_iff.2 hs, plus_iff.2 hd⟩
      rcases he with rfl | rfl <;> simp
  have htt : ∀ w, M true true w ↔ ∀ c ∈ w, Digit c := by
    intro w
    show Mat.Jump (Mat.one D) true false true true w ↔ _
    constructor
    · exact fun h => (plus_sound h).1
    · intro h
      by_cases hw : w = []
      · subst hw; exact .stay rfl
      · exact .jump (u := []) rfl (plus_iff.2 ⟨hw, h⟩)
  show Mat.Jump M false true false true x ↔ _
  constructor
  · intro h
    have key : ∀ {p q w}, Mat.Jump M false true p q w → q = true → if p then ∀ c ∈ w, Digit c else Exponent w ∨ ∀ c ∈ w, Digit c := by
      intro p q w h
      induction h with
      | @stay p q w h =>
        rintro rfl
        cases p
        · exact Or.inl (Or.inr ((hft _).1 h))
        · exact (htt _).1 h
      | @jump p q u v h _ ih =>
        intro hq
        have ih := ih hq
        simp only [if_true] at ih
        cases p
        · have : u = [] := h
          subst this
          exact Or.inr ih
        · exact (show False from h).elim
    exact key h rfl
  · rintro ((rfl | h) | h)
    · exact .jump (u := []) (v := []) rfl (.stay ((htt _).2 (by simp)))
    · exact .stay ((hft _).2 h)
    · exact .jump (u := []) rfl (.stay ((htt _).2 h))

/-- The number pattern reads exactly the numerals: the loop does no harm here, since digits may follow a mantissa anyway. -/
theorem number_code {w : List Nat} : Code numberH false true w ↔ Numeral w := by
  have h0 : Code numberH false true w ↔ ∃ m x, w = m ++ x ∧ Mantissa m ∧ (Exponent x ∨ ∀ c ∈ x, Digit c) := by
    unfold numberH
    rw [Code, CodeSeq, CodeSeq]
    · simp only [Mat.seq, mantissa_code, exponent_code]
    · simp
  rw [h0]
  constructor
  · rintro ⟨m, x, rfl, hm, hx | hx⟩
    · exact ⟨m, x, rfl, hm, hx⟩
    · refine ⟨m ++ x, [], by simp, ?_, Or.inl rfl⟩
      rcases hm with ⟨h1, h2⟩ | ⟨a, b, rfl, h1, h2, h3⟩
      · left
        refine ⟨by simp [h1], ?_⟩
        intro c hc
        rcases List.mem_append.1 hc with hc | hc
        · exact h2 c hc
        · exact hx c hc
      · right
        refine ⟨a, b ++ x, by simp, h1, ?_, ?_⟩
        · intro c hc
          rcases List.mem_append.1 hc with hc | hc
          · exact h2 c hc
          · exact hx c hc
        · rcases h3 with h3 | h3
          · exact Or.inl h3
          · exact Or.inr (by simp [h3])
  · rintro ⟨m, x, rfl, hm, hx⟩
    exact ⟨m, x, rfl, hm, Or.inl hx⟩

end Verif.Calc
