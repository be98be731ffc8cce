import Verif.Calc.Number

/-!
# The tokens of a text
-/

namespace Verif.Calc

open Verif.Tok

variable {V : Type} {A : Arith V}

/-- What the patterns match. -/
def Matches (k : Nat) (w : List Nat) : Prop :=
  match k with
  | 0 => Numeral w
  | 1 => w = [43]
  | 2 => w = [45]
  | 3 => w = [42]
  | 4 => w = [47]
  | 5 => w = [40]
  | 6 => w = [41]
  | 7 => w = [115, 113, 114, 116]
  | 8 => ∃ c, w = [c] ∧ c < 0x110000
  | _ => False

theorem pats_ok (A : Arith V) : ∀ p ∈ pats A, p.1.ok = true := by
  simp only [pats, List.mem_cons, List.not_mem_nil, or_false]
  rintro p (rfl | rfl | rfl | rfl | rfl | rfl | rfl | rfl | rfl) <;> rfl

theorem patCode_iff {k : Nat} {w : List Nat} : PatCode parse0 (pats A) k w ↔ Matches k w := by
  have h0 : PatCode parse0 (pats A) k w ↔ ∃ p, (pats A)[k]? = some p ∧ Code p.1 false true w := by
    constructor
    · rintro ⟨p, h, h1, h2, h3⟩
      refine ⟨p, h1, ?_⟩
      unfold parse0 at h2
      rw [if_pos (pats_ok A p (List.mem_of_getElem? h1))] at h2
      cases h2
      exact h3
    · rintro ⟨p, h1, h2⟩
      refine ⟨p, p.1, h1, ?_, h2⟩
      unfold parse0
      rw [if_pos (pats_ok A p (List.mem_of_getElem? h1))]
  rw [h0]
  have lit : ∀ c, Code (.literalU c) false true w ↔ w = [c] := fun c => by simp only [Code, Mat.one]
  match k with
  | 0 => simp [pats, Matches, number_code]
  | 1 => simp [pats, Matches, lit]
  | 2 => simp [pats, Matches, lit]
  | 3 => simp [pats, Matches, lit]
  | 4 => simp [pats, Matches, lit]
  | 5 => simp [pats, Matches, lit]
  | 6 => simp [pats, Matches, lit]
  | 7 =>
    simp only [pats, Matches, List.getElem?_cons_succ, List.getElem?_cons_zero, Option.some.injEq, exists_eq_left', Code, CodeSeq, Mat.seq, Mat.one]
    constructor
    · rintro ⟨_, _, rfl, rfl, _, _, rfl, rfl, _, _, rfl, rfl, rfl⟩; rfl
    · rintro rfl
      exact ⟨[115], _, rfl, rfl, [113], _, rfl, rfl, [114], _, rfl, rfl, rfl⟩
  | 8 =>
    simp only [pats, Matches, List.getElem?_cons_succ, List.getElem?_cons_zero, Option.some.injEq, exists_eq_left', Code, CodeAny, Mat.one]
    constructor
    · rintro (⟨c, rfl, r, hr, h1, h2⟩ | rfl | h)
      · simp only [List.mem_cons, List.not_mem_nil, or_false] at hr
        rcases hr with rfl | rfl
        · exact ⟨c, rfl, by simp at h2; omega⟩
        · exact ⟨c, rfl, by simp at h2; omega⟩
      · exact ⟨10, rfl, by omega⟩
      · exact h.elim
    · rintro ⟨c, rfl, hc⟩
      by_cases h1 : c ≤ 9
      · exact Or.inl ⟨c, rfl, (0, 9), by simp, by simp, h1⟩
      · by_cases h2 : c = 10
        · exact Or.inr (Or.inl (by rw [h2]))
        · exact Or.inl ⟨c, rfl, (11, 0x10FFFF), by simp, by simp; omega, by simp; omega⟩
  | k + 9 => simp [pats, Matches]

/-! ## Numerals -/

theorem mantissa_chars {m : List Nat} (h : Mantissa m) : m ≠ [] ∧ ∀ c ∈ m, Digit c ∨ c = 46 := by
  rcases h with ⟨h1, h2⟩ | ⟨a, b, rfl, h1, h2, _⟩
  · exact ⟨h1, fun c hc => Or.inl (h2 c hc)⟩
  · refine ⟨by simp, ?_⟩
    intro c hc
    simp only [List.mem_append, List.mem_cons] at hc
    rcases hc with hc | rfl | hc
    · exact Or.inl (h1 c hc)
    · exact Or.inr rfl
    · exact Or.inl (h2 c hc)

theorem numeral_head {w : List Nat} (h : Numeral w) : ∃ c r, w = c :: r ∧ (Digit c ∨ c = 46) := by
  obtain ⟨m, x, rfl, hm, _⟩ := h
  obtain ⟨h1, h2⟩ := mantissa_chars hm
  cases m with
  | nil => exact absurd rfl h1
  | cons c m => exact ⟨c, m ++ x, rfl, h2 c (by simp)⟩

theorem numeral_last {a : List Nat} {c : Nat} (h : Numeral (a ++ [c])) : Digit c ∨ c = 46 := by
  obtain ⟨m, x, he, hm, hx⟩ := h
  have hl : (m ++ x).getLast? = some c := by rw [← he]; simp
  rw [List.getLast?_append] at hl
  rcases hx with rfl | ⟨e, s, d, rfl, _, _, hd1, hd2⟩
  · simp at hl
    exact (mantissa_chars hm).2 c (List.mem_of_getLast? hl)
  · rw [show e :: (s ++ d) = (e :: s) ++ d from rfl, List.getLast?_append] at hl
    cases hdl : d.getLast? with
    | none => exact absurd (List.getLast?_eq_none_iff.1 hdl) hd1
    | some y =>
      rw [hdl] at hl
      simp at hl
      subst hl
      exact Or.inl (hd2 y (List.mem_of_getLast? hdl))

/-- Inside of a numeral, a sign is behind an `e`; other characters are digits, points and `e`s. -/
theorem numeral_mid {a r : List Nat} {c : Nat} (h : Numeral (a ++ c :: r)) :
    (Digit c ∨ c = 46 ∨ c = 69 ∨ c = 101) ∨ ∃ a' e, a = a' ++ [e] ∧ (e = 69 ∨ e = 101) := by
  obtain ⟨m, x, he, hm, hx⟩ := h
  have hmem : ∀ y ∈ m, Digit y ∨ y = 46 := (mantissa_chars hm).2
  rcases List.append_eq_append_iff.1 he with ⟨b, h1, h2⟩ | ⟨b, h1, h2⟩
  · cases b with
    | nil =>
      simp at h2
      rcases hx with rfl | ⟨e, s, d, rfl, h3, _⟩
      · cases h2
      · simp at h2
        left
        rw [h2.1]
        exact Or.inr (Or.inr h3)
    | cons y b =>
      simp at h2
      have := hmem c (by rw [h1, h2.1]; simp)
      left
      rcases this with h | h
      · exact Or.inl h
      · exact Or.inr (Or.inl h)
  · rcases hx with rfl | ⟨e, s, d, rfl, h3, h4, h5, h6⟩
    · simp at h2
    · cases b with
      | nil =>
        simp at h2
        left
        rw [← h2.1]
        exact Or.inr (Or.inr h3)
      | cons y b =>
        simp at h2
        obtain ⟨rfl, h2⟩ := h2
        rcases h4 with rfl | h4
        · left; left
          exact h6 c (by simp at h2; rw [h2]; simp)
        · cases b with
          | nil => exact Or.inr ⟨m, e, h1, h3⟩
          | cons z b =>
            left; left
            have : d = b ++ c :: r := by rcases h4 with rfl | rfl <;> simp at h2 <;> exact h2.2
            exact h6 c (by rw [this]; simp)

/-- A numeral goes on only with a digit, a point or an `e`. -/
theorem numeral_next {w r : List Nat} {c : Nat} (h : Numeral w) (h' : Numeral (w ++ c :: r)) : Digit c ∨ c = 46 ∨ c = 69 ∨ c = 101 := by
  rcases numeral_mid h' with h1 | ⟨a', e, rfl, he⟩
  · exact h1
  · exfalso
    have := numeral_last h
    unfold Digit at this
    omega

/-! ## Taking a token -/

theorem take_append_ge {l r : List Nat} {m : Nat} (h : l.length < m) (h2 : m ≤ (l ++ r).length) :
    ∃ c r', (l ++ r).take m = l ++ c :: r' ∧ ∃ r'', r = c :: r'' := by
  rw [List.length_append] at h2
  cases r with
  | nil => simp at h2; omega
  | cons c r =>
    obtain ⟨k, rfl⟩ : ∃ k, m = l.length + (k + 1) := ⟨m - l.length - 1, by omega⟩
    exact ⟨c, r.take k, by rw [List.take_length_add_append]; rfl, r, rfl⟩

/-- Words of two or more characters are only matched by the number and the `sqrt` pattern. -/
theorem matches_long {k c d : Nat} {w : List Nat} (h : Matches k (c :: d :: w)) :
    (k = 0 ∧ Numeral (c :: d :: w)) ∨ (k = 7 ∧ c :: d :: w = [115, 113, 114, 116]) := by
  unfold Matches at h
  split at h
  · exact Or.inl ⟨rfl, h⟩
  all_goals first
    | (exact Or.inr ⟨rfl, h⟩)
    | (simp at h)

/-- A single character that starts neither a number nor `sqrt` is taken alone. -/
theorem next_single {c k : Nat} {w : List Nat} (hd : ¬ Digit c) (h46 : c ≠ 46) (h115 : c ≠ 115) (hk : Matches k [c])
    (hj : ∀ j < k, ¬ Matches j [c]) : NextToken (PatCode parse0 (pats A)) id (c :: w) 1 k := by
  refine ⟨by simp, ?_, ?_, ?_⟩
  · rw [patCode_iff]; simpa using hk
  · intro j h; rw [patCode_iff]; simpa using hj j h
  · intro m hm hl j
    rw [patCode_iff]
    intro h
    simp only [List.map_id] at h
    obtain ⟨x, r, hx, _⟩ := take_append_ge (l := [c]) (r := w) (m := m) (by simpa using hm) (by simpa using hl)
    rw [show (c :: w) = [c] ++ w from rfl, hx] at h
    rcases matches_long h with ⟨_, h⟩ | ⟨_, h⟩
    · obtain ⟨y, _, he, hy⟩ := numeral_head h
      simp at he
      rw [← he.1] at hy
      exact hy.elim hd h46
    · simp at h
      exact h115 h.1

/-- Index of the pattern of a token. -/
def Token.pat : Token (List Nat) → Nat
  | .number _ => 0
  | .add => 1
  | .sub => 2
  | .mul => 3
  | .div => 4
  | .bracket => 5
  | .closeBracket => 6
  | .sqrt => 7

/-- The character does not continue a number. -/
def Breaks (w : List Nat) : Prop := ∀ c r, w = c :: r → ¬ (Digit c ∨ c = 46 ∨ c = 69 ∨ c = 101)

theorem not_numeral_of_head {c : Nat} {w : List Nat} (hd : ¬ Digit c) (h46 : c ≠ 46) : ¬ Numeral (c :: w) := by
  intro h
  obtain ⟨y, _, he, hy⟩ := numeral_head h
  simp at he
  rw [← he.1] at hy
  exact hy.elim hd h46

theorem next_token (t : Token (List Nat)) (ht : t.Ok) (w : List Nat) (hb : ∀ x, t = .number x → Breaks w) :
    NextToken (PatCode parse0 (pats A)) id (t.spell ++ w) t.spell.length t.pat := by
  have single : ∀ c k, ¬ Digit c → c ≠ 46 → c ≠ 115 → Matches k [c] → (∀ j < k, ¬ Matches j [c]) →
      NextToken (PatCode parse0 (pats A)) id ([c] ++ w) 1 k := fun c k h1 h2 h3 h4 h5 => next_single h1 h2 h3 h4 h5
  have nn : ∀ c, ¬ Digit c → c ≠ 46 → ¬ Numeral [c] := fun c h1 h2 => not_numeral_of_head h1 h2
  cases t with
  | number x =>
    refine ⟨by simp [Token.spell], ?_, fun j h => absurd h (Nat.not_lt_zero _), ?_⟩
    · rw [patCode_iff]; simpa [Token.spell, Token.pat, Matches, Token.Ok] using ht
    · intro m hm hl j
      rw [patCode_iff]
      intro h
      simp only [List.map_id, Token.spell] at h
      obtain ⟨c, r, hx, r', hr⟩ := take_append_ge (l := x) (r := w) (m := m) hm (by simpa [Token.spell] using hl)
      rw [hx] at h
      obtain ⟨y, z, rfl, hy⟩ := numeral_head ht
      have h2 : ∃ d q, z ++ c :: r = d :: q := by
        cases z with
        | nil => exact ⟨c, r, rfl⟩
        | cons d z => exact ⟨d, z ++ c :: r, rfl⟩
      obtain ⟨d, q, h2⟩ := h2
      rw [show (y :: z) ++ c :: r = y :: (z ++ c :: r) from rfl, h2] at h
      rcases matches_long h with ⟨_, h⟩ | ⟨_, h⟩
      · rw [← h2] at h
        exact hb _ rfl c r' hr (numeral_next (w := y :: z) (r := r) ht h)
      · simp at h
        unfold Digit at hy
        omega
  | sqrt =>
    refine ⟨by simp [Token.spell], ?_, ?_, ?_⟩
    · rw [patCode_iff]; simp [Token.spell, Token.pat, Matches]
    · intro j h
      rw [patCode_iff]
      simp only [Token.spell, Token.pat] at h ⊢
      intro hm
      simp only [List.map_id, List.cons_append, List.nil_append, List.length_cons, List.length_nil, Nat.zero_add, Nat.reduceAdd, List.take_succ_cons, List.take_zero] at hm
      rcases matches_long hm with ⟨rfl, hm⟩ | ⟨rfl, hm⟩
      · exact not_numeral_of_head (by unfold Digit; omega) (by omega) hm
      · omega
    · intro m hm hl j
      rw [patCode_iff]
      intro h
      simp only [List.map_id, Token.spell] at h
      obtain ⟨c, r, hx, _⟩ := take_append_ge (l := [115, 113, 114, 116]) (r := w) (m := m) (by simpa [Token.spell] using hm)
        (by simpa [Token.spell] using hl)
      rw [hx] at h
      rcases matches_long h with ⟨_, h⟩ | ⟨_, h⟩
      · exact not_numeral_of_head (by unfold Digit; omega) (by omega) h
      · simp at h
  | add => exact single 43 1 (by unfold Digit; omega) (by omega) (by omega) rfl (by
      intro j hj
      have : j = 0 := by omega
      subst this
      exact nn 43 (by unfold Digit; omega) (by omega))
  | sub => exact single 45 2 (by unfold Digit; omega) (by omega) (by omega) rfl (by
      intro j hj
      have : j = 0 ∨ j = 1 := by omega
      rcases this with rfl | rfl
      · exact nn 45 (by unfold Digit; omega) (by omega)
      all_goals simp [Matches])
  | mul => exact single 42 3 (by unfold Digit; omega) (by omega) (by omega) rfl (by
      intro j hj
      have : j = 0 ∨ j = 1 ∨ j = 2 := by omega
      rcases this with rfl | rfl | rfl
      · exact nn 42 (by unfold Digit; omega) (by omega)
      all_goals simp [Matches])
  | div => exact single 47 4 (by unfold Digit; omega) (by omega) (by omega) rfl (by
      intro j hj
      have : j = 0 ∨ j = 1 ∨ j = 2 ∨ j = 3 := by omega
      rcases this with rfl | rfl | rfl | rfl
      · exact nn 47 (by unfold Digit; omega) (by omega)
      all_goals simp [Matches])
  | bracket => exact single 40 5 (by unfold Digit; omega) (by omega) (by omega) rfl (by
      intro j hj
      have : j = 0 ∨ j = 1 ∨ j = 2 ∨ j = 3 ∨ j = 4 := by omega
      rcases this with rfl | rfl | rfl | rfl | rfl
      · exact nn 40 (by unfold Digit; omega) (by omega)
      all_goals simp [Matches])
  | closeBracket => exact single 41 6 (by unfold Digit; omega) (by omega) (by omega) rfl (by
      intro j hj
      have : j = 0 ∨ j = 1 ∨ j = 2 ∨ j = 3 ∨ j = 4 ∨ j = 5 := by omega
      rcases this with rfl | rfl | rfl | rfl | rfl | rfl
      · exact nn 41 (by unfold Digit; omega) (by omega)
      all_goals simp [Matches])

theorem next_blank {c : Nat} (hc : Blank c) (w : List Nat) : NextToken (PatCode parse0 (pats A)) id (c :: w) 1 8 := by
  obtain ⟨h1, h2, h3⟩ := hc
  simp only [List.mem_cons, List.not_mem_nil, or_false, not_or] at h3
  refine next_single h2 h3.1 (by omega) ⟨c, rfl, h1⟩ ?_
  intro j hj
  have : j = 0 ∨ j = 1 ∨ j = 2 ∨ j = 3 ∨ j = 4 ∨ j = 5 ∨ j = 6 ∨ j = 7 := by omega
  rcases this with rfl | rfl | rfl | rfl | rfl | rfl | rfl | rfl
  · exact not_numeral_of_head h2 h3.1
  all_goals simp [Matches]; try omega

/-! ## Written texts -/

/-- No two numbers in a row. -/
def Apart (ts : List (Token V)) : Prop := ∀ a x y b, ts ≠ a ++ .number x :: .number y :: b

theorem Written.breaks {ts : List (Token (List Nat))} {w : List Nat} (h : Written ts w) (hh : ∀ x r, ts ≠ .number x :: r) : Breaks w := by
  cases h with
  | nil => intro c r h; cases h
  | blank c ts w hc h =>
    intro c' r he
    cases he
    obtain ⟨h1, h2, h3⟩ := hc
    simp only [List.mem_cons, List.not_mem_nil, or_false, not_or] at h3
    rintro (h | h | h | h)
    · exact h2 h
    all_goals omega
  | token t ts w ht h =>
    intro c r he
    cases t with
    | number x => exact absurd rfl (hh _ _)
    | add => cases he; unfold Digit; omega
    | sub => cases he; unfold Digit; omega
    | mul => cases he; unfold Digit; omega
    | div => cases he; unfold Digit; omega
    | bracket => cases he; unfold Digit; omega
    | closeBracket => cases he; unfold Digit; omega
    | sqrt => cases he; unfold Digit; omega

theorem pat_get (A : Arith V) (t : Token (List Nat)) : ∃ p, (pats A)[t.pat]? = some p ∧ ∀ items, p.2 t.spell items = some (t.value A) := by
  cases t <;> exact ⟨_, rfl, fun _ => rfl⟩

/-- The tokens of a written text. -/
theorem written_tokens {ts : List (Token (List Nat))} {w : List Nat} (h : Written ts w) (ha : Apart ts) :
    ∃ es, Tokens (PatCode parse0 (pats A)) (pats A) id w es [] ∧ es.filterMap id = ts.map (Token.value A) := by
  induction h with
  | nil => exact ⟨[], .nil _, rfl⟩
  | blank c ts w hc h ih =>
    obtain ⟨es, h1, h2⟩ := ih ha
    refine ⟨none :: es, ?_, by simpa using h2⟩
    exact .cons (c :: w) 1 8 _ es [] (next_blank hc w) rfl h1
  | token t ts w ht h ih =>
    obtain ⟨es, h1, h2⟩ := ih (fun a x y b he => ha (t :: a) x y b (by rw [he]; rfl))
    obtain ⟨p, hp1, hp2⟩ := pat_get A t
    have hn := next_token (A := A) t ht w (by
      rintro x rfl
      apply h.breaks
      intro y r he
      exact ha [] x y r (by rw [he]; rfl))
    refine ⟨some (t.value A) :: es, ?_, by simpa using h2⟩
    have := Tokens.cons (M := PatCode parse0 (pats A)) (ps := pats A) (map := id) (t.spell ++ w) t.spell.length t.pat p es [] hn hp1
      (by simpa using h1)
    simp only [List.take_left, List.map_id, hp2] at this
    exact this

theorem toks_apart (e : Ex V) : Apart e.toks := by
  have bin : ∀ (l r : List (Token V)) (o : Token V), (∀ x, o ≠ .number x) → Apart l → Apart r → Apart (l ++ [o] ++ r) := by
    intro l r o ho hl hr a x y b he
    simp only [List.append_assoc, List.singleton_append] at he
    rcases List.append_eq_append_iff.1 he with ⟨q, h1, h2⟩ | ⟨q, h1, h2⟩
    · cases q with
      | nil => simp at h2; exact ho _ h2.1
      | cons z q =>
        simp at h2
        exact hr q x y b h2.2
    · cases q with
      | nil => simp at h2; exact ho _ h2.1.symm
      | cons z q =>
        simp at h2
        obtain ⟨rfl, h2⟩ := h2
        cases q with
        | nil => simp at h2; exact ho _ h2.1.symm
        | cons z q =>
          simp at h2
          obtain ⟨rfl, h2⟩ := h2
          exact hl a x y q (by rw [h1])
  have nil : Apart ([] : List (Token V)) := by intro a x y b h; simp at h
  have one : ∀ t : Token V, Apart [t] := by
    intro t a x y b h
    have := congrArg List.length h
    simp at this
    omega
  induction e with
  | num v => exact one _
  | pos v => exact bin [] [.number v] .add (by simp) nil (one _)
  | neg v => exact bin [] [.number v] .sub (by simp) nil (one _)
  | paren e ih =>
    have h1 := bin [] e.toks .bracket (by simp) nil ih
    have h2 := bin _ [] .closeBracket (by simp) h1 nil
    simpa [Ex.toks] using h2
  | sqrt e ih => simpa [Ex.toks] using bin [] e.toks .sqrt (by simp) nil ih
  | mul a b iha ihb => exact bin _ _ _ (by simp) iha ihb
  | div a b iha ihb => exact bin _ _ _ (by simp) iha ihb
  | add a b iha ihb => exact bin _ _ _ (by simp) iha ihb
  | sub a b iha ihb => exact bin _ _ _ (by simp) iha ihb

theorem value_toks (e : Ex (List Nat)) : (e.value A).toks = e.toks.map (Token.value A) := by
  induction e <;> simp_all [Ex.value, Ex.toks, Token.value]

theorem value_level (e : Ex (List Nat)) : (e.value A).level = e.level := by
  cases e <;> rfl

theorem value_wf (e : Ex (List Nat)) : (e.value A).Wf ↔ e.Wf := by
  induction e <;> simp_all [Ex.value, Ex.Wf, value_level]

/-! ## Any text -/

theorem pat_inv {k : Nat} {u : List Nat} (h : PatCode parse0 (pats A) k u) :
    ∃ p, (pats A)[k]? = some p ∧ ((∃ t : Token (List Nat), t.Ok ∧ u = t.spell ∧ ∀ items, p.2 u items = some (t.value A)) ∨
      ∃ c, c < 0x110000 ∧ u = [c] ∧ ∀ items, p.2 u items = none) := by
  rw [patCode_iff] at h
  match k with
  | 0 => exact ⟨_, rfl, Or.inl ⟨.number u, h, rfl, fun _ => rfl⟩⟩
  | 1 => exact ⟨_, rfl, Or.inl ⟨.add, trivial, h, fun _ => rfl⟩⟩
  | 2 => exact ⟨_, rfl, Or.inl ⟨.sub, trivial, h, fun _ => rfl⟩⟩
  | 3 => exact ⟨_, rfl, Or.inl ⟨.mul, trivial, h, fun _ => rfl⟩⟩
  | 4 => exact ⟨_, rfl, Or.inl ⟨.div, trivial, h, fun _ => rfl⟩⟩
  | 5 => exact ⟨_, rfl, Or.inl ⟨.bracket, trivial, h, fun _ => rfl⟩⟩
  | 6 => exact ⟨_, rfl, Or.inl ⟨.closeBracket, trivial, h, fun _ => rfl⟩⟩
  | 7 => exact ⟨_, rfl, Or.inl ⟨.sqrt, trivial, h, fun _ => rfl⟩⟩
  | 8 =>
    obtain ⟨c, rfl, hc⟩ := h
    exact ⟨_, rfl, Or.inr ⟨c, hc, rfl, fun _ => rfl⟩⟩
  | k + 9 => exact absurd h (by simp [Matches])

/-- The tokens of any text are within it. -/
theorem tokens_within {w rest : List Nat} {es : List (Option (Token V))} (h : Tokens (PatCode parse0 (pats A)) (pats A) id w es rest)
    (hr : rest = []) : ∃ ts, Within ts w ∧ es.filterMap id = ts.map (Token.value A) := by
  induction h with
  | nil l => subst hr; exact ⟨[], .nil, rfl⟩
  | cons l n k p es rest hn hp _ ih =>
    obtain ⟨ts, h1, h2⟩ := ih hr
    have hm := hn.2.1
    simp only [List.map_id] at hm
    obtain ⟨p', hp', hc⟩ := pat_inv hm
    rw [hp] at hp'
    cases hp'
    simp only [List.map_id]
    rcases hc with ⟨t, ht, hu, hv⟩ | ⟨c, hc, hu, hv⟩
    · refine ⟨t :: ts, ?_, by simp [hv, h2]⟩
      have := Within.token t ts _ ht h1
      rw [← hu, List.take_append_drop] at this
      exact this
    · refine ⟨ts, ?_, by simp [hv, h2]⟩
      have := Within.other c ts _ hc h1
      have he : c :: l.drop n = l := by
        have := List.take_append_drop n l
        rw [hu] at this
        exact this
      rw [he] at this
      exact this

/-- An expression in terms of texts. -/
theorem lift_toks (e : Ex V) : ∀ ts : List (Token (List Nat)), ts.map (Token.value A) = e.toks → ∃ e' : Ex (List Nat), e'.toks = ts ∧ e'.value A = e := by
  have tok : ∀ t (t' : Token V), Token.value A t = t' → (∀ x, t' ≠ .number x) → ∀ s : Token (List Nat), s.value A = t' → s = t := by
    intro t t' h1 h2 s hs
    subst h1
    cases t <;> cases s <;> simp_all [Token.value]
  have num : ∀ (t : Token (List Nat)) v, t.value A = .number v → ∃ w, t = .number w ∧ A.read w = v := by
    intro t v h
    cases t <;> simp_all [Token.value]
  have bin : ∀ (a b : Ex V) (o' : Token (List Nat)), (∀ x, o'.value A ≠ .number x) →
      (∀ ts : List (Token (List Nat)), ts.map (Token.value A) = a.toks → ∃ e' : Ex (List Nat), e'.toks = ts ∧ e'.value A = a) →
      (∀ ts : List (Token (List Nat)), ts.map (Token.value A) = b.toks → ∃ e' : Ex (List Nat), e'.toks = ts ∧ e'.value A = b) →
      ∀ ts : List (Token (List Nat)), ts.map (Token.value A) = a.toks ++ [o'.value A] ++ b.toks →
        ∃ a' b' : Ex (List Nat), a'.toks ++ [o'] ++ b'.toks = ts ∧ a'.value A = a ∧ b'.value A = b := by
    intro a b o' ho iha ihb ts h
    obtain ⟨l, r, rfl, h1, h2⟩ := List.map_eq_append_iff.1 h
    obtain ⟨l1, l2, rfl, h3, h4⟩ := List.map_eq_append_iff.1 h1
    obtain ⟨a', rfl, ha⟩ := iha _ h3
    obtain ⟨b', rfl, hb⟩ := ihb _ h2
    refine ⟨a', b', ?_, ha, hb⟩
    cases l2 with
    | nil => cases h4
    | cons x l2 =>
      simp at h4
      obtain ⟨h4, rfl⟩ := h4
      rw [tok o' _ rfl ho x h4]
  induction e with
  | num v =>
    intro ts h
    cases ts with
    | nil => cases h
    | cons t ts =>
      simp [Ex.toks] at h
      obtain ⟨h1, rfl⟩ := h
      obtain ⟨w, rfl, hw⟩ := num t v h1
      exact ⟨.num w, rfl, by simp [Ex.value, hw]⟩
  | pos v =>
    intro ts h
    match ts with
    | [] => cases h
    | [_] => simp [Ex.toks] at h
    | t :: t' :: ts =>
      simp [Ex.toks] at h
      obtain ⟨h1, h2, rfl⟩ := h
      obtain ⟨w, rfl, hw⟩ := num t' v h2
      obtain rfl := tok .add .add rfl (by simp) t h1
      exact ⟨.pos w, rfl, by simp [Ex.value, hw]⟩
  | neg v =>
    intro ts h
    match ts with
    | [] => cases h
    | [_] => simp [Ex.toks] at h
    | t :: t' :: ts =>
      simp [Ex.toks] at h
      obtain ⟨h1, h2, rfl⟩ := h
      obtain ⟨w, rfl, hw⟩ := num t' v h2
      obtain rfl := tok .sub .sub rfl (by simp) t h1
      exact ⟨.neg w, rfl, by simp [Ex.value, hw]⟩
  | paren e ih =>
    intro ts h
    cases ts with
    | nil => simp [Ex.toks] at h
    | cons t ts =>
      simp [Ex.toks] at h
      obtain ⟨h1, h⟩ := h
      obtain rfl := tok .bracket .bracket rfl (by simp) t h1
      obtain ⟨l, r, rfl, h3, h4⟩ := List.map_eq_append_iff.1 h
      obtain ⟨e', rfl, he⟩ := ih _ h3
      cases r with
      | nil => cases h4
      | cons x r =>
        simp at h4
        obtain ⟨h4, rfl⟩ := h4
        obtain rfl := tok .closeBracket .closeBracket rfl (by simp) x h4
        exact ⟨.paren e', by simp [Ex.toks], by simp [Ex.value, he]⟩
  | sqrt e ih =>
    intro ts h
    cases ts with
    | nil => simp [Ex.toks] at h
    | cons t ts =>
      simp [Ex.toks] at h
      obtain ⟨h1, h⟩ := h
      obtain rfl := tok .sqrt .sqrt rfl (by simp) t h1
      obtain ⟨e', rfl, he⟩ := ih _ h
      exact ⟨.sqrt e', by simp [Ex.toks], by simp [Ex.value, he]⟩
  | mul a b iha ihb =>
    intro ts h
    obtain ⟨a', b', rfl, ha, hb⟩ := bin a b .mul (by simp [Token.value]) iha ihb ts h
    exact ⟨.mul a' b', rfl, by simp [Ex.value, ha, hb]⟩
  | div a b iha ihb =>
    intro ts h
    obtain ⟨a', b', rfl, ha, hb⟩ := bin a b .div (by simp [Token.value]) iha ihb ts h
    exact ⟨.div a' b', rfl, by simp [Ex.value, ha, hb]⟩
  | add a b iha ihb =>
    intro ts h
    obtain ⟨a', b', rfl, ha, hb⟩ := bin a b .add (by simp [Token.value]) iha ihb ts h
    exact ⟨.add a' b', rfl, by simp [Ex.value, ha, hb]⟩
  | sub a b iha ihb =>
    intro ts h
    obtain ⟨a', b', rfl, ha, hb⟩ := bin a b .sub (by simp [Token.value]) iha ihb ts h
    exact ⟨.sub a' b', rfl, by simp [Ex.value, ha, hb]⟩

end Verif.Calc
