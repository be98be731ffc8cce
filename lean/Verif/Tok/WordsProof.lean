import Verif.Tok.Words
import Verif.Props.TokGen

/-!
# Proofs about the tokenizers of `tokenizer_generator/tests`
-/

namespace Verif.Tok.Words

open Verif.Tok

variable {α E : Type}

def InClass (rs : List (Nat × Nat)) (c : Nat) : Prop := ∃ r ∈ rs, r.1 ≤ c ∧ c ≤ r.2

theorem pow_class (rs : List (Nat × Nat)) (n : Nat) : ∀ w, Pow (Lang (.classU rs)) n w ↔ w.length = n ∧ ∀ c ∈ w, InClass rs c := by
  induction n with
  | zero => intro w; simp only [Pow]; constructor
            · rintro rfl; simp
            · rintro ⟨h, _⟩; exact List.length_eq_zero_iff.1 h
  | succ n ih =>
    intro w
    simp only [Pow]
    constructor
    · rintro ⟨u, v, rfl, ⟨c, rfl, h⟩, h2⟩
      obtain ⟨h3, h4⟩ := (ih v).1 h2
      refine ⟨by simp [h3], ?_⟩
      intro x hx
      simp at hx
      rcases hx with rfl | hx
      · exact h
      · exact h4 x hx
    · rintro ⟨h1, h2⟩
      cases w with
      | nil => simp at h1
      | cons c w => exact ⟨[c], w, rfl, ⟨c, rfl, h2 c (by simp)⟩, (ih w).2 ⟨by simpa using h1, fun x hx => h2 x (by simp [hx])⟩⟩

theorem star_class (rs : List (Nat × Nat)) (w : List Nat) : Lang (.rep .zeroOrMore (.classU rs)) w ↔ ∀ c ∈ w, InClass rs c := by
  simp only [Lang, RepKind.allows, true_and]
  constructor
  · rintro ⟨n, h⟩; exact ((pow_class rs n w).1 h).2
  · intro h; exact ⟨w.length, (pow_class rs _ w).2 ⟨rfl, h⟩⟩

theorem plus_class (rs : List (Nat × Nat)) (w : List Nat) : Lang (.rep .oneOrMore (.classU rs)) w ↔ w ≠ [] ∧ ∀ c ∈ w, InClass rs c := by
  simp only [Lang, RepKind.allows]
  constructor
  · rintro ⟨n, h0, h⟩
    obtain ⟨h1, h2⟩ := (pow_class rs n w).1 h
    exact ⟨by rintro rfl; simp at h1; omega, h2⟩
  · rintro ⟨h0, h⟩
    refine ⟨w.length, ?_, (pow_class rs _ w).2 ⟨rfl, h⟩⟩
    cases w with
    | nil => exact absurd rfl h0
    | cons => simp

theorem two (rs : List (Nat × Nat)) (h : Hir) (w : List Nat) : Lang (.concat [.classU rs, h]) w ↔ ∃ c r, w = c :: r ∧ InClass rs c ∧ Lang h r := by
  simp only [Lang, LangSeq]
  constructor
  · rintro ⟨_, _, rfl, ⟨c, rfl, h1⟩, v, _, rfl, h2, rfl⟩
    exact ⟨c, v, by simp, h1, h2⟩
  · rintro ⟨c, r, rfl, h1, h2⟩
    exact ⟨[c], r, rfl, ⟨c, rfl, h1⟩, r, [], by simp, h2, rfl⟩

/-- What the patterns match. -/
def Matches (k : Nat) (w : List Nat) : Prop :=
  match k with
  | 0 => ∃ c r, w = c :: r ∧ letter c = true ∧ ∀ x ∈ r, word x = true
  | 1 => (∃ x p r, w = 48 :: x :: r ∧ base x = some p ∧ r ≠ [] ∧ ∀ y ∈ r, p y = true) ∨
      (∃ c r, w = c :: r ∧ c ≠ 48 ∧ digit c = true ∧ ∀ x ∈ r, digit x = true) ∨ w = [48]
  | 2 => ∃ c, w = [c] ∧ c < 0x110000
  | _ => False

theorem word_iff (w : List Nat) : Lang wordRegex w ↔ Matches 0 w := by
  unfold wordRegex
  rw [two]
  simp only [star_class, Matches]
  have h1 : ∀ c, InClass [(65, 90), (95, 95), (97, 122)] c ↔ letter c = true := by
    intro c; simp [InClass, letter]; omega
  have h2 : ∀ c, InClass [(48, 57), (65, 90), (95, 95), (97, 122)] c ↔ word c = true := by
    intro c; simp [InClass, word, letter, digit]; omega
  simp only [h1, h2]

theorem number_iff (w : List Nat) : Lang numberRegex w ↔ Matches 1 w := by
  have h0 : ∀ c, InClass [(48, 57)] c ↔ digit c = true := by intro c; simp [InClass, digit]
  have h1 : ∀ c, InClass [(49, 57)] c ↔ c ≠ 48 ∧ digit c = true := by intro c; simp [InClass, digit]; omega
  have h2 : ∀ c, InClass [(48, 57), (65, 70), (97, 102)] c ↔ hex c = true := by intro c; simp [InClass, hex, digit]; omega
  have h3 : ∀ c, InClass [(48, 55)] c ↔ (fun c => decide (48 ≤ c) && decide (c ≤ 55)) c = true := by intro c; simp [InClass]
  have h4 : ∀ c, InClass [(48, 49)] c ↔ (fun c => c == 48 || c == 49) c = true := by intro c; simp [InClass]; omega
  have e1 : Lang numberRegex w ↔
      (∃ r, w = 48 :: r ∧ (
        Lang (.concat [.classU [(88, 88), (120, 120)], .rep .oneOrMore (.classU [(48, 57), (65, 70), (97, 102)])]) r ∨
        Lang (.concat [.classU [(68, 68), (100, 100)], .rep .oneOrMore (.classU [(48, 57)])]) r ∨
        Lang (.concat [.classU [(79, 79), (111, 111)], .rep .oneOrMore (.classU [(48, 55)])]) r ∨
        Lang (.concat [.classU [(66, 66), (98, 98)], .rep .oneOrMore (.classU [(48, 49)])]) r)) ∨
      Lang (.concat [.classU [(49, 57)], .rep .zeroOrMore (.classU [(48, 57)])]) w ∨ w = [48] := by
    have e2 : ∀ h : Hir, Lang (.concat [.literalU 48, h]) w ↔ ∃ r, w = 48 :: r ∧ Lang h r := by
      intro h
      simp only [Lang, LangSeq]
      constructor
      · rintro ⟨_, _, rfl, rfl, v, _, rfl, h2, rfl⟩
        exact ⟨v, by simp, h2⟩
      · rintro ⟨r, rfl, h2⟩
        exact ⟨[48], r, rfl, rfl, r, [], by simp, h2, rfl⟩
    have e3 : ∀ a b c : Hir, Lang (.alt [a, b, c]) w ↔ Lang a w ∨ Lang b w ∨ Lang c w := by
      intro a b c; simp [Lang, LangAny]
    have e4 : ∀ (a b c d : Hir) r, Lang (.group (.alt [a, b, c, d])) r ↔ Lang a r ∨ Lang b r ∨ Lang c r ∨ Lang d r := by
      intro a b c d r; simp [Lang, LangAny]
    unfold numberRegex
    rw [e3, e2]
    simp only [e4]
    simp only [show ∀ w, Lang (.literalU 48) w ↔ w = [48] from fun w => by simp [Lang]]
  rw [e1]
  simp only [two, plus_class, star_class, h0, h1, h2, h3, h4]
  simp only [Matches]
  have hc : ∀ a b c, InClass [(a, a), (b, b)] c ↔ c = a ∨ c = b := by intro a b c; simp [InClass]; omega
  simp only [hc]
  constructor
  · rintro (⟨_, rfl, (⟨x, r, rfl, hx, h5, h6⟩ | ⟨x, r, rfl, hx, h5, h6⟩ | ⟨x, r, rfl, hx, h5, h6⟩ | ⟨x, r, rfl, hx, h5, h6⟩)⟩ | ⟨c, r, rfl, ⟨h5, h6⟩, h7⟩ | rfl)
    · exact Or.inl ⟨x, _, r, rfl, by unfold base; rw [if_pos (by omega)], h5, h6⟩
    · exact Or.inl ⟨x, _, r, rfl, by unfold base; rw [if_neg (by omega), if_pos (by omega)], h5, h6⟩
    · exact Or.inl ⟨x, _, r, rfl, by unfold base; rw [if_neg (by omega), if_neg (by omega), if_pos (by omega)], h5, h6⟩
    · exact Or.inl ⟨x, _, r, rfl, by unfold base; rw [if_neg (by omega), if_neg (by omega), if_neg (by omega), if_pos (by omega)], h5, h6⟩
    · exact Or.inr (Or.inl ⟨c, r, rfl, h5, h6, h7⟩)
    · exact Or.inr (Or.inr rfl)
  · rintro (⟨x, p, r, rfl, hb, h5, h6⟩ | ⟨c, r, rfl, h5, h6, h7⟩ | rfl)
    · refine Or.inl ⟨_, rfl, ?_⟩
      unfold base at hb
      split at hb
      · cases hb; exact Or.inl ⟨x, r, rfl, by omega, h5, h6⟩
      split at hb
      · cases hb; exact Or.inr (Or.inl ⟨x, r, rfl, by omega, h5, h6⟩)
      split at hb
      · cases hb; exact Or.inr (Or.inr (Or.inl ⟨x, r, rfl, by omega, h5, h6⟩))
      split at hb
      · cases hb; exact Or.inr (Or.inr (Or.inr ⟨x, r, rfl, by omega, h5, h6⟩))
      · cases hb
    · exact Or.inr (Or.inl ⟨c, r, rfl, ⟨h5, h6⟩, h7⟩)
    · exact Or.inr (Or.inr rfl)

theorem any_iff (w : List Nat) : Lang anyRegex w ↔ Matches 2 w := by
  simp only [anyRegex, Lang, LangAny, Matches]
  constructor
  · rintro (⟨c, rfl, r, hr, h1, h2⟩ | rfl | h)
    · simp only [List.mem_cons, List.not_mem_nil, or_false] at hr
      rcases hr with rfl | rfl
      · exact ⟨c, rfl, by simp at h2; omega⟩
      · exact ⟨c, rfl, by simp at h2; omega⟩
    · exact ⟨10, rfl, by omega⟩
    · exact h.elim
  · rintro ⟨c, rfl, hc⟩
    by_cases h1 : c ≤ 9
    · exact Or.inl ⟨c, rfl, (0, 9), by simp, by simp, h1⟩
    · by_cases h2 : c = 10
      · exact Or.inr (Or.inl (by rw [h2]))
      · exact Or.inl ⟨c, rfl, (11, 0x10FFFF), by simp, by simp; omega, by simp; omega⟩

theorem pats_ok (f g h : List Nat → List α → E) : ∀ p ∈ pats f g h, p.1.ok = true := by
  simp only [pats, List.mem_cons, List.not_mem_nil, or_false]
  rintro p (rfl | rfl | rfl) <;> rfl

theorem patLang_iff (f g h : List Nat → List α → E) {k : Nat} {w : List Nat} : PatLang parse0 (pats f g h) k w ↔ Matches k w := by
  have h0 : PatLang parse0 (pats f g h) k w ↔ ∃ p, (pats f g h)[k]? = some p ∧ Lang p.1 w := by
    constructor
    · rintro ⟨p, r, h1, h2, h3⟩
      refine ⟨p, h1, ?_⟩
      unfold parse0 at h2
      rw [if_pos (pats_ok f g h p (List.mem_of_getElem? h1))] at h2
      cases h2
      exact h3
    · rintro ⟨p, h1, h2⟩
      refine ⟨p, p.1, h1, ?_, h2⟩
      unfold parse0
      rw [if_pos (pats_ok f g h p (List.mem_of_getElem? h1))]
  rw [h0]
  match k with
  | 0 => simp [pats, word_iff]
  | 1 => simp [pats, number_iff]
  | 2 => simp [pats, any_iff]
  | k + 3 => simp [pats, Matches]

theorem pats_faithful (f g h : List Nat → List α → E) : ∀ i, PatFaithful parse0 (pats f g h) i := by
  intro i p r h1 h2
  have hm := List.mem_of_getElem? h1
  unfold parse0 at h2
  rw [if_pos (pats_ok f g h p hm)] at h2
  cases h2
  simp only [pats, List.mem_cons, List.not_mem_nil, or_false] at hm
  rcases hm with rfl | rfl | rfl <;> rfl

/-! ## One token -/

theorem le_takeWhile {p : Nat → Bool} {r : List Nat} {j : Nat} (hj : j ≤ r.length) (h : ∀ x ∈ r.take j, p x = true) : j ≤ (r.takeWhile p).length := by
  induction r generalizing j with
  | nil => simpa using hj
  | cons c r ih =>
    cases j with
    | zero => simp
    | succ j =>
      have hc : p c = true := h c (by simp)
      rw [List.takeWhile_cons, if_pos hc]
      have := ih (j := j) (by simpa using hj) (fun x hx => h x (by simp [hx]))
      simpa using this

theorem takeWhile_take {p : Nat → Bool} {r : List Nat} : r.take (r.takeWhile p).length = r.takeWhile p := by
  have h := List.takeWhile_append_dropWhile (p := p) (l := r)
  generalize r.takeWhile p = a at h ⊢
  rw [← h]
  simp

theorem takeWhile_le {p : Nat → Bool} {r : List Nat} : (r.takeWhile p).length ≤ r.length :=
  (List.takeWhile_sublist p).length_le

theorem mem_takeWhile {p : Nat → Bool} {r : List Nat} : ∀ x ∈ r.takeWhile p, p x = true := by
  induction r with
  | nil => simp
  | cons c r ih =>
    rw [List.takeWhile_cons]
    split
    · intro x hx
      rcases List.mem_cons.1 hx with rfl | hx
      · assumption
      · exact ih x hx
    · simp

theorem afterZero_le (r : List Nat) : afterZero r ≤ r.length := by
  cases r with
  | nil => simp [afterZero]
  | cons x r =>
    simp only [afterZero]
    split
    · split
      · omega
      · rename_i p _ _; have := takeWhile_le (p := p) (r := r); simp; omega
    · omega

theorem first_spec (c : Nat) (r : List Nat) (hc : c < 0x110000) : 1 ≤ (first c r).2 ∧ (first c r).2 ≤ (c :: r).length ∧
    Matches (first c r).1 ((c :: r).take (first c r).2) ∧ (∀ j < (first c r).1, ¬ Matches j ((c :: r).take (first c r).2)) ∧
    ∀ m, (first c r).2 < m → m ≤ (c :: r).length → ∀ j, ¬ Matches j ((c :: r).take m) := by
  unfold first
  split
  · next hl =>
    refine ⟨by simp, by have := takeWhile_le (p := word) (r := r); simp; omega, ?_, by simp, ?_⟩
    · refine ⟨c, r.takeWhile word, ?_, hl, mem_takeWhile⟩
      rw [Nat.add_comm, List.take_succ_cons, takeWhile_take]
    · intro m hm hm' j
      obtain ⟨m, rfl⟩ : ∃ k, m = k + 1 := ⟨m - 1, by omega⟩
      rw [List.take_succ_cons]
      simp only [List.length_cons] at hm'
      match j with
      | 0 =>
        rintro ⟨c', r', h1, _, h3⟩
        cases h1
        have := le_takeWhile (by omega) h3
        omega
      | 1 =>
        rintro (⟨x, p, r', h1, _⟩ | ⟨c', r', h1, h2, h3, _⟩ | h1)
        · obtain ⟨rfl, _⟩ := List.cons.inj h1; simp [letter] at hl
        · cases h1; simp [letter, digit] at hl h3; omega
        · obtain ⟨rfl, _⟩ := List.cons.inj h1; simp [letter] at hl
      | 2 =>
        rintro ⟨c', h1, _⟩
        have := congrArg List.length h1
        simp only [List.length_cons, List.length_take, List.length_nil] at this
        omega
      | j + 3 => exact id
  split
  · next hl h48 =>
    subst h48
    have haz := afterZero_le r
    refine ⟨by simp, by simp; omega, ?_, ?_, ?_⟩
    · rw [Nat.add_comm, List.take_succ_cons]
      cases r with
      | nil => exact Or.inr (Or.inr rfl)
      | cons x r =>
        simp only [afterZero]
        split
        · next p hp =>
          split
          · exact Or.inr (Or.inr rfl)
          · next hne =>
            refine Or.inl ⟨x, p, r.takeWhile p, ?_, hp, ?_, mem_takeWhile⟩
            · rw [Nat.add_comm, List.take_succ_cons, takeWhile_take]
            · intro h; rw [h] at hne; simp at hne
        · exact Or.inr (Or.inr rfl)
    · intro j hj
      obtain rfl : j = 0 := by simp at hj; omega
      rw [Nat.add_comm, List.take_succ_cons]
      rintro ⟨c', r', h1, h2, _⟩
      cases h1
      simp [letter] at h2
    · intro m hm hm' j
      obtain ⟨m, rfl⟩ : ∃ k, m = k + 1 := ⟨m - 1, by omega⟩
      rw [List.take_succ_cons]
      simp only [List.length_cons] at hm'
      match j with
      | 0 =>
        rintro ⟨c', r', h1, h2, _⟩
        cases h1
        simp [letter] at h2
      | 1 =>
        rintro (⟨x, p, r', h1, h2, h3, h4⟩ | ⟨c', r', h1, h2, h3, _⟩ | h1)
        · cases r with
          | nil => simp at hm'; omega
          | cons y r =>
            obtain ⟨m, rfl⟩ : ∃ k, m = k + 1 := ⟨m - 1, by omega⟩
            rw [List.take_succ_cons] at h1
            cases h1
            simp only [afterZero, h2] at hm
            simp only [List.length_cons] at hm'
            have := le_takeWhile (by omega) h4
            split at hm
            · next he =>
              have : (r.takeWhile p).length = 0 := by rw [List.isEmpty_iff.1 he]; rfl
              have : m = 0 := by omega
              subst this
              simp at h3
            · omega
        · exact h2 (List.cons.inj h1).1.symm
        · have := congrArg List.length h1
          simp only [List.length_cons, List.length_take, List.length_nil] at this
          omega
      | 2 =>
        rintro ⟨c', h1, _⟩
        have := congrArg List.length h1
        simp only [List.length_cons, List.length_take, List.length_nil] at this
        omega
      | j + 3 => exact id
  split
  · next hl h48 hd =>
    refine ⟨by simp, by have := takeWhile_le (p := digit) (r := r); simp; omega, ?_, ?_, ?_⟩
    · refine Or.inr (Or.inl ⟨c, r.takeWhile digit, ?_, h48, hd, mem_takeWhile⟩)
      rw [Nat.add_comm, List.take_succ_cons, takeWhile_take]
    · intro j hj
      obtain rfl : j = 0 := by simp at hj; omega
      rw [Nat.add_comm, List.take_succ_cons]
      rintro ⟨c', r', h1, h2, _⟩
      cases h1
      exact hl h2
    · intro m hm hm' j
      obtain ⟨m, rfl⟩ : ∃ k, m = k + 1 := ⟨m - 1, by omega⟩
      rw [List.take_succ_cons]
      simp only [List.length_cons] at hm'
      match j with
      | 0 =>
        rintro ⟨c', r', h1, h2, _⟩
        cases h1
        exact hl h2
      | 1 =>
        rintro (⟨x, p, r', h1, _⟩ | ⟨c', r', h1, h2, h3, h4⟩ | h1)
        · exact h48 (List.cons.inj h1).1
        · cases h1
          have := le_takeWhile (by omega) h4
          omega
        · exact h48 (List.cons.inj h1).1
      | 2 =>
        rintro ⟨c', h1, _⟩
        have := congrArg List.length h1
        simp only [List.length_cons, List.length_take, List.length_nil] at this
        omega
      | j + 3 => exact id
  · next hl h48 hd =>
    refine ⟨by simp, by simp, ⟨c, rfl, hc⟩, ?_, ?_⟩
    · intro j hj
      match j with
      | 0 =>
        rintro ⟨c', r', h1, h2, _⟩
        cases h1
        exact hl h2
      | 1 =>
        rintro (⟨x, p, r', h1, _⟩ | ⟨c', r', h1, h2, h3, _⟩ | h1)
        · cases h1
        · cases h1; exact hd h3
        · exact h48 (List.cons.inj h1).1
      | j + 2 => simp at hj; omega
    · intro m hm hm' j
      obtain ⟨m, rfl⟩ : ∃ k, m = k + 1 := ⟨m - 1, by omega⟩
      rw [List.take_succ_cons]
      simp only [List.length_cons] at hm'
      match j with
      | 0 =>
        rintro ⟨c', r', h1, h2, _⟩
        cases h1
        exact hl h2
      | 1 =>
        rintro (⟨x, p, r', h1, _⟩ | ⟨c', r', h1, h2, h3, _⟩ | h1)
        · exact h48 (List.cons.inj h1).1
        · cases h1; exact hd h3
        · exact h48 (List.cons.inj h1).1
      | 2 =>
        rintro ⟨c', h1, _⟩
        have := congrArg List.length h1
        simp only [List.length_cons, List.length_take, List.length_nil] at this
        omega
      | j + 3 => exact id

end Verif.Tok.Words
