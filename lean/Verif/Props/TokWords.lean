import Verif.Tok.WordsProof
import Verif.Props.TokBuild

/-!
# C70: the tokenizers of `tokenizer_generator/tests`, for every text
-/

namespace Verif.Tok.Words

open Verif.Tok

section
variable {α E : Type}

/-- Kinds and items of the tokens. -/
def slices (map : α → Nat) : Nat → List α → List (Nat × List α)
  | 0, _ => []
  | _ + 1, [] => []
  | n + 1, c :: r =>
    let x := first (map c) (r.map map)
    (x.1, (c :: r).take x.2) :: slices map n ((c :: r).drop x.2)

def call (f g h : List Nat → List α → E) : Nat → List Nat → List α → E
  | 0 => f
  | 1 => g
  | _ => h

theorem slices_tokens (f g h : List Nat → List α → E) (map : α → Nat) (n : Nat) : ∀ l : List α, l.length ≤ n → (∀ x ∈ l, map x < 0x110000) →
    Tokens (PatLang parse0 (pats f g h)) (pats f g h) map l ((slices map n l).map fun x => call f g h x.1 (x.2.map map) x.2) [] := by
  induction n with
  | zero =>
    intro l h0 _
    obtain rfl := List.length_eq_zero_iff.1 (Nat.le_zero.1 h0)
    exact .nil []
  | succ n ih =>
    intro l h0 hu
    cases l with
    | nil => exact .nil []
    | cons c r =>
      obtain ⟨h1, h2, h3, h4, h5⟩ := first_spec (map c) (r.map map) (hu c (by simp))
      simp only [slices, List.map_cons]
      generalize hx : first (map c) (r.map map) = x at h1 h2 h3 h4 h5 ⊢
      have hm : ∀ m, ((c :: r).take m).map map = (map c :: r.map map).take m := by intro m; rw [List.map_take]; rfl
      have hk : x.1 = 0 ∨ x.1 = 1 ∨ x.1 = 2 := by
        match hx1 : x.1 with
        | 0 => simp
        | 1 => simp
        | 2 => simp
        | k + 3 => rw [hx1] at h3; exact h3.elim
      obtain ⟨p, hp, hp'⟩ : ∃ p, (pats f g h)[x.1]? = some p ∧ p.2 = call f g h x.1 := by
        rcases hk with hk | hk | hk <;> rw [hk] <;> exact ⟨_, rfl, rfl⟩
      rw [← hp']
      refine .cons _ _ _ p _ _ ⟨by simpa using h2, ?_, ?_, ?_⟩ hp (ih _ ?_ ?_)
      · rw [patLang_iff, hm]; exact h3
      · intro j hj; rw [patLang_iff, hm]; exact h4 j hj
      · intro m k1 k2 j; rw [patLang_iff, hm]; exact h5 m k1 (by simpa using k2) j
      · rw [List.length_drop]; simp only [List.length_cons] at h0 ⊢; omega
      · intro y hy; exact hu y (List.mem_of_mem_drop hy)

theorem not_matches_nil (k : Nat) : ¬ Matches k [] := by
  match k with
  | 0 => rintro ⟨_, _, h, _⟩; cases h
  | 1 => rintro (⟨_, _, _, h, _⟩ | ⟨_, _, h, _⟩ | h) <;> cases h
  | 2 => rintro ⟨_, h, _⟩; cases h
  | k + 3 => exact id

/-- C70: for callbacks of any kind, the tokenizer makes exactly the cuts of the tokenizer written by hand. -/
theorem c70_cuts (f g h : List Nat → List α → E) (s : Seeds) (hs : s.Fair) (hc : Calm s parse0 (pats f g h)) (t : Tokenizer α E) (ws : List (Nat × Nat))
    (hb : BuildsTo s parse0 (pats f g h) (.ok (t, ws))) (map : α → Nat) (input : List α) (hu : ∀ x ∈ input, map x < 0x110000) :
    ∃ fuel it, t.collect map fuel (It.start input) =
      some ((slices map input.length input).map fun x => call f g h x.1 (x.2.map map) x.2, it) := by
  refine ((c19_regex_spec parse0_ok hs hc (pats_faithful f g h) hb map input _).2).2 ⟨[], slices_tokens f g h map _ input (Nat.le_refl _) hu, ?_⟩
  intro n j
  rw [patLang_iff]
  simpa using not_matches_nil j

/-- C70: the tokenizer is built, whatever the hash seeds. -/
theorem c70_builds (f g h : List Nat → List α → E) (s : Seeds) (hs : s.Fair) : ∃ t ws, BuildsTo s parse0 (pats f g h) (.ok (t, ws)) := by
  refine ((c03_build_errors parse0_ok hs (pats f g h)).2.2.1).2 ?_
  intro p hp
  refine ⟨p.1, by unfold parse0; rw [if_pos (pats_ok f g h p hp)], ?_⟩
  intro e he
  rw [← has_iff] at he
  have : p.1.unsupported = [] := by
    simp only [pats, List.mem_cons, List.not_mem_nil, or_false] at hp
    rcases hp with rfl | rfl | rfl <;> rfl
  rw [this] at he
  cases he

/-- C70: the build warns that the third pattern overlaps with the first and with the second, and of nothing else. -/
theorem c70_warnings (f g h : List Nat → List α → E) (s : Seeds) (hs : s.Fair) (t : Tokenizer α E) (ws : List (Nat × Nat))
    (hb : BuildsTo s parse0 (pats f g h) (.ok (t, ws))) (a b : Nat) : (a, b) ∈ ws ↔ a = 2 ∧ (b = 0 ∨ b = 1) := by
  rw [(c05_overlap_warnings_lang parse0_ok hs hb (pats_faithful f g h)).exact]
  simp only [patLang_iff]
  constructor
  · rintro ⟨w, h1, h2, h3, _⟩
    match a, b with
    | 0, _ => omega
    | 1, 0 =>
      exfalso
      obtain ⟨c, r, rfl, h4, _⟩ := h2
      rcases h1 with ⟨x, p, r', h1, _⟩ | ⟨c', r', h1, h5, h6, _⟩ | h1
      · cases h1; simp [letter] at h4
      · cases h1; simp [letter, digit] at h4 h6; omega
      · cases h1; simp [letter] at h4
    | 2, 0 => simp
    | 2, 1 => simp
    | 1, b + 1 => omega
    | 2, b + 2 => omega
    | a + 3, _ => exact h1.elim
  · rintro ⟨rfl, rfl | rfl⟩
    · refine ⟨[97], ⟨97, rfl, by omega⟩, ⟨97, [], rfl, rfl, by simp⟩, by omega, ?_⟩
      intro j h1 h2
      obtain rfl : j = 1 := by omega
      rintro (⟨x, p, r', h1, _⟩ | ⟨c', r', h1, h5, h6, _⟩ | h1)
      · cases h1
      · cases h1; cases h6
      · cases h1
    · exact ⟨[48], ⟨48, rfl, by omega⟩, Or.inr (Or.inr rfl), by omega, fun j h1 h2 => by omega⟩

end

theorem slices_id (n : Nat) : ∀ (i : Nat) (l : List Nat), (slices id n l).map (fun x => call (fun s _ => Token.a s) (fun s _ => .b s) (fun s _ => .c s) x.1 (x.2.map id) x.2) =
    (lexFrom n i l).map Token.of := by
  induction n with
  | zero => intro i l; rfl
  | succ n ih =>
    intro i l
    cases l with
    | nil => rfl
    | cons c r =>
      simp only [slices, lexFrom, List.map_cons, List.map_id, id]
      congr 1
      · generalize (first c r).1 = k
        match k with
        | 0 => rfl
        | 1 => rfl
        | k + 2 => rfl
      · have := ih (i + (first c r).2) ((c :: r).drop (first c r).2)
        simpa using this

theorem take_zipIdx {α : Type} (l : List α) (m : Nat) : ∀ i, (l.zipIdx i).take m = (l.take m).zipIdx i := by
  induction l generalizing m with
  | nil => simp
  | cons c l ih =>
    intro i
    cases m with
    | zero => simp
    | succ m => simp [List.zipIdx_cons, ih]

theorem drop_zipIdx {α : Type} (l : List α) (m : Nat) : ∀ i, (l.zipIdx i).drop m = (l.drop m).zipIdx (i + m) := by
  induction l generalizing m with
  | nil => simp
  | cons c l ih =>
    intro i
    cases m with
    | zero => simp
    | succ m => simp [List.zipIdx_cons, ih, Nat.add_assoc, Nat.add_comm 1]

theorem first_pos (c : Nat) (r : List Nat) : ∃ k, (first c r).2 = k + 1 := by
  unfold first
  split
  · exact ⟨_, Nat.add_comm _ _⟩
  · split
    · exact ⟨_, Nat.add_comm _ _⟩
    · split
      · exact ⟨_, Nat.add_comm _ _⟩
      · exact ⟨0, rfl⟩

theorem slices_zipIdx (n : Nat) : ∀ (i : Nat) (l : List Nat),
    (slices Prod.fst n (l.zipIdx i)).map (fun x => call (located .a) (located .b) (located .c) x.1 (x.2.map Prod.fst) x.2) =
    (lexFrom n i l).map TokenAt.of := by
  induction n with
  | zero => intro i l; rfl
  | succ n ih =>
    intro i l
    cases l with
    | nil => rfl
    | cons c r =>
      have e := take_zipIdx (c :: r) (first c r).2 i
      have e' := drop_zipIdx (c :: r) (first c r).2 i
      rw [List.zipIdx_cons] at e e' ⊢
      simp only [slices, lexFrom, List.map_cons, List.zipIdx_map_fst]
      congr 1
      · rw [e]
        obtain ⟨m, hm⟩ := first_pos c r
        rw [hm, List.take_succ_cons]
        generalize (first c r).1 = k
        match k with
        | 0 => simp [call, located, TokenAt.of, List.zipIdx_map_fst, List.zipIdx_cons]
        | 1 => simp [call, located, TokenAt.of, List.zipIdx_map_fst, List.zipIdx_cons]
        | k + 2 => simp [call, located, TokenAt.of, List.zipIdx_map_fst, List.zipIdx_cons]
      · rw [e']
        exact ih _ _

/-- C70: what the tokenizer of `normal.rs` returns for every text. -/
theorem c70_normal (s : Seeds) (hs : s.Fair) (hc : Calm s parse0 normal) (t : Tokenizer Nat Token) (ws : List (Nat × Nat))
    (hb : BuildsTo s parse0 normal (.ok (t, ws))) (text : List Nat) (hu : ∀ c ∈ text, c < 0x110000) :
    ∃ fuel it, t.collect id fuel (It.start text) = some ((lex text).map Token.of, it) := by
  obtain ⟨fuel, it, h⟩ := c70_cuts _ _ _ s hs hc t ws hb id text hu
  exact ⟨fuel, it, by rw [h, slices_id _ 0]; rfl⟩

/-- C70: what the tokenizer of `with.rs` returns for every text whose characters are numbered: the same tokens with their places;
`a[0]` never panics. -/
theorem c70_with (s : Seeds) (hs : s.Fair) (hc : Calm s parse0 withIndex) (t : Tokenizer (Nat × Nat) TokenAt) (ws : List (Nat × Nat))
    (hb : BuildsTo s parse0 withIndex (.ok (t, ws))) (text : List Nat) (hu : ∀ c ∈ text, c < 0x110000) :
    (∃ fuel it, t.collect Prod.fst fuel (It.start text.zipIdx) = some ((lex text).map TokenAt.of, it)) ∧ .panic ∉ (lex text).map TokenAt.of := by
  constructor
  · obtain ⟨fuel, it, h⟩ := c70_cuts _ _ _ s hs hc t ws hb Prod.fst text.zipIdx (by
      intro x hx
      exact hu _ (List.fst_mem_of_mem_zipIdx hx))
    exact ⟨fuel, it, by rw [h, slices_zipIdx]; simp [lex]⟩
  · intro h
    obtain ⟨x, _, hx⟩ := List.mem_map.1 h
    unfold TokenAt.of at hx
    split at hx <;> cases hx

theorem lexFrom_parts (n : Nat) : ∀ (i : Nat) (l pre : List Nat), l.length ≤ n → pre.length = i →
    ((lexFrom n i l).map fun x => x.2.2).flatten = l ∧ ∀ x ∈ lexFrom n i l, x.2.2 ≠ [] ∧ (((pre ++ l).drop x.2.1).take x.2.2.length = x.2.2) := by
  induction n with
  | zero =>
    intro i l pre h _
    obtain rfl := List.length_eq_zero_iff.1 (Nat.le_zero.1 h)
    exact ⟨rfl, by simp [lexFrom]⟩
  | succ n ih =>
    intro i l pre h hp
    cases l with
    | nil => exact ⟨rfl, by simp [lexFrom]⟩
    | cons c r =>
      obtain ⟨m, hm⟩ := first_pos c r
      simp only [lexFrom]
      have hle : ∃ w, (c :: r).take (first c r).2 = c :: w := ⟨_, by rw [hm]; rfl⟩
      by_cases hlen : (first c r).2 ≤ (c :: r).length
      · obtain ⟨h1, h2⟩ := ih (i + (first c r).2) ((c :: r).drop (first c r).2) (pre ++ (c :: r).take (first c r).2)
          (by rw [List.length_drop, hm]; simp only [List.length_cons] at h ⊢; omega) (by rw [List.length_append, hp, List.length_take]; omega)
        constructor
        · simp only [List.map_cons, List.flatten_cons, h1, List.take_append_drop]
        · intro x hx
          rcases List.mem_cons.1 hx with rfl | hx
          · obtain ⟨w, hw⟩ := hle
            refine ⟨by rw [hw]; simp, ?_⟩
            show ((pre ++ c :: r).drop i).take ((c :: r).take (first c r).2).length = (c :: r).take (first c r).2
            rw [List.drop_left' hp, List.length_take, Nat.min_eq_left hlen]
          · obtain ⟨h3, h4⟩ := h2 x hx
            refine ⟨h3, ?_⟩
            rw [List.append_assoc, List.take_append_drop] at h4
            exact h4
      · exfalso
        apply hlen
        have hw := takeWhile_le (p := word) (r := r)
        have hd := takeWhile_le (p := digit) (r := r)
        have hz := afterZero_le r
        unfold first
        simp only [List.length_cons]
        split
        · simp; omega
        · split
          · simp; omega
          · split
            · simp; omega
            · simp

/-- C70: nothing is lost, and the places are right. -/
theorem c70_parts (text : List Nat) : ((lex text).map fun x => x.2.2).flatten = text ∧
    ∀ x ∈ lex text, x.2.2 ≠ [] ∧ (text.drop x.2.1).take x.2.2.length = x.2.2 := by
  simpa [lex] using lexFrom_parts text.length 0 text [] (Nat.le_refl _) rfl

example : seeds0.Fair ∧ Calm seeds0 parse0 normal ∧ Calm seeds0 parse0 withIndex :=
  ⟨seeds0_fair, calm_of_noCollision seeds0_noCollision _ _, calm_of_noCollision seeds0_noCollision _ _⟩

/-- `a0x` and `0xg` -/
example : (lex [97, 48, 120]).map Token.of = [.a [97, 48, 120]] := by decide
example : (lex [48, 120, 103]).map TokenAt.of = [.b [48] 0 1, .a [120, 103] 1 2] := by decide
example : (builderBuild 60 seeds0 parse0 normal).map (fun r => match r with
    | .ok (t, _) => (t.collect id 8 (It.start [48, 120, 103, 32, 48, 98, 49])).map Prod.fst
    | _ => none) = some (some [.b [48], .a [120, 103], .c [32], .b [48, 98, 49]]) := by decide +kernel

/-- The tokens of a text with given seeds, for examples. -/
def tokens0 (s : Seeds) (text : List Nat) : Option (List Token) :=
  match builderBuild 60 s parse0 normal with
  | some (.ok (t, _)) => (t.collect id 8 (It.start text)).map Prod.fst
  | _ => none

/-- C70: it does matter that no hash collision disturbs the build: after `0b`, `0o` and `0d` the digits begin at `0` but end at `1`, `7`
and `9`, so these states can be mistaken for each other.  Then `0o7` is not a number, or `0b7` is one, depending on the order of a
hash set. -/
theorem c70_collision :
    tokens0 seeds0 [48, 111, 55] = some [.b [48, 111, 55]] ∧ tokens0 seeds1 [48, 111, 55] = some [.b [48], .a [111, 55]] ∧
    tokens0 seeds0 [48, 98, 55] = some [.b [48], .a [98, 55]] ∧ tokens0 seeds2 [48, 98, 55] = some [.b [48, 98, 55]] ∧
    seeds0.Fair ∧ seeds1.Fair ∧ seeds2.Fair := by
  refine ⟨by decide +kernel, by decide +kernel, by decide +kernel, by decide +kernel, seeds0_fair, seeds1_fair, seeds2_fair⟩

end Verif.Tok.Words
