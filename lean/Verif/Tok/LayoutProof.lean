import Verif.Tok.Layout
import Verif.Props.TokCode

/-!
# Texts that differ only in white space: lemmas
-/

namespace Verif.Tok

variable {α E π : Type} {B : Nat → Bool} {map : α → Nat}

theorem chunks_blank {x : α} {l : List α} (h : B (map x) = true) : chunks B map (x :: l) = chunks B map l := by
  cases l with
  | nil => simp [chunks, h]
  | cons y l => rw [chunks]; simp [h]

theorem chunks_blanks {b l : List α} (h : ∀ x ∈ b, B (map x) = true) : chunks B map (b ++ l) = chunks B map l := by
  induction b with
  | nil => rfl
  | cons x b ih =>
    rw [List.cons_append, chunks_blank (h x (by simp)), ih fun y hy => h y (by simp [hy])]

/-- `v` is empty or begins with a blank. -/
def AtBlank (B : Nat → Bool) (map : α → Nat) (v : List α) : Prop := ∀ x l, v = x :: l → B (map x) = true

theorem chunks_solid {c v : List α} (hv : AtBlank B map v) (hne : c ≠ []) (h : ∀ x ∈ c, B (map x) = false) :
    chunks B map (c ++ v) = c :: chunks B map v := by
  induction c with
  | nil => exact absurd rfl hne
  | cons x c ih =>
    have hx := h x (by simp)
    cases c with
    | nil =>
      cases v with
      | nil => simp [chunks, hx]
      | cons y v =>
        have hy := hv y v rfl
        show chunks B map (x :: y :: v) = _
        rw [chunks]
        simp [hx, hy]
    | cons y c =>
      have hy := h y (by simp)
      have := ih (by simp) fun z hz => h z (by simp at hz ⊢; exact .inr hz)
      show chunks B map (x :: y :: (c ++ v)) = _
      rw [chunks]
      rw [List.cons_append] at this
      simp [hx, hy, this]

/-- A text that begins with another character than a blank. -/
theorem solid_split (l : List α) : ∃ c v, l = c ++ v ∧ AtBlank B map v ∧ ∀ x ∈ c, B (map x) = false := by
  induction l with
  | nil => exact ⟨[], [], rfl, (fun _ _ h => by cases h), by simp⟩
  | cons x l ih =>
    cases hx : B (map x) with
    | true => exact ⟨[], x :: l, rfl, (fun y l' h => by cases h; exact hx), by simp⟩
    | false =>
      obtain ⟨c, v, rfl, h1, h2⟩ := ih
      refine ⟨x :: c, v, rfl, h1, ?_⟩
      intro y hy
      rcases List.mem_cons.1 hy with rfl | hy
      · exact hx
      · exact h2 y hy

/-- What the chunks of a text give: the tokens of one after the other, up to a place where no token can be taken. -/
inductive ChunksGive (L : Nat → List Nat → Prop) (ps : List (π × (List Nat → List α → Option E))) (map : α → Nat) : List (List α) → List E → Prop
  | nil : ChunksGive L ps map [] []
  | full (c cs es ts) : Tokens L ps map c es [] → ChunksGive L ps map cs ts → ChunksGive L ps map (c :: cs) (es.filterMap id ++ ts)
  | stop (c cs es rest) : Tokens L ps map c es rest → rest ≠ [] → NoToken L map rest → ChunksGive L ps map (c :: cs) (es.filterMap id)

variable {L : Nat → List Nat → Prop}

theorem NoToken.not_next {l : List α} {n k : Nat} (h : NoToken L map l) : ¬ NextToken L map l n k := fun h' => h n k h'.2.1

theorem no_token_nil (h0 : ∀ k, ¬ L k []) : NoToken L map ([] : List α) := by
  intro n j
  rw [List.take_nil, List.map_nil]
  exact h0 j

/-- The tokens up to a place where none can be taken are determined. -/
theorem Tokens.greedy {ps : List (π × (List Nat → List α → E))} {l : List α} {es es' : List E} {rest rest' : List α} (h : Tokens L ps map l es rest) :
    NoToken L map rest → Tokens L ps map l es' rest' → NoToken L map rest' → es = es' ∧ rest = rest' := by
  induction h generalizing es' with
  | nil l =>
    intro h1 h2 h3
    cases h2 with
    | nil => exact ⟨rfl, rfl⟩
    | cons _ n k p es _ g1 => exact absurd g1 h1.not_next
  | cons l n k p es rest h1 h2 _ ih =>
    intro g1 g2 g3
    cases g2 with
    | nil => exact absurd h1 g3.not_next
    | cons _ n' k' p' es' _ k1 k2 k3 =>
      obtain ⟨rfl, rfl⟩ := h1.unique k1
      rw [h2] at k2
      cases k2
      obtain ⟨rfl, rfl⟩ := ih g1 k3 g3
      exact ⟨rfl, rfl⟩

theorem ChunksGive.det {ps : List (π × (List Nat → List α → Option E))} (h0 : ∀ k, ¬ L k []) {cs : List (List α)} {ts ts' : List E}
    (h : ChunksGive L ps map cs ts) (h' : ChunksGive L ps map cs ts') : ts = ts' := by
  induction h generalizing ts' with
  | nil => cases h'; rfl
  | full c cs es ts h1 _ ih =>
    cases h' with
    | full _ _ es' ts' g1 g2 =>
      obtain ⟨rfl, _⟩ := h1.greedy (no_token_nil h0) g1 (no_token_nil h0)
      rw [ih g2]
    | stop _ _ es' rest g1 g2 g3 =>
      obtain ⟨_, h⟩ := h1.greedy (no_token_nil h0) g1 g3
      exact absurd h.symm g2
  | stop c cs es rest h1 h2 h3 =>
    cases h' with
    | full _ _ es' ts' g1 g2 =>
      obtain ⟨_, h⟩ := h1.greedy h3 g1 (no_token_nil h0)
      exact absurd h h2
    | stop _ _ es' rest g1 g2 g3 =>
      obtain ⟨rfl, _⟩ := h1.greedy h3 g1 g3
      rfl

theorem chunks_give {ps : List (π × (List Nat → List α → Option E))} (hB : BlanksApart L ps map B) {l : List α} {es : List (Option E)} {rest : List α}
    (h : Tokens L ps map l es rest) : NoToken L map rest → ChunksGive L ps map (chunks B map l) (es.filterMap id) := by
  induction h with
  | nil l =>
    intro h
    cases l with
    | nil => exact .nil
    | cons x l =>
      cases hx : B (map x) with
      | true =>
        obtain ⟨k, hk⟩ := hB.words x hx
        exact absurd hk (by simpa using h 1 k)
      | false =>
        obtain ⟨c, v, e, h1, h2⟩ := solid_split (B := B) (map := map) l
        subst e
        rw [← List.cons_append, chunks_solid h1 (by simp) (fun y hy => by
          rcases List.mem_cons.1 hy with rfl | hy
          · exact hx
          · exact h2 y hy)]
        refine .stop _ _ [] (x :: c) (.nil _) (by simp) ?_
        intro n j
        have := h (min n (x :: c).length) j
        rw [← List.cons_append, List.take_append_of_le_length (Nat.min_le_right _ _), ← List.take_take, List.take_length] at this
        exact this
  | cons l n k p es rest h1 h2 h3 ih =>
    intro h
    have ih := ih h
    have hn : 0 < n := by
      apply Nat.pos_of_ne_zero
      rintro rfl
      exact hB.nonempty k (by simpa using h1.2.1)
    have hmix := hB.unmixed k _ h1.2.1
    cases l with
    | nil => have := h1.1; simp at this; omega
    | cons x l =>
      have hmem : x ∈ (x :: l).take n := by
        obtain ⟨m, rfl⟩ : ∃ m, n = m + 1 := ⟨n - 1, by omega⟩
        simp
      cases hx : B (map x) with
      | true =>
        have hall : ∀ y ∈ (x :: l).take n, B (map y) = true := by
          rcases hmix with hm | hm
          · exact fun y hy => hm _ (List.mem_map_of_mem hy)
          · have := hm _ (List.mem_map_of_mem hmem)
            rw [hx] at this
            cases this
        rw [hB.dropped k p _ h2 h1.2.1 hall]
        have e : chunks B map (x :: l) = chunks B map ((x :: l).drop n) := by
          conv => lhs; rw [← List.take_append_drop n (x :: l)]
          exact chunks_blanks hall
        rw [e]
        simpa using ih
      | false =>
        have hall : ∀ y ∈ (x :: l).take n, B (map y) = false := by
          rcases hmix with hm | hm
          · have := hm _ (List.mem_map_of_mem hmem)
            rw [hx] at this
            cases this
          · exact fun y hy => hm _ (List.mem_map_of_mem hy)
        obtain ⟨c, v, e, g1, g2⟩ := solid_split (B := B) (map := map) (x :: l)
        have hcn : n ≤ c.length := by
          by_cases hle : n ≤ c.length
          · exact hle
          · exfalso
            have hlen := h1.1
            rw [e] at hlen
            rw [List.length_append] at hlen
            cases v with
            | nil => simp at hlen; omega
            | cons y v =>
              have hy := g1 y v rfl
              have : y ∈ (x :: l).take n := by
                rw [e, List.take_append, List.take_of_length_le (by omega)]
                obtain ⟨m, hm⟩ : ∃ m, n - c.length = m + 1 := ⟨n - c.length - 1, by omega⟩
                rw [hm]
                simp
              rw [hall y this] at hy
              cases hy
        have hne : c ≠ [] := by
          rintro rfl
          simp at hcn
          omega
        rw [e] at h1 ih ⊢
        rw [chunks_solid g1 hne g2]
        have k1 := h1.cut hcn
        rw [List.take_append_of_le_length hcn]
        rw [List.drop_append_of_le_length hcn] at ih
        by_cases hd : c.drop n = []
        · rw [hd, List.nil_append] at ih
          have := ChunksGive.full c (chunks B map v) [p.2 ((c.take n).map map) (c.take n)] _ (.cons c n k p [] [] k1 h2 (by rw [hd]; exact .nil _)) ih
          rw [← List.filterMap_append] at this
          exact this
        · rw [chunks_solid g1 hd (fun y hy => g2 y (List.mem_of_mem_drop hy))] at ih
          generalize hts : es.filterMap id = ts at ih
          cases ih with
          | full _ _ es' ts' a1 a2 =>
            have := ChunksGive.full c (chunks B map v) _ _ (.cons c n k p es' [] k1 h2 a1) a2
            rw [show (p.2 ((c.take n).map map) (c.take n) :: es).filterMap id = [p.2 ((c.take n).map map) (c.take n)].filterMap id ++ es.filterMap id by
              rw [← List.filterMap_append]; rfl, hts, ← List.append_assoc, ← List.filterMap_append]
            exact this
          | stop _ _ es' rest' a1 a2 a3 =>
            have := ChunksGive.stop c (chunks B map v) _ _ (.cons c n k p es' rest' k1 h2 a1) a2 a3
            rw [show (p.2 ((c.take n).map map) (c.take n) :: es).filterMap id = [p.2 ((c.take n).map map) (c.take n)].filterMap id ++ es.filterMap id by
              rw [← List.filterMap_append]; rfl, hts, ← List.filterMap_append]
            exact this

/-- Words one behind the other are taken one by one. -/
theorem Spelled.tokens {ps : List (π × (List Nat → List α → E))} {l : List (List α)} {es : List E} (h : Spelled L ps map l es) :
    Tokens L ps map l.flatten es [] := by
  induction h with
  | nil => exact .nil _
  | cons w k p l es h1 h2 h3 h4 h5 _ ih =>
    rw [List.flatten_cons]
    have e1 : (w ++ l.flatten).take w.length = w := by simp
    have := Tokens.cons (w ++ l.flatten) w.length k p es [] ⟨by simp, by rw [e1]; exact h2, by rw [e1]; exact h3, ?_⟩ h4 (by simpa using ih)
    · rw [e1] at this
      exact this
    · intro m hm hle j hj
      rw [List.length_append] at hle
      cases hf : l.flatten with
      | nil => rw [hf] at hle; simp at hle; omega
      | cons x v =>
        rw [hf, List.take_append, List.take_of_length_le (by omega)] at hj
        obtain ⟨i, hi⟩ : ∃ i, m - w.length = i + 1 := ⟨m - w.length - 1, by omega⟩
        rw [hi, List.take_succ_cons, List.map_append, List.map_cons] at hj
        exact h5 x v hf ⟨_, _, hj⟩

/-- A word alone is one token. -/
theorem word_tokens {ps : List (π × (List Nat → List α → E))} {w : List α} {k : Nat} {p : π × (List Nat → List α → E)} (h1 : L k (w.map map))
    (h2 : ∀ j < k, ¬ L j (w.map map)) (h3 : ps[k]? = some p) : Tokens L ps map w [p.2 (w.map map) w] [] := by
  have e : w.take w.length = w := List.take_length
  have := Tokens.cons (M := L) (map := map) w w.length k p [] [] ⟨Nat.le_refl _, by rw [e]; exact h1, by rw [e]; exact h2, by omega⟩ h3 (by rw [List.drop_length]; exact .nil _)
  rwa [e] at this

theorem Worded.give {ps : List (π × (List Nat → List α → Option E))} {cs : List (List α)} {es : List (Option E)} (h : Worded L ps map cs es) :
    ChunksGive L ps map cs (es.filterMap id) := by
  induction h with
  | nil => exact .nil
  | cons w k p l es h1 h2 h3 _ ih =>
    have := ChunksGive.full w l _ _ (word_tokens h1 h2 h3) ih
    rwa [← List.filterMap_append] at this

/-- Every text has tokens up to a place where none can be taken. -/
theorem tokens_exist {ρ : Type} {parse : π → Except ρ Hir} {s : Seeds} {ps : List (π × (List Nat → List α → E))} {t : Tokenizer α E} {ws : List (Nat × Nat)}
    (hparse : ParserOk parse) (hs : s.Fair) (hc : Calm s parse ps) (hb : BuildsTo s parse ps (.ok (t, ws))) (h0 : ∀ k, ¬ PatCode parse ps k []) (l : List α) :
    ∃ es rest, Tokens (PatCode parse ps) ps map l es rest ∧ NoToken (PatCode parse ps) map rest := by
  have hstep := next_lang hparse hs hc (fun _ _ h1 h5 h2 i w => own_code h1 h5 h2 i w) hb map
  have key : ∀ (n : Nat) (l : List α), l.length ≤ n → ∃ es rest, Tokens (PatCode parse ps) ps map l es rest ∧ NoToken (PatCode parse ps) map rest := by
    intro n
    induction n with
    | zero =>
      intro l hl
      have : l = [] := List.eq_nil_of_length_eq_zero (by omega)
      subst this
      exact ⟨[], [], .nil _, no_token_nil h0⟩
    | succ n ih =>
      intro l hl
      have hrest : (It.start l).rest = l := by simp [It.rest, It.start]
      rcases hstep (It.start l) with ⟨_, h⟩ | ⟨m, k, q, a1, a2, _, _⟩
      · rw [hrest] at h
        exact ⟨[], l, .nil _, h⟩
      · rw [hrest] at a1
        have hm : 0 < m := by
          apply Nat.pos_of_ne_zero
          rintro rfl
          exact h0 k (by simpa using a1.2.1)
        obtain ⟨es, rest, h1, h2⟩ := ih (l.drop m) (by rw [List.length_drop]; omega)
        exact ⟨_, rest, .cons _ m k q es rest a1 a2 h1, h2⟩
  exact key _ l (Nat.le_refl _)

end Verif.Tok
