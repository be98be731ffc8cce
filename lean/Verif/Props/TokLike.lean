import Verif.Props.TokGen
import Verif.Par.Like

/-!
# C96 for the tokenizer: what items carry is only passed on
-/

namespace Verif.Tok

open Verif.Par (Pointwise)

variable {α α' E E' π ρ : Type} {parse : π → Except ρ Hir} {s s' : Seeds}

/-- Two outcomes of `next`. -/
inductive OutLike (RE : E → E' → Prop) : Out E → Out E' → Prop
  | token (e e') : RE e e' → OutLike RE (.token e) (.token e')
  | none : OutLike RE .none .none
  | panic : OutLike RE .panic .panic

section
variable {RI : α → α' → Prop} {l : List α} {l' : List α'}

theorem pointwise_append {r : List α} {r' : List α'} (h : Pointwise RI l l') (h' : Pointwise RI r r') : Pointwise RI (l ++ r) (l' ++ r') := by
  refine ⟨by simp [h.1, h'.1], ?_⟩
  intro i x x' h1 h2
  by_cases hi : i < l.length
  · rw [List.getElem?_append_left hi] at h1
    rw [List.getElem?_append_left (h.1 ▸ hi)] at h2
    exact h.2 i x x' h1 h2
  · rw [List.getElem?_append_right (by omega)] at h1
    rw [List.getElem?_append_right (by have := h.1; omega), ← h.1] at h2
    exact h'.2 _ x x' h1 h2

theorem pointwise_drop (h : Pointwise RI l l') (n : Nat) : Pointwise RI (l.drop n) (l'.drop n) :=
  ⟨by simp [h.1], fun i x x' h1 h2 => h.2 (n + i) x x' (by simpa using h1) (by simpa using h2)⟩

theorem pointwise_take (h : Pointwise RI l l') (n : Nat) : Pointwise RI (l.take n) (l'.take n) := by
  refine ⟨by simp [h.1], ?_⟩
  intro i x x' h1 h2
  have hi : i < n := by have := (List.getElem?_eq_some_iff.1 h1).1; simp at this; omega
  rw [List.getElem?_take_of_lt hi] at h1 h2
  exact h.2 i x x' h1 h2

/-- Lists that correspond have corresponding beginnings of the same length. -/
theorem pointwise_left {r : List α} {r' : List α'} (h : Pointwise RI (l ++ r) (l' ++ r')) (h' : Pointwise RI r r') : Pointwise RI l l' := by
  have hl : l.length = l'.length := by have h1 := h.1; have h2 := h'.1; simp at h1; omega
  have := pointwise_take h l.length
  rw [List.take_left' rfl, List.take_left' hl.symm] at this
  exact this

theorem pointwise_chars {map : α → Nat} {map' : α' → Nat} (hi : ∀ x x', RI x x' → map' x' = map x) (h : Pointwise RI l l') : l'.map map' = l.map map := by
  apply List.ext_getElem
  · simp [h.1]
  · intro i h1 h2
    simp only [List.length_map] at h1 h2
    simp only [List.getElem_map]
    exact hi _ _ (h.2 i _ _ (List.getElem?_eq_getElem h2) (List.getElem?_eq_getElem h1))

theorem next_like {t : Tokenizer α E} {t' : Tokenizer α' E'} {map : α → Nat} {map' : α' → Nat} {RE : E → E' → Prop} (hd : t.dfa.WF t.maker.length)
    (hd' : t'.dfa.WF t'.maker.length) (ho : ∀ w, t.dfa.obs w = t'.dfa.obs w) (hi : ∀ x x', RI x x' → map' x' = map x)
    (hm : ∀ (k : Nat) f f', t.maker[k]? = some f → t'.maker[k]? = some f' → ∀ l l', Pointwise RI l l' → RE (f (l.map map) l) (f' (l.map map) l'))
    (it : It α) (it' : It α') (hq : Pointwise RI it.queue it'.queue) (hs : Pointwise RI it.src it'.src) :
    OutLike RE (t.next map it).1 (t'.next map' it').1 ∧ Pointwise RI (t.next map it).2.queue (t'.next map' it').2.queue ∧
      Pointwise RI (t.next map it).2.src (t'.next map' it').2.src := by
  obtain ⟨r, h1, h2, h3⟩ := next_spec (map := map) hd it
  obtain ⟨r', h1', h2', h3'⟩ := next_spec (map := map') hd' it'
  have hqs := pointwise_append hq hs
  have hch := pointwise_chars hi hqs
  rw [hch] at h1' h3'
  obtain rfl := ReadLen.unique ho h1 h1'
  have hacc : ∀ k w, t.dfa.Acc k w ↔ t'.dfa.Acc k w := by intro k w; unfold DFA.Acc; rw [ho]
  have hsrc : Pointwise RI (t.next map it).2.src (t'.next map' it').2.src := by
    rw [h2, h2', ← hq.1]
    exact pointwise_drop hs _
  rcases h3 with ⟨a1, a2, a3⟩ | ⟨n, k, f, a1, a2, a3, a4, a5, a6⟩
  · rcases h3' with ⟨b1, b2, b3⟩ | ⟨n', k', f', b1, b2, b3, b4, b5, b6⟩
    · refine ⟨?_, ?_, hsrc⟩
      · rw [a1, b1]; exact .none
      · rw [a2, b2]; exact pointwise_drop hq _
    · exact absurd ((hacc _ _).2 b3) (a3 n' k')
  · rcases h3' with ⟨b1, b2, b3⟩ | ⟨n', k', f', b1, b2, b3, b4, b5, b6⟩
    · exact absurd ((hacc _ _).1 a3) (b3 n k)
    · have hl := h1.1
      have hl' := hqs.1
      rw [List.length_map] at hl
      have hn : n = n' := by
        rcases Nat.lt_trichotomy n n' with h | h | h
        · exact absurd ((hacc _ _).2 b3) (a4 n' h (by omega) k')
        · exact h
        · exact absurd ((hacc _ _).1 a3) (b4 n h (by omega) k)
      subst hn
      have hk : k = k' := by
        have := (hacc _ _).1 a3
        unfold DFA.Acc at this b3
        rw [b3] at this
        cases this
        rfl
      subst hk
      refine ⟨?_, ?_, hsrc⟩
      · rw [a5, b5, ← List.map_take]
        exact .token _ _ (hm k f f' a2 b2 _ _ (pointwise_take hqs n))
      · refine pointwise_left ?_ hsrc
        rw [a6, b6]
        exact pointwise_drop hqs n

theorem calls_like {t : Tokenizer α E} {t' : Tokenizer α' E'} {map : α → Nat} {map' : α' → Nat} {RE : E → E' → Prop}
    (h : ∀ (it : It α) (it' : It α'), Pointwise RI it.queue it'.queue → Pointwise RI it.src it'.src →
      OutLike RE (t.next map it).1 (t'.next map' it').1 ∧ Pointwise RI (t.next map it).2.queue (t'.next map' it').2.queue ∧
        Pointwise RI (t.next map it).2.src (t'.next map' it').2.src) (n : Nat) (it : It α) (it' : It α') (hq : Pointwise RI it.queue it'.queue)
    (hs : Pointwise RI it.src it'.src) :
    Pointwise (OutLike RE) (t.calls map n it).1 (t'.calls map' n it').1 ∧ Pointwise RI (t.calls map n it).2.queue (t'.calls map' n it').2.queue ∧
      Pointwise RI (t.calls map n it).2.src (t'.calls map' n it').2.src := by
  induction n generalizing it it' with
  | zero => exact ⟨⟨rfl, fun i x x' h1 _ => by simp [Tokenizer.calls] at h1⟩, hq, hs⟩
  | succ n ih =>
    obtain ⟨g1, g2, g3⟩ := h it it' hq hs
    obtain ⟨k1, k2, k3⟩ := ih _ _ g2 g3
    refine ⟨⟨?_, ?_⟩, k2, k3⟩
    · have := k1.1
      simpa [Tokenizer.calls] using this
    · intro i x x' h1 h2
      cases i with
      | zero =>
        simp only [Tokenizer.calls, List.getElem?_cons_zero, Option.some.injEq] at h1 h2
        subst h1 h2
        exact g1
      | succ i =>
        simp only [Tokenizer.calls, List.getElem?_cons_succ] at h1 h2
        exact k1.2 i x x' h1 h2

end

variable {t : Tokenizer α E} {t' : Tokenizer α' E'} {ps : List (π × (List Nat → List α → E))} {ps' : List (π × (List Nat → List α' → E'))}
  {ws ws' : List (Nat × Nat)}

/-- C96: two tokenizers with the same patterns, on items of different types that correspond and stand for the same characters: if the callbacks give corresponding
results for corresponding items, all calls of `next` do, and corresponding items are left over. -/
theorem c96_items (hparse : ParserOk parse) (hs : s.Fair) (hs' : s'.Fair) (hp : ps'.map Prod.fst = ps.map Prod.fst) (hc : Calm s parse ps) (hc' : Calm s' parse ps')
    (hb : BuildsTo s parse ps (.ok (t, ws))) (hb' : BuildsTo s' parse ps' (.ok (t', ws'))) (RI : α → α' → Prop) (RE : E → E' → Prop) (map : α → Nat) (map' : α' → Nat)
    (hi : ∀ x x', RI x x' → map' x' = map x)
    (hm : ∀ (k : Nat) p p', ps[k]? = some p → ps'[k]? = some p' → ∀ l l', Pointwise RI l l' → RE (p.2 (l.map map) l) (p'.2 (l.map map) l'))
    (input : List α) (input' : List α') (hin : Pointwise RI input input') (n : Nat) :
    Pointwise (OutLike RE) (t.calls map n (It.start input)).1 (t'.calls map' n (It.start input')).1 ∧
    Pointwise RI (t.calls map n (It.start input)).2.rest (t'.calls map' n (It.start input')).2.rest := by
  obtain ⟨hirs, h1, h2, h3, h4⟩ := builds_spec hparse hs.calm ((hc _).1 hb)
  obtain ⟨hirs', h1', h2', h3', h4'⟩ := builds_spec hparse hs'.calm ((hc' _).1 hb')
  rw [hp, h1] at h1'
  cases h1'
  have ho := built_obs h4 h4' s.calm_noCollision s'.calm_noCollision
  obtain ⟨g1, g2, g3⟩ := calls_like (RI := RI) (RE := RE) (t := t) (t' := t') (map := map) (map' := map') (fun it it' hq hs => next_like
    (by rw [h4.maker]; simpa [h3] using h4.wf) (by rw [h4'.maker]; simpa [h3'] using h4'.wf) ho hi (by
      intro k f f' k1 k2
      rw [h4.maker, List.getElem?_map, Option.map_eq_some_iff] at k1
      rw [h4'.maker, List.getElem?_map, Option.map_eq_some_iff] at k2
      obtain ⟨p, k1, rfl⟩ := k1
      obtain ⟨p', k2, rfl⟩ := k2
      exact hm k p p' k1 k2) it it' hq hs) n (It.start input) (It.start input') ⟨rfl, fun i x x' h _ => by simp [It.start] at h⟩ hin
  exact ⟨g1, pointwise_append g2 g3⟩

/-! ## Example -/

/-- `a+` and `b`: how many, and which pattern. -/
def countPats : List (Hir × (List Nat → List Nat → Nat × Nat)) := [(.rep .oneOrMore ra, fun _ w => (0, w.length)), (rb, fun _ w => (1, w.length))]

/-- The same for characters with their places; the tokens know where they begin. -/
def countAtPats : List (Hir × (List Nat → List (Nat × Nat) → (Nat × Nat) × Option Nat)) :=
  [(.rep .oneOrMore ra, fun _ w => ((0, w.length), w.head?.map Prod.snd)), (rb, fun _ w => ((1, w.length), w.head?.map Prod.snd))]

def countTok : Tokenizer Nat (Nat × Nat) :=
  match builderBuild 50 seeds0 parse0 countPats with
  | some (.ok r) => r.1
  | _ => { dfa := { b := 0, rows := [], ends := [] }, maker := [] }

def countAtTok : Tokenizer (Nat × Nat) ((Nat × Nat) × Option Nat) :=
  match builderBuild 50 seeds0 parse0 countAtPats with
  | some (.ok r) => r.1
  | _ => { dfa := { b := 0, rows := [], ends := [] }, maker := [] }

theorem countTok_builds : BuildsTo seeds0 parse0 countPats (.ok (countTok, [])) := ⟨50, rfl⟩

theorem countAtTok_builds : BuildsTo seeds0 parse0 countAtPats (.ok (countAtTok, [])) := ⟨50, rfl⟩

/-- Places do not change the tokens. -/
example (input : List (Nat × Nat)) (n : Nat) :
    Pointwise (OutLike fun e e' => e'.1 = e) (countTok.calls id n (It.start (input.map Prod.fst))).1 (countAtTok.calls Prod.fst n (It.start input)).1 := by
  refine (c96_items (ps := countPats) (ps' := countAtPats) parse0_ok seeds0_fair seeds0_fair rfl (fun _ => Iff.rfl) (fun _ => Iff.rfl) countTok_builds countAtTok_builds (fun x x' => x'.1 = x)
    (fun e e' => e'.1 = e) id Prod.fst (fun x x' h => h) ?_ (input.map Prod.fst) input ⟨by simp, ?_⟩ n).1
  · intro k p p' h1 h2 l l' h
    match k, h1, h2 with
    | 0, h1, h2 => cases h1; cases h2; simp [h.1]
    | 1, h1, h2 => cases h1; cases h2; simp [h.1]
    | _ + 2, h1, h2 => cases h1
  · intro i x x' h1 h2
    rw [List.getElem?_map, h2] at h1
    cases h1
    rfl

example : (countAtTok.calls Prod.fst 3 (It.start [(97, 0), (97, 1), (98, 2)])).1 = [.token ((0, 2), some 0), .token ((1, 1), some 2), .none] := by decide

end Verif.Tok
