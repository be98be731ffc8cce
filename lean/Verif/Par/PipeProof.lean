import Verif.Par.Pipe
import Verif.Par.SourceProof
import Verif.Props.TokCode

/-! # Helper lemmas: what the sources of `Pipe` give -/

namespace Verif.Par

variable {α E T σ π : Type}

theorem Gives.nil {nxt : Source σ T} {s : σ} : Gives nxt s [] ↔ (nxt s).1 = none := by
  constructor
  · intro h
    have := h 0 (Nat.le_refl _)
    exact this
  · intro h k hk
    have : k = 0 := by simpa using hk
    subst this
    exact h

theorem Gives.cons {nxt : Source σ T} {s : σ} {t : T} {l : List T} :
    Gives nxt s (t :: l) ↔ (nxt s).1 = some t ∧ Gives nxt (nxt s).2 l := by
  constructor
  · intro h
    refine ⟨h 0 (by simp), fun k hk => ?_⟩
    have : answer nxt k (nxt s).2 = (t :: l)[k + 1]? := h (k + 1) (by simpa using hk)
    simpa using this
  · rintro ⟨h1, h2⟩ k hk
    cases k with
    | zero => exact h1
    | succ k =>
      have : answer nxt (k + 1) s = l[k]? := h2 k (by simpa using hk)
      rw [this]
      simp

theorem flat_gives {nxt : Source σ (Option T)} {f : Source σ T} (hf : Flattens nxt f) (l : List (Option T)) : ∀ s, Gives nxt s l →
    ∃ a s', FlatNext nxt s a s' ∧ Gives f s (l.filterMap id) := by
  induction l with
  | nil =>
    intro s h
    have h := Gives.nil.1 h
    have hs : FlatNext nxt s none (nxt s).2 := .stop _ _ (Prod.ext h rfl)
    refine ⟨_, _, hs, Gives.nil.2 ?_⟩
    rw [hf _ _ _ hs]
  | cons x l ih =>
    intro s h
    obtain ⟨h1, h2⟩ := Gives.cons.1 h
    obtain ⟨a, s', h3, h4⟩ := ih _ h2
    cases x with
    | none =>
      have hs : FlatNext nxt s a s' := .skip _ _ _ _ (Prod.ext h1 rfl) h3
      refine ⟨a, s', hs, ?_⟩
      rw [List.filterMap_cons_none rfl]
      have e : f s = f (nxt s).2 := by rw [hf _ _ _ hs, hf _ _ _ h3]
      cases hl : l.filterMap id with
      | nil =>
        rw [hl] at h4
        rw [Gives.nil] at h4 ⊢
        rw [e]; exact h4
      | cons t l' =>
        rw [hl] at h4
        rw [Gives.cons] at h4 ⊢
        rw [e]; exact h4
    | some t =>
      have hs : FlatNext nxt s (some t) (nxt s).2 := .item _ _ _ (Prod.ext h1 rfl)
      refine ⟨_, _, hs, ?_⟩
      have e : List.filterMap id (some t :: l) = t :: l.filterMap id := by simp
      rw [e, Gives.cons, hf _ _ _ hs]
      exact ⟨rfl, h4⟩

theorem tokSource_snd (t : Tok.Tokenizer α E) (map : α → Nat) (it : Tok.It α) : (tokSource t map it).2 = (t.next map it).2 := by
  unfold tokSource
  split
  · rename_i h; rw [h]
  · rename_i h; rw [h]

theorem tokSource_gives {t : Tok.Tokenizer α E} {map : α → Nat} (es : List E) : ∀ (fuel : Nat) (it it' : Tok.It α),
    t.collect map fuel it = some (es, it') → Gives (tokSource t map) it es := by
  induction es with
  | nil =>
    intro fuel it it' h
    rw [Gives.nil]
    cases fuel with
    | zero => cases h
    | succ fuel =>
      rw [Tok.Tokenizer.collect] at h
      unfold tokSource
      split at h
      · rename_i e it1 heq
        cases hc : t.collect map fuel it1 <;> rw [hc] at h <;> cases h
      · rename_i o it1 hne heq
        split
        · rename_i e it2 heq2
          rw [heq] at heq2
          cases heq2
          exact absurd rfl (hne e)
        · rfl
  | cons e es ih =>
    intro fuel it it' h
    rw [Gives.cons]
    cases fuel with
    | zero => cases h
    | succ fuel =>
      rw [Tok.Tokenizer.collect] at h
      split at h
      · rename_i e1 it1 heq
        cases hc : t.collect map fuel it1 with
        | none => rw [hc] at h; cases h
        | some x =>
          rw [hc] at h
          simp only [Option.map_some, Option.some.injEq, Prod.mk.injEq, List.cons.injEq] at h
          obtain ⟨⟨rfl, rfl⟩, rfl⟩ := h
          have e1 : tokSource t map it = (some e1, it1) := by unfold tokSource; rw [heq]
          rw [e1]
          exact ⟨rfl, ih fuel it1 x.2 hc⟩
      · cases h

theorem calls_after (t : Tok.Tokenizer α E) (map : α → Nat) (n : Nat) : ∀ it, (t.calls map n it).2 = after (tokSource t map) n it := by
  induction n with
  | zero => intro it; rfl
  | succ n ih =>
    intro it
    show (t.calls map n (t.next map it).2).2 = after (tokSource t map) n (tokSource t map it).2
    rw [ih, tokSource_snd]

theorem tokens_split {M : Nat → List Nat → Prop} {ps : List (π × (List Nat → List α → E))} {map : α → Nat} {l rest : List α} {es : List E}
    (h : Tok.Tokens M ps map l es rest) (k : Nat) : ∃ mid, Tok.Tokens M ps map l (es.take k) mid := by
  induction h generalizing k with
  | nil l => exact ⟨l, by rw [List.take_nil]; exact .nil l⟩
  | cons l n j p es rest h1 h2 h3 ih =>
    cases k with
    | zero => exact ⟨l, .nil l⟩
    | succ k =>
      obtain ⟨mid, h⟩ := ih k
      exact ⟨mid, .cons _ n j p _ _ h1 h2 h⟩

end Verif.Par
