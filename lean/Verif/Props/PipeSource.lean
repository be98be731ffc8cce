import Verif.Props.Pipe
import Verif.Props.TokSource

/-!
# Property C51, continued: parsing the tokens of any iterator
-/

namespace Verif.Par

open Verif.Tok (ItFrom GivesFused)

variable {N T E π ρ α σ : Type} {parse : π → Except ρ Tok.Hir} {ts : Tok.Seeds} {ps : List (π × (List Nat → List α → T))}
  {t : Tok.Tokenizer α T} {tws : List (Nat × Nat)}

/-- `f` behaves like the tokenizer on the source `nxt` wherever that returns. -/
def Tokenizes (t : Tok.Tokenizer α T) (map : α → Nat) (nxt : Source σ α) (f : Source (ItFrom σ α) T) : Prop :=
  (∀ it e it', t.Returns map nxt it (.token e) it' → f it = (some e, it')) ∧ ∀ it it', t.Returns map nxt it .none it' → f it = (none, it')

theorem tokenizes_gives (hparse : Tok.ParserOk parse) (hs : ts.Fair) (hb : Tok.BuildsTo ts parse ps (.ok (t, tws))) (map : α → Nat)
    (nxt : Source σ α) (f : Source (ItFrom σ α) T) (hf : Tokenizes t map nxt f) :
    ∀ (fuel : Nat) (q l : List α) (src : σ) (es : List T) (it : Tok.It α), GivesFused nxt src l →
      t.collect map fuel ⟨q, l⟩ = some (es, it) → Gives f ⟨q, src⟩ es := by
  intro fuel
  induction fuel with
  | zero => intro q l src es it _ h; cases h
  | succ fuel ih =>
    intro q l src es it hg h
    obtain ⟨k, h1, h2⟩ := Tok.c51_list hparse hs hb map nxt q src l (fun j _ => hg j)
    have hg' : GivesFused nxt (after nxt k src) (t.next map ⟨q, l⟩).2.src := by
      intro j
      rw [← answer_add, hg]
      rcases h2 with ⟨h2, h3⟩ | ⟨h2, h3⟩
      · rw [h3, List.getElem?_drop]
      · rw [h3, h2]
        simp only [List.getElem?_nil]
        rw [List.getElem?_eq_none]; omega
    have hp := (Tok.c51_explained hparse hs hb map nxt _ _ _ h1).1
    unfold Tok.Tokenizer.collect at h
    cases hn : t.next map ⟨q, l⟩ with
    | mk o it1 =>
      rw [hn] at h1 hg' h hp
      cases o with
      | token e =>
        simp only [Option.map_eq_some_iff] at h
        obtain ⟨⟨es', it2⟩, h3, h4⟩ := h
        cases h4
        exact Tok.Gives.cons (hf.1 _ _ _ h1) (ih _ _ _ _ _ hg' h3)
      | none =>
        cases h
        exact Tok.Gives.nil (hf.2 _ _ h1)
      | panic => exact absurd rfl hp

/-- C51: parsing the tokens of a source that gives `text` and stays at its end is parsing the tokens in `text`. -/
theorem c51_pipeline (hparse : Tok.ParserOk parse) (hs : ts.Fair) (hc : Tok.Calm ts parse ps) (hb : Tok.BuildsTo ts parse ps (.ok (t, tws)))
    (o : Seeds) (ho : o.Fair) (rules : List (Rule N T E)) (start : Nat) (hok : (gram rules start).Ok)
    (p : Parser N T E) (ws : List Warning) (hm : MakesParser o rules start p ws) (idx : T → Nat) (map : α → Nat)
    (text : List α) (es : List T) (rest : List α) (ht : Tok.Tokens (Tok.PatCode parse ps) ps map text es rest)
    (hr : Tok.NoToken (Tok.PatCode parse ps) map rest) (nxt : Source σ α) (src : σ) (hg : GivesFused nxt src text)
    (f : Source (ItFrom σ α) T) (hf : Tokenizes t map nxt f) :
    (∀ x c it, ParsesFrom idx f p ⟨[], src⟩ x c it → c.pulls ≤ es.length + 1 ∧
      ∃ c0, ParsesTo idx p es x c0 ∧ c0.log = c.log ∧ c0.pulls = c.pulls) ∧
    (∀ x c0, ParsesTo idx p es x c0 → ∃ c it, ParsesFrom idx f p ⟨[], src⟩ x c it) ∧
    (PanicsFrom idx f p ⟨[], src⟩ ↔ ParsePanics idx p es) ∧ (DivergesFrom idx f p ⟨[], src⟩ ↔ ParseDiverges idx p es) := by
  obtain ⟨fuel, it, hcol⟩ := (Tok.c41_stream hparse hs hc hb map text es).2.2 ⟨rest, ht, hr⟩
  have hgives := tokenizes_gives hparse hs hb map nxt f hf fuel [] text src es it hg hcol
  obtain ⟨h1, h2, h3, h4⟩ := c46_source o ho rules start hok p ws hm idx f ⟨[], src⟩ es hgives
  exact ⟨fun x c it h => ⟨(h1 x c it h).1, (h1 x c it h).2.2⟩, h2, h3, h4⟩

/-- The text `aab` character by character, from a source that counts its calls. -/
def counting : Source Nat Nat := fun n => ([97, 97, 98][n]?, n + 1)

/-- A function that answers like the tokenizer of `c47_unreadable_ignored` on it, with enough fuel for every call. -/
def countingTokens : Source (ItFrom Nat Nat) Nat := fun it =>
  match abTok.nextFrom id counting (5 - it.src + 2) it with
  | some (.token e, it) => (some e, it)
  | some (_, it) => (none, it)
  | none => (none, it)

theorem counting_ends (d : Tok.DFA) : ∀ (fuel n : Nat) (sc : Tok.Scan Nat), 4 - n ≤ fuel → 0 < fuel →
    Tok.scanSrcFrom d id counting fuel sc n ≠ .wait := by
  intro fuel
  induction fuel with
  | zero => intro n sc _ h; omega
  | succ fuel ih =>
    intro n sc hf _
    unfold Tok.scanSrcFrom
    rw [counting]
    cases hx : [97, 97, 98][n]? with
    | none => simp
    | some x =>
      have hn : n < 3 := by
        have := List.getElem?_eq_some_iff.1 hx
        obtain ⟨h, _⟩ := this
        simpa using h
      dsimp only
      split
      · simp
      · simp
      · exact ih (n + 1) _ (by omega) (by omega)

theorem counting_ends' (d : Tok.DFA) (fuel n : Nat) (h1 : 4 - n ≤ fuel) (h2 : 0 < fuel) : ∀ (q : List Nat) (sc : Tok.Scan Nat),
    Tok.scanFrom d id counting fuel sc q n ≠ .wait := by
  intro q
  induction q with
  | nil => intro sc; exact counting_ends d fuel n sc h1 h2
  | cons x q ih =>
    intro sc
    unfold Tok.scanFrom
    split
    · simp
    · simp
    · exact ih _

/-- The hypotheses of `c51_pipeline` on the source can be met, and the text is parsed. -/
example : GivesFused counting 0 [97, 97, 98] ∧ Tokenizes abTok id counting countingTokens ∧
    ∃ v c it, ParsesFrom id countingTokens pRight ⟨[], 0⟩ (.ok v) c it := by
  have hans : ∀ k n, answer counting k n = [97, 97, 98][n + k]? := by
    intro k
    induction k with
    | zero => intro n; rfl
    | succ k ih =>
      intro n
      have := ih (n + 1)
      unfold answer at this ⊢
      rw [show n + (k + 1) = n + 1 + k by omega, ← this]
      rfl
  have hfuel : ∀ (it : ItFrom Nat Nat) o it', abTok.Returns id counting it o it' →
      abTok.nextFrom id counting (5 - it.src + 2) it = some (o, it') := by
    intro it o it' h
    cases hn : abTok.nextFrom id counting (5 - it.src + 2) it with
    | none =>
      exfalso
      exact counting_ends' _ _ it.src (by omega) (by omega) _ _ (Tok.nextFrom_wait.1 hn)
    | some r =>
      obtain ⟨h1, h2⟩ := Tok.Returns.det h ⟨_, hn⟩
      rw [h1, h2]
  refine ⟨fun k => by rw [hans]; simp, ⟨?_, ?_⟩, _, _, _, 40, rfl⟩
  · intro it e it' h
    unfold countingTokens
    rw [hfuel _ _ _ h]
  · intro it it' h
    unfold countingTokens
    rw [hfuel _ _ _ h]

end Verif.Par
