import Verif.Tok.LiveProof
import Verif.Props.TokCode

/-!
# Property C45: how much the tokenizer reads
-/

namespace Verif.Tok

variable {π ρ α E : Type} {parse : π → Except ρ Hir} {s : Seeds} {ps : List (π × (List Nat → List α → E))}
  {t : Tokenizer α E} {ws : List (Nat × Nat)}

theorem stuck_iff_viable (hparse : ParserOk parse) (hs : s.Fair) (hc : Calm s parse ps) (hl : PatsLive parse ps) (hne : ps ≠ [])
    (hb : BuildsTo s parse ps (.ok (t, ws))) (w : List Nat) : t.stuck w ↔ ¬ Viable (PatCode parse ps) w := by
  obtain ⟨hirs, h1, h2, h3, h4⟩ := builds_spec hparse hs.calm ((hc _).1 hb)
  obtain ⟨tn, d, h5, h6, h7, h8, h9⟩ := h4.dfa
  obtain ⟨f, hm⟩ := h9 s.calm_noCollision
  have hlive : ∀ h ∈ hirs, h.live = true := by
    intro h hh
    obtain ⟨i, hi⟩ := List.getElem?_of_mem hh
    obtain ⟨g1, g2⟩ := parseAll_ok.1 h1
    have hil : i < (ps.map Prod.fst).length := by rw [← g1]; exact (List.getElem?_eq_some_iff.1 hi).1
    obtain ⟨y, hy1, hy2⟩ := g2 i _ (List.getElem?_eq_getElem hil)
    rw [hi] at hy1; cases hy1
    rw [List.getElem_map] at hy2
    exact hl _ (List.getElem_mem _) h hy2
  have hne' : hirs ≠ [] := by
    intro h
    rw [h] at h3
    exact hne (List.eq_nil_of_length_eq_zero h3.symm)
  rw [stuck_iff, MinOf.obs h6.wf hm]
  have hv := stuck_viable h5 h2 hlive hne' h6 w
  have : Viable (OwnAt hirs) w ↔ Viable (PatCode parse ps) w := by
    unfold Viable
    simp only [own_code h1 h5 h2]
  rw [← this, ← hv]
  simp

/-! ## C45 -/

/-- C45: the tables are stuck on a text exactly if no characters can complete it to a token, for patterns without empty classes. -/
theorem c45_stuck (hparse : ParserOk parse) (hs : s.Fair) (hc : Calm s parse ps) (hl : PatsLive parse ps) (hne : ps ≠ [])
    (hb : BuildsTo s parse ps (.ok (t, ws))) (w : List Nat) :
    (t.stuck w ↔ ¬ Viable (PatCode parse ps) w) ∧
    ((∀ i, PatFaithful parse ps i) → (t.stuck w ↔ ¬ Viable (PatLang parse ps) w)) := by
  have h := stuck_iff_viable hparse hs hc hl hne hb w
  refine ⟨h, fun hf => ?_⟩
  rw [h]
  have : Viable (PatCode parse ps) w ↔ Viable (PatLang parse ps) w := by
    unfold Viable
    constructor
    · rintro ⟨v, k, h1, h2⟩
      exact ⟨v, k, h1, (c41_contains_language hparse hs hb k _).2 (hf k) h2⟩
    · rintro ⟨v, k, h1, h2⟩
      exact ⟨v, k, h1, (c41_contains_language hparse hs hb k _).1 h2⟩
  rw [this]

/-- C45: one call reads an item exactly as long as what it has read can still become a token: every proper prefix of what is read is
viable, and if items are left, what is read is not.  Without a token, exactly what is read is gone. -/
theorem c45_reads (hparse : ParserOk parse) (hs : s.Fair) (hc : Calm s parse ps) (hl : PatsLive parse ps) (hne : ps ≠ [])
    (hb : BuildsTo s parse ps (.ok (t, ws))) (map : α → Nat) (it : It α) :
    ∃ read unread, it.rest = read ++ unread ∧ (t.next map it).2.src = it.src.drop (read.length - it.queue.length) ∧
      (∀ before x after, read = before ++ x :: after → Viable (PatCode parse ps) (before.map map)) ∧
      (unread ≠ [] → ¬ Viable (PatCode parse ps) (read.map map)) ∧
      ((t.next map it).1 = .none → (t.next map it).2.rest = unread) ∧
      (∀ e, (t.next map it).1 = .token e → ∃ more, (t.next map it).2.rest = more ++ unread ∧ (unread ≠ [] → more ≠ [])) := by
  have hst := stuck_iff_viable hparse hs hc hl hne hb
  obtain ⟨r, h1, h2, h3, h4, h5⟩ := next_built map hparse hs hb it
  refine ⟨it.rest.take r, it.rest.drop r, by rw [List.take_append_drop], ?_, ?_, ?_, ?_, ?_⟩
  · rw [List.length_take, Nat.min_eq_left h1, h4]
  · intro before x after e
    have hlen := congrArg List.length e
    rw [List.length_take, Nat.min_eq_left h1] at hlen
    simp only [List.length_append, List.length_cons] at hlen
    have hbf : before = it.rest.take before.length := by
      have : before = (it.rest.take r).take before.length := by rw [e]; simp
      rwa [List.take_take, Nat.min_eq_left (by omega)] at this
    have := h2 before.length (by omega)
    rw [hst, Classical.not_not] at this
    rw [hbf, List.map_take]
    exact this
  · intro hu
    rw [List.map_take, ← hst]
    rcases h3 with h3 | h3
    · rw [h3, List.drop_length] at hu
      exact absurd rfl hu
    · exact h3
  · intro hn
    rcases h5 with ⟨_, h5, _⟩ | ⟨n, k, p, _, _, _, _, _, h5, _⟩
    · exact h5
    · rw [hn] at h5; cases h5
  · intro e he
    rcases h5 with ⟨h5, _⟩ | ⟨n, k, p, g1, g2, g3, g4, g5, g6, g7⟩
    · rw [he] at h5; cases h5
    · refine ⟨(it.rest.take r).drop n, ?_, ?_⟩
      · rw [g7]
        conv => lhs; rw [← List.take_append_drop r it.rest]
        rw [List.drop_append_of_le_length]
        rw [List.length_take, Nat.min_eq_left h1]; exact g2
      · intro hu hm
        have hrn : r ≤ n := by
          have := congrArg List.length hm
          rw [List.length_drop, List.length_take, Nat.min_eq_left h1, List.length_nil] at this
          omega
        obtain rfl : n = r := by omega
        rcases h3 with h3 | h3
        · rw [h3, List.drop_length] at hu; exact hu rfl
        · have := (stuck_iff (t := t) _).1 h3
          unfold Tokenizer.accepts at g4
          rw [this] at g4
          cases g4

/-! ## Examples -/

/-- `ab` and `x`: the patterns are live. -/
theorem live_example : PatsLive parse0 (tagged [.concat [ra, rb], rx]) := by
  intro p hp h hh
  simp [tagged] at hp
  unfold parse0 at hh
  rcases hp with rfl | rfl <;> · split at hh
                                 · cases hh; decide
                                 · cases hh

/-- On `acx`, `next` reads `a` and `c`, no more; on `xx` it reads one item behind the token, though nothing can follow it. -/
example : (tok0 seeds0 [.concat [ra, rb], rx]).map (fun r => (r.1.next id (It.start [97, 99, 120]), r.1.next id (It.start [120, 120, 97]))) =
    some ((.none, ⟨[], [120]⟩), (.token (1, [120]), ⟨[120], [97]⟩)) := by decide

/-- The condition is needed: `a[^\s\S]` can never match, but the tables are not stuck on `a`. -/
theorem c45_empty_class : (tok0 seeds0 [.concat [ra, .classU []]]).map (fun r => (r.1.dfa.run r.1.dfa.b [97]).isSome) = some true ∧
    ∀ w, ¬ Lang (.concat [ra, .classU []]) w := by
  refine ⟨by decide, ?_⟩
  intro w h
  simp [Lang, LangSeq] at h

end Verif.Tok
