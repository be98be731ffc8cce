import Verif.Props.TokPump

/-!
# Property C105: short texts show how patterns are related
-/

namespace Verif.Tok

/-- A text along which the states `st` of its beginnings are in a list has a text with the same state at the end that has fewer letters than
the list has entries. -/
theorem shorten {β : Type} [DecidableEq β] (st : List Nat → β) (hst : ∀ u u' z, st u = st u' → st (u ++ z) = st (u' ++ z)) (Q : List β)
    (w : List Nat) (hw : ∀ i, st (w.take i) ∈ Q) : ∃ w' : List Nat, w'.length < Q.length ∧ st w' = st w ∧ ∀ c ∈ w', c ∈ w := by
  generalize hn : w.length = n
  induction n using Nat.strongRecOn generalizing w with
  | ind n ih =>
    by_cases hlt : w.length < Q.length
    · exact ⟨w, hlt, rfl, fun c hc => hc⟩
    · have hnd : ¬ ((List.range (w.length + 1)).map fun i => st (w.take i)).Nodup := by
        intro h
        have := length_le_of_nodup_subset h (t := Q) (by
          intro a ha
          obtain ⟨i, _, rfl⟩ := List.mem_map.1 ha
          exact hw i)
        simp at this
        omega
      obtain ⟨i, j, hij, hj, e⟩ : ∃ i j, i < j ∧ j ≤ w.length ∧ st (w.take i) = st (w.take j) := by
        apply Classical.byContradiction
        intro hno
        apply hnd
        rw [List.Nodup, List.pairwise_map]
        refine List.Pairwise.imp_of_mem ?_ (List.pairwise_lt_range (n := w.length + 1))
        intro a b _ hb hab e
        exact hno ⟨a, b, hab, by have := List.mem_range.1 hb; omega, e⟩
      have hend : st (w.take i ++ w.drop j) = st w := by
        rw [hst _ _ _ e, List.take_append_drop]
      obtain ⟨w', h1, h2, h3⟩ := ih (w.take i ++ w.drop j).length (by simp; omega) (w.take i ++ w.drop j) (by
        intro m
        rw [List.take_append, List.take_take]
        by_cases hm : m ≤ i
        · rw [show m - (w.take i).length = 0 by simp; omega, List.take_zero, List.append_nil]
          exact hw _
        · rw [show min m i = i by omega, hst _ _ _ e]
          have : w.take j ++ (w.drop j).take (m - (w.take i).length) = w.take (j + (m - (w.take i).length)) := by
            rw [List.take_add]
          rw [this]
          exact hw _) rfl
      refine ⟨w', h1, h2.trans hend, fun c hc => ?_⟩
      rcases List.mem_append.1 (h3 c hc) with hc | hc
      · exact List.mem_of_mem_take hc
      · exact List.mem_of_mem_drop hc

section
variable {π ρ α E : Type} {parse : π → Except ρ Hir} {s : Seeds} {ps : List (π × (List Nat → List α → E))}
  {t : Tokenizer α E} {ws : List (Nat × Nat)}
variable {π' ρ' α' E' : Type} {parse' : π' → Except ρ' Hir} {s' : Seeds} {ps' : List (π' × (List Nat → List α' → E'))}
  {t' : Tokenizer α' E'} {ws' : List (Nat × Nat)}

theorem run_append_congr {d : DFA} {u u' : List Nat} (z : List Nat) (h : d.run d.b u = d.run d.b u') : d.run d.b (u ++ z) = d.run d.b (u' ++ z) := by
  rw [DFA.run_append, DFA.run_append, h]

theorem accepts_state {u u' : List Nat} (h : t.dfa.run t.dfa.b u = t.dfa.run t.dfa.b u') : t.accepts u = t.accepts u' := by
  unfold Tokenizer.accepts DFA.obs
  rw [h]

theorem state_mem (hparse : ParserOk parse) (hs : s.Fair) (hb : BuildsTo s parse ps (.ok (t, ws))) (u : List Nat) :
    t.dfa.run t.dfa.b u ∈ none :: (List.range t.dfa.rows.length).map some := by
  obtain ⟨_, _, _, _, h4⟩ := builds_spec hparse hs hb
  cases h : t.dfa.run t.dfa.b u with
  | none => simp
  | some q => simp [run_lt h4.wf _ _ _ h4.wf.b h]

theorem state_mem_live (hparse : ParserOk parse) (hs : s.Fair) (hb : BuildsTo s parse ps (.ok (t, ws))) {w : List Nat} {k : Nat}
    (h : t.accepts w = some k) (i : Nat) : t.dfa.run t.dfa.b (w.take i) ∈ (List.range t.dfa.rows.length).map some := by
  obtain ⟨_, _, _, _, h4⟩ := builds_spec hparse hs hb
  obtain ⟨q, hq, _⟩ := accepts_some h
  obtain ⟨p, hp, _⟩ := run_some_take hq i
  rw [hp]
  simp [run_lt h4.wf _ _ _ h4.wf.b hp]

theorem pairs_mem {β γ : Type} {l : List β} {l' : List γ} {x : β × γ} (h : x.1 ∈ l) (h' : x.2 ∈ l') :
    x ∈ l.flatMap fun a => l'.map fun b => (a, b) := by
  obtain ⟨a, b⟩ := x
  exact List.mem_flatMap.2 ⟨a, h, List.mem_map_of_mem h'⟩

theorem pairs_length {β γ : Type} (l : List β) (l' : List γ) : (l.flatMap fun a => l'.map fun b => (a, b)).length = l.length * l'.length := by
  induction l with
  | nil => simp
  | cons a l ih => simp only [List.flatMap_cons, List.length_append, List.length_map, ih, List.length_cons, Nat.succ_mul]; omega

/-- C105: if some text makes pattern `k` win in one tokenizer and pattern `k'` in another one, then one that has fewer letters than the product
of the numbers of states, and no other letters. -/
theorem c105_common (hparse : ParserOk parse) (hs : s.Fair) (hb : BuildsTo s parse ps (.ok (t, ws)))
    (hparse' : ParserOk parse') (hs' : s'.Fair) (hb' : BuildsTo s' parse' ps' (.ok (t', ws'))) (k k' : Nat) (w : List Nat)
    (h : t.accepts w = some k) (h' : t'.accepts w = some k') :
    ∃ w' : List Nat, w'.length < t.dfa.rows.length * t'.dfa.rows.length ∧ (∀ c ∈ w', c ∈ w) ∧ t.accepts w' = some k ∧ t'.accepts w' = some k' := by
  obtain ⟨w', h1, h2, h3⟩ := shorten (fun u => (t.dfa.run t.dfa.b u, t'.dfa.run t'.dfa.b u))
    (by
      intro u u' z e
      simp only [Prod.mk.injEq] at e ⊢
      exact ⟨run_append_congr z e.1, run_append_congr z e.2⟩)
    (((List.range t.dfa.rows.length).map some).flatMap fun a => ((List.range t'.dfa.rows.length).map some).map fun b => (a, b)) w
    (fun i => pairs_mem (state_mem_live hparse hs hb h i) (state_mem_live hparse' hs' hb' h' i))
  rw [pairs_length] at h1
  simp only [List.length_map, List.length_range] at h1
  simp only [Prod.mk.injEq] at h2
  exact ⟨w', h1, h3, by rw [accepts_state h2.1, h], by rw [accepts_state h2.2, h']⟩

/-- C105: if some text makes pattern `k` win in one tokenizer, and not pattern `k'` in another one, then one that has fewer letters than the
product of the number of states of the first and one more than those of the second, and no other letters. -/
theorem c105_outside (hparse : ParserOk parse) (hs : s.Fair) (hb : BuildsTo s parse ps (.ok (t, ws)))
    (hparse' : ParserOk parse') (hs' : s'.Fair) (hb' : BuildsTo s' parse' ps' (.ok (t', ws'))) (k k' : Nat) (w : List Nat)
    (h : t.accepts w = some k) (h' : t'.accepts w ≠ some k') :
    ∃ w' : List Nat, w'.length < t.dfa.rows.length * (t'.dfa.rows.length + 1) ∧ (∀ c ∈ w', c ∈ w) ∧ t.accepts w' = some k ∧
      t'.accepts w' ≠ some k' := by
  obtain ⟨w', h1, h2, h3⟩ := shorten (fun u => (t.dfa.run t.dfa.b u, t'.dfa.run t'.dfa.b u))
    (by
      intro u u' z e
      simp only [Prod.mk.injEq] at e ⊢
      exact ⟨run_append_congr z e.1, run_append_congr z e.2⟩)
    (((List.range t.dfa.rows.length).map some).flatMap fun a => (none :: (List.range t'.dfa.rows.length).map some).map fun b => (a, b)) w
    (fun i => pairs_mem (state_mem_live hparse hs hb h i) (state_mem hparse' hs' hb' _))
  rw [pairs_length] at h1
  simp only [List.length_cons, List.length_map, List.length_range] at h1
  simp only [Prod.mk.injEq] at h2
  exact ⟨w', h1, h3, by rw [accepts_state h2.1, h], by rw [accepts_state h2.2]; exact h'⟩

end

variable {π ρ α E : Type} {parse : π → Except ρ Hir} {s : Seeds} {ps : List (π × (List Nat → List α → E))}
  {t : Tokenizer α E} {ws : List (Nat × Nat)}

/-- C105: whether there is a warning is seen at short texts: iff two patterns, each with a tokenizer of its own, match a common text that
has fewer letters than the product of the numbers of states of these two tokenizers. -/
theorem c105_warning (hparse : ParserOk parse) (hs : s.Fair) (hb : BuildsTo s parse ps (.ok (t, ws)))
    (own : Nat → Tokenizer α E) (so : Nat → Seeds) (wo : Nat → List (Nat × Nat))
    (hown : ∀ (i : Nat) (p : π × (List Nat → List α → E)), ps[i]? = some p → (so i).Fair ∧ Calm (so i) parse [p] ∧ BuildsTo (so i) parse [p] (.ok (own i, wo i))) :
    ws ≠ [] ↔ ∃ a b w, a ≠ b ∧ a < ps.length ∧ b < ps.length ∧ w.length < (own a).dfa.rows.length * (own b).dfa.rows.length ∧
      (own a).accepts w = some 0 ∧ (own b).accepts w = some 0 := by
  rw [(c05_overlap_warnings hparse hs hb own so wo hown).some_iff]
  constructor
  · rintro ⟨w, a, b, hab, ⟨ha, ha'⟩, hb1, hb2⟩
    obtain ⟨f1, _, f2⟩ := hown a _ (List.getElem?_eq_getElem ha)
    obtain ⟨g1, _, g2⟩ := hown b _ (List.getElem?_eq_getElem hb1)
    obtain ⟨w', k1, _, k2, k3⟩ := c105_common hparse f1 f2 hparse g1 g2 0 0 w ha' hb2
    exact ⟨a, b, w', hab, ha, hb1, k1, k2, k3⟩
  · rintro ⟨a, b, w, hab, ha, hb1, _, k1, k2⟩
    exact ⟨w, a, b, hab, ⟨ha, k1⟩, hb1, k2⟩

/-! ## Examples -/

/-- `a(aa)*` and `aa(aaa)*`. -/
def odd : Hir := .concat [ra, .rep .zeroOrMore (.concat [ra, ra])]
def third : Hir := .concat [ra, ra, .rep .zeroOrMore (.concat [ra, ra, ra])]

/-- C105: the bound cannot be improved: `a(aa)*` has two states and `aa(aaa)*` has three; of the texts over `a`, the first one matched by both
has five letters.  And so there is a warning. -/
theorem c105_sharp : ∃ r r', BuildsTo seeds0 parse0 (tagged [odd]) (.ok r) ∧ BuildsTo seeds0 parse0 (tagged [third]) (.ok r') ∧
    r.1.dfa.rows.length * r'.1.dfa.rows.length = 5 + 1 ∧
    (r.1.accepts (List.replicate 5 97) = some 0 ∧ r'.1.accepts (List.replicate 5 97) = some 0) ∧
    (∀ k < 5, ¬ (r.1.accepts (List.replicate k 97) = some 0 ∧ r'.1.accepts (List.replicate k 97) = some 0)) ∧
    ∃ r'', BuildsTo seeds0 parse0 (tagged [odd, third]) (.ok r'') ∧ r''.2 = [(1, 0)] := by
  obtain ⟨r, hb, e⟩ := tok0_spec (s := seeds0) (hs := [odd])
    (g := fun r => (r.1.dfa.rows.length, (List.range 6).map fun k => r.1.accepts (List.replicate k 97)))
    (x := (2, [none, some 0, none, some 0, none, some 0])) (by decide +kernel)
  obtain ⟨r', hb', e'⟩ := tok0_spec (s := seeds0) (hs := [third])
    (g := fun r => (r.1.dfa.rows.length, (List.range 6).map fun k => r.1.accepts (List.replicate k 97)))
    (x := (3, [none, none, some 0, none, none, some 0])) (by decide +kernel)
  obtain ⟨r'', hb'', e''⟩ := tok0_spec (s := seeds0) (hs := [odd, third]) (g := fun r => r.2) (x := [(1, 0)]) (by decide +kernel)
  simp only [Prod.mk.injEq] at e e'
  have he : ∀ k < 6, r.1.accepts (List.replicate k 97) = ([none, some 0, none, some 0, none, some 0] : List (Option Nat))[k]?.join := by
    intro k hk
    rw [← e.2]
    simp [hk]
  have he' : ∀ k < 6, r'.1.accepts (List.replicate k 97) = ([none, none, some 0, none, none, some 0] : List (Option Nat))[k]?.join := by
    intro k hk
    rw [← e'.2]
    simp [hk]
  refine ⟨r, r', hb, hb', by rw [e.1, e'.1], ⟨he 5 (by omega), he' 5 (by omega)⟩, fun k hk => ?_, r'', hb'', e''⟩
  rw [he k (by omega), he' k (by omega)]
  revert k
  decide

/-- A text with eleven letters that both match, and so one with fewer than six. -/
example (r r' : Tokenizer Nat (Nat × List Nat) × List (Nat × Nat)) (hb : BuildsTo seeds0 parse0 (tagged [odd]) (.ok r))
    (hb' : BuildsTo seeds0 parse0 (tagged [third]) (.ok r')) (h : r.1.accepts (List.replicate 11 97) = some 0)
    (h' : r'.1.accepts (List.replicate 11 97) = some 0) :
    ∃ w, w.length < r.1.dfa.rows.length * r'.1.dfa.rows.length ∧ r.1.accepts w = some 0 ∧ r'.1.accepts w = some 0 := by
  obtain ⟨w, h1, _, h2, h3⟩ := c105_common parse0_ok seeds0_fair hb parse0_ok seeds0_fair hb' 0 0 _ h h'
  exact ⟨w, h1, h2, h3⟩

example : (tok0 seeds0 [odd]).map (fun r => r.1.accepts (List.replicate 11 97)) = some (some 0) ∧
    (tok0 seeds0 [third]).map (fun r => r.1.accepts (List.replicate 11 97)) = some (some 0) := by decide +kernel

end Verif.Tok
