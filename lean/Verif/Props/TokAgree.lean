import Verif.Tok.Agree
import Verif.Props.TokUnique

/-!
# Property C101: finitely many texts tell two tokenizers apart
-/

namespace Verif.Tok

variable {π ρ α E : Type} {parse : π → Except ρ Hir} {s : Seeds} {ps : List (π × (List Nat → List α → E))}
  {t : Tokenizer α E} {ws : List (Nat × Nat)}

section
variable {π' ρ' α' E' : Type} {parse' : π' → Except ρ' Hir} {s' : Seeds} {ps' : List (π' × (List Nat → List α' → E'))}
  {t' : Tokenizer α' E'} {ws' : List (Nat × Nat)}

/-- C101: if for all texts that are shorter than the numbers of states together the same pattern wins, then for all texts.  The texts may
be restricted to any alphabet `P`. -/
theorem c101_accepts (hparse : ParserOk parse) (hs : s.Fair) (hb : BuildsTo s parse ps (.ok (t, ws)))
    (hparse' : ParserOk parse') (hs' : s'.Fair) (hb' : BuildsTo s' parse' ps' (.ok (t', ws'))) (P : Nat → Prop)
    (h : ∀ w : List Nat, w.length < t.dfa.rows.length + t'.dfa.rows.length → (∀ c ∈ w, P c) → t.accepts w = t'.accepts w) :
    ∀ w : List Nat, (∀ c ∈ w, P c) → t.accepts w = t'.accepts w := by
  obtain ⟨_, _, _, _, h4⟩ := builds_spec hparse hs hb
  obtain ⟨_, _, _, _, h4'⟩ := builds_spec hparse' hs' hb'
  exact Agree.tables h4.wf h4'.wf Option.join h

/-- C101: the same for what can be seen of the tables: where they are stuck as well. -/
theorem c101_stuck (hparse : ParserOk parse) (hs : s.Fair) (hb : BuildsTo s parse ps (.ok (t, ws)))
    (hparse' : ParserOk parse') (hs' : s'.Fair) (hb' : BuildsTo s' parse' ps' (.ok (t', ws'))) (P : Nat → Prop)
    (h : ∀ w : List Nat, w.length < t.dfa.rows.length + t'.dfa.rows.length → (∀ c ∈ w, P c) → (t.stuck w ↔ t'.stuck w)) :
    ∀ w : List Nat, (∀ c ∈ w, P c) → (t.stuck w ↔ t'.stuck w) := by
  obtain ⟨_, _, _, _, h4⟩ := builds_spec hparse hs hb
  obtain ⟨_, _, _, _, h4'⟩ := builds_spec hparse' hs' hb'
  have e : ∀ (x y : Option (Option Nat)), (x = none ↔ y = none) ↔ x.isNone = y.isNone := by
    intro x y
    cases x <;> cases y <;> simp
  simp only [stuck_iff, e] at h ⊢
  exact Agree.tables h4.wf h4'.wf Option.isNone h

end

section
variable {π' ρ' : Type} {parse' : π' → Except ρ' Hir} {s' : Seeds} {ps' : List (π' × (List Nat → List α → E))}
  {t' : Tokenizer α E} {ws' : List (Nat × Nat)}

theorem words_of {map : α → Nat} {w : List Nat} (h : ∀ c ∈ w, ∃ a, map a = c) : ∃ l : List α, l.map map = w := by
  induction w with
  | nil => exact ⟨[], rfl⟩
  | cons c w ih =>
    obtain ⟨l, rfl⟩ := ih fun c hc => h c (by simp [hc])
    obtain ⟨a, rfl⟩ := h c (by simp)
    exact ⟨a :: l, rfl⟩

/-- One call of `next` for two tokenizers with the same callbacks for which the same patterns win. -/
theorem next_same (hparse : ParserOk parse) (hs : s.Fair) (hb : BuildsTo s parse ps (.ok (t, ws)))
    (hparse' : ParserOk parse') (hs' : s'.Fair) (hb' : BuildsTo s' parse' ps' (.ok (t', ws')))
    (hf : ps.map Prod.snd = ps'.map Prod.snd) {map : α → Nat} (h : ∀ l : List α, t.accepts (l.map map) = t'.accepts (l.map map))
    (it it' : It α) (hr : it.rest = it'.rest) :
    (t.next map it).1 = (t'.next map it').1 ∧ ((t.next map it).1 ≠ .none → (t.next map it).2.rest = (t'.next map it').2.rest) := by
  obtain ⟨r, a1, a2, a3, a4, a5⟩ := next_built map hparse hs hb it
  obtain ⟨r', b1, b2, b3, b4, b5⟩ := next_built map hparse' hs' hb' it'
  rw [← hr] at b1 b2 b3 b5
  simp only [← List.map_take, ← h] at b5
  simp only [← List.map_take] at a5
  rcases a5 with ⟨c1, c2, c3⟩ | ⟨n, k, p, c0, c0', c1, c2, c3, c4, c5⟩
  · rcases b5 with ⟨d1, d2, d3⟩ | ⟨n', k', p', d0, d0', d1, d2, d3, d4, d5⟩
    · exact ⟨by rw [c1, d1], fun h => absurd c1 h⟩
    · rw [c3] at d2; cases d2
  · rcases b5 with ⟨d1, d2, d3⟩ | ⟨n', k', p', d0, d0', d1, d2, d3, d4, d5⟩
    · rw [d3] at c2; cases c2
    · have hn : n = n' := by
        rcases Nat.lt_trichotomy n n' with hlt | hlt | hlt
        · rw [c3 n' hlt d0] at d2; cases d2
        · exact hlt
        · rw [d3 n hlt c0] at c2; cases c2
      subst hn
      rw [c2] at d2
      cases d2
      have := congrArg (·[k]?) hf
      simp only [List.getElem?_map, c1, d1, Option.map_some, Option.some.injEq] at this
      refine ⟨by rw [c4, d4, this], fun _ => by rw [c5, d5]⟩

/-- C101: finitely many tests are enough.  Take two tokenizers with the same callbacks, whose tokens show which callback made them
and how many items it got.  If the first call of `next` gives the same for all inputs that are shorter than the numbers of states together,
then all inputs give the same tokens. -/
theorem c101_tests (hparse : ParserOk parse) (hs : s.Fair) (hb : BuildsTo s parse ps (.ok (t, ws)))
    (hparse' : ParserOk parse') (hs' : s'.Fair) (hb' : BuildsTo s' parse' ps' (.ok (t', ws')))
    (hf : ps.map Prod.snd = ps'.map Prod.snd)
    (hshow : ∀ (k k' : Nat) (f f' : List Nat → List α → E) (cs cs' : List Nat) (is is' : List α), (ps.map Prod.snd)[k]? = some f → (ps.map Prod.snd)[k']? = some f' → f cs is = f' cs' is' →
      k = k' ∧ is.length = is'.length)
    (map : α → Nat)
    (h : ∀ input : List α, input.length < t.dfa.rows.length + t'.dfa.rows.length →
      (t.next map (It.start input)).1 = (t'.next map (It.start input)).1) :
    ∀ n (input : List α), (t.collect map n (It.start input)).map Prod.fst = (t'.collect map n (It.start input)).map Prod.fst := by
  have hps : ∀ {k : Nat} {p : π × (List Nat → List α → E)}, ps[k]? = some p → (ps.map Prod.snd)[k]? = some p.2 := by
    intro k p hp; simp [hp]
  have hps' : ∀ {k : Nat} {p : π' × (List Nat → List α → E)}, ps'[k]? = some p → (ps.map Prod.snd)[k]? = some p.2 := by
    intro k p hp; rw [hf]; simp [hp]
  have hacc : ∀ l : List α, t.accepts (l.map map) = t'.accepts (l.map map) := by
    have := c101_accepts hparse hs hb hparse' hs' hb' (fun c => ∃ a, map a = c) ?_
    · intro l
      exact this _ fun c hc => by obtain ⟨a, _, rfl⟩ := List.mem_map.1 hc; exact ⟨a, rfl⟩
    · intro w hw hP
      obtain ⟨l, rfl⟩ := words_of hP
      have e := h l (by simpa using hw)
      obtain ⟨r, _, _, _, _, a5⟩ := next_built map hparse hs hb (It.start l)
      obtain ⟨r', _, _, _, _, b5⟩ := next_built map hparse' hs' hb' (It.start l)
      have hrest : (It.start l).rest = l := rfl
      rw [hrest] at a5 b5
      rcases a5 with ⟨c1, c2, c3⟩ | ⟨n, k, p, c0, c0', c1, c2, c3, c4, c5⟩
      · rcases b5 with ⟨d1, d2, d3⟩ | ⟨n', k', p', d0, d0', d1, d2, d3, d4, d5⟩
        · have x := c3 l.length
          have y := d3 l.length
          rw [List.take_of_length_le (by simp)] at x y
          rw [x, y]
        · rw [c1, d4] at e; cases e
      · rcases b5 with ⟨d1, d2, d3⟩ | ⟨n', k', p', d0, d0', d1, d2, d3, d4, d5⟩
        · rw [c4, d1] at e; cases e
        · rw [c4, d4] at e
          simp only [Out.token.injEq] at e
          obtain ⟨rfl, hl⟩ := hshow _ _ _ _ _ _ _ _ (hps c1) (hps' d1) e
          rw [List.length_take, List.length_take] at hl
          have hnn : n = n' := by omega
          subst hnn
          by_cases hfull : n = l.length
          · rw [List.take_of_length_le (by simp [hfull])] at c2 d2
            rw [c2, d2]
          · have x := c3 l.length (by omega) (Nat.le_refl _)
            have y := d3 l.length (by omega) (Nat.le_refl _)
            rw [List.take_of_length_le (by simp)] at x y
            rw [x, y]
  have hcol : ∀ n (it it' : It α), it.rest = it'.rest → (t.collect map n it).map Prod.fst = (t'.collect map n it').map Prod.fst := by
    intro n
    induction n with
    | zero => intro it it' _; rfl
    | succ n ih =>
      intro it it' hr
      obtain ⟨e1, e2⟩ := next_same hparse hs hb hparse' hs' hb' hf hacc it it' hr
      unfold Tokenizer.collect
      rcases h1 : t.next map it with ⟨o, i1⟩
      rcases h2 : t'.next map it' with ⟨o', i2⟩
      rw [h1, h2] at e1 e2
      simp only at e1 e2
      subst e1
      cases o with
      | token x =>
        have := congrArg (Option.map (x :: ·)) (ih i1 i2 (e2 (by simp)))
        simp only [Option.map_map] at this ⊢
        exact this
      | none => rfl
      | panic => rfl
  exact fun n input => hcol n _ _ rfl

end

/-! ## The letters -/

/-- Where the ranges of a table begin and end. -/
def DFA.marks (d : DFA) : List Nat := d.rows.flatMap fun r => r.flatMap fun x => [x.1.1, x.1.2]

theorem mem_marks {d : DFA} {r : Row} {x : (Nat × Nat) × Nat} (hr : r ∈ d.rows) (hx : x ∈ r) : x.1.1 ∈ d.marks ∧ x.1.2 ∈ d.marks := by
  unfold DFA.marks
  simp only [List.mem_flatMap]
  exact ⟨⟨r, hr, x, hx, by simp⟩, ⟨r, hr, x, hx, by simp⟩⟩

theorem greatest (L : List Nat) (c : Nat) : (∀ b ∈ L, c < b) ∨ ∃ b ∈ L, b ≤ c ∧ ∀ b' ∈ L, b' ≤ c → b' ≤ b := by
  induction L with
  | nil => exact .inl (by simp)
  | cons a L ih =>
    by_cases ha : a ≤ c
    · right
      rcases ih with h | ⟨b, h1, h2, h3⟩
      · refine ⟨a, by simp, ha, ?_⟩
        intro b' hb' hc
        rcases List.mem_cons.1 hb' with rfl | hb'
        · exact Nat.le_refl _
        · have := h b' hb'; omega
      · by_cases hab : a ≤ b
        · refine ⟨b, by simp [h1], h2, ?_⟩
          intro b' hb' hc
          rcases List.mem_cons.1 hb' with rfl | hb'
          · exact hab
          · exact h3 b' hb' hc
        · refine ⟨a, by simp, ha, ?_⟩
          intro b' hb' hc
          rcases List.mem_cons.1 hb' with rfl | hb'
          · exact Nat.le_refl _
          · have := h3 b' hb' hc; omega
    · rcases ih with h | ⟨b, h1, h2, h3⟩
      · left
        intro b hb
        rcases List.mem_cons.1 hb with rfl | hb
        · omega
        · exact h b hb
      · refine .inr ⟨b, by simp [h1], h2, ?_⟩
        intro b' hb' hc
        rcases List.mem_cons.1 hb' with rfl | hb'
        · omega
        · exact h3 b' hb' hc

/-- Without a mark in between, letters lead to the same state. -/
theorem next_mark {d : DFA} {p : Nat} (h : d.WF p) {b c : Nat} (hbc : b ≤ c) (hm : ∀ b' ∈ d.marks, b' ≤ c → b' ≤ b) (i : Nat) :
    d.next i c = d.next i b := by
  by_cases hi : i < d.rows.length
  · apply Option.ext
    intro m
    rw [next_inRow h hi, next_inRow h hi]
    have hr : d.rows.getD i [] ∈ d.rows := by
      rw [List.getD_eq_getElem?_getD, List.getElem?_eq_getElem hi]
      exact List.getElem_mem hi
    unfold InRow
    constructor
    · rintro ⟨lo, hi', h1, h2, h3⟩
      have := hm lo (mem_marks hr h1).1 h2
      exact ⟨lo, hi', h1, this, by omega⟩
    · rintro ⟨lo, hi', h1, h2, h3⟩
      refine ⟨lo, hi', h1, by omega, ?_⟩
      apply Nat.lt_of_not_le
      intro hle
      have := hm hi' (mem_marks hr h1).2 hle
      omega
  · unfold DFA.next
    rw [List.getElem?_eq_none (by omega)]
    rfl

theorem next_low {d : DFA} {p : Nat} (h : d.WF p) {c : Nat} (hm : ∀ b ∈ d.marks, c < b) (i : Nat) : d.next i c = none := by
  apply Option.eq_none_iff_forall_not_mem.2
  intro m hmem
  have hi : i < d.rows.length := by
    apply Nat.lt_of_not_le
    intro hle
    unfold DFA.next at hmem
    rw [List.getElem?_eq_none hle] at hmem
    cases hmem
  obtain ⟨lo, hi', h1, h2, h3⟩ := (next_inRow h hi).1 hmem
  have hr : d.rows.getD i [] ∈ d.rows := by
    rw [List.getD_eq_getElem?_getD, List.getElem?_eq_getElem hi]
    exact List.getElem_mem hi
  have := hm lo (mem_marks hr h1).1
  omega

theorem run_marks {d e : DFA} {p q : Nat} (hd : d.WF p) (he : e.WF q) (w : List Nat) :
    (∃ w' : List Nat, w'.length = w.length ∧ (∀ c ∈ w', c ∈ d.marks ++ e.marks) ∧ (∀ i, d.run i w = d.run i w') ∧ ∀ i, e.run i w = e.run i w') ∨
    ((∀ i, d.run i w = none) ∧ ∀ i, e.run i w = none) := by
  induction w with
  | nil => exact .inl ⟨[], rfl, by simp, fun _ => rfl, fun _ => rfl⟩
  | cons c w ih =>
    rcases ih with ⟨w', h1, h2, h3, h4⟩ | ⟨h1, h2⟩
    · rcases greatest (d.marks ++ e.marks) c with hl | ⟨b, hb, hbc, hg⟩
      · right
        have a := next_low hd (c := c) fun b hb => hl b (by simp [hb])
        have a' := next_low he (c := c) fun b hb => hl b (by simp [hb])
        exact ⟨fun i => by simp [DFA.run, a], fun i => by simp [DFA.run, a']⟩
      · left
        have a := next_mark hd hbc fun b' hb' => hg b' (by simp [hb'])
        have a' := next_mark he hbc fun b' hb' => hg b' (by simp [hb'])
        refine ⟨b :: w', by simp [h1], ?_, fun i => ?_, fun i => ?_⟩
        · intro c' hc'
          rcases List.mem_cons.1 hc' with rfl | hc'
          · exact hb
          · exact h2 c' hc'
        · simp only [DFA.run, a, h3]
        · simp only [DFA.run, a', h4]
    · right
      refine ⟨fun i => ?_, fun i => ?_⟩
      · simp only [DFA.run, h1]
        cases d.next i c <;> rfl
      · simp only [DFA.run, h2]
        cases e.next i c <;> rfl

/-- C101: it is enough to use the letters at which ranges of the tables begin or end (the code points behind a range).  So there
are finitely many texts to look at. -/
theorem c101_letters {π' ρ' α' E' : Type} {parse' : π' → Except ρ' Hir} {s' : Seeds} {ps' : List (π' × (List Nat → List α' → E'))}
    {t' : Tokenizer α' E'} {ws' : List (Nat × Nat)} (hparse : ParserOk parse) (hs : s.Fair) (hb : BuildsTo s parse ps (.ok (t, ws)))
    (hparse' : ParserOk parse') (hs' : s'.Fair) (hb' : BuildsTo s' parse' ps' (.ok (t', ws')))
    (h : ∀ w : List Nat, w.length < t.dfa.rows.length + t'.dfa.rows.length → (∀ c ∈ w, c ∈ t.dfa.marks ++ t'.dfa.marks) →
      t.accepts w = t'.accepts w) :
    ∀ w : List Nat, t.accepts w = t'.accepts w := by
  have h0 := c101_accepts hparse hs hb hparse' hs' hb' (· ∈ t.dfa.marks ++ t'.dfa.marks) h
  obtain ⟨_, _, _, _, h4⟩ := builds_spec hparse hs hb
  obtain ⟨_, _, _, _, h4'⟩ := builds_spec hparse' hs' hb'
  intro w
  rcases run_marks h4.wf h4'.wf w with ⟨w', _, h2, h3, h5⟩ | ⟨h2, h3⟩
  · have := h0 w' h2
    unfold Tokenizer.accepts DFA.obs at this ⊢
    rw [h3, h5, this]
  · unfold Tokenizer.accepts DFA.obs
    rw [h2, h3]
    rfl

/-! ## The bound -/

/-- C101: the bound is sharp: `a{0,3}` has four states and `a*` has one, and they differ for the first time at `aaaa`. -/
theorem c101_sharp : ∃ r r', BuildsTo seeds0 parse0 (tagged [.rep (.bounded 0 3) ra]) (.ok r) ∧ BuildsTo seeds0 parse0 (tagged [.rep .zeroOrMore ra]) (.ok r') ∧
    (∀ k, k + 1 < r.1.dfa.rows.length + r'.1.dfa.rows.length → r.1.accepts (List.replicate k 97) = r'.1.accepts (List.replicate k 97)) ∧
    ∃ k, k + 1 = r.1.dfa.rows.length + r'.1.dfa.rows.length ∧ r.1.accepts (List.replicate k 97) ≠ r'.1.accepts (List.replicate k 97) := by
  obtain ⟨r, hb, e⟩ := tok0_spec (s := seeds0) (hs := [.rep (.bounded 0 3) ra])
    (g := fun r => (r.1.dfa.rows.length, (List.range 5).map fun k => r.1.accepts (List.replicate k 97))) (x := (4, [some 0, some 0, some 0, some 0, none])) (by decide +kernel)
  obtain ⟨r', hb', e'⟩ := tok0_spec (s := seeds0) (hs := [.rep .zeroOrMore ra])
    (g := fun r => (r.1.dfa.rows.length, (List.range 5).map fun k => r.1.accepts (List.replicate k 97))) (x := (1, [some 0, some 0, some 0, some 0, some 0])) (by decide +kernel)
  refine ⟨r, r', hb, hb', ?_⟩
  simp only [Prod.mk.injEq] at e e'
  obtain ⟨l1, e⟩ := e
  obtain ⟨l2, e'⟩ := e'
  rw [l1, l2]
  have get : ∀ {t : Tokenizer Nat (Nat × List Nat)} {L}, (List.range 5).map (fun k => t.accepts (List.replicate k 97)) = L →
      ∀ k, k < 5 → some (t.accepts (List.replicate k 97)) = L[k]? := by
    rintro t L rfl k hk
    simp [hk]
  refine ⟨?_, 4, rfl, ?_⟩
  · intro k hk
    apply Option.some.inj
    rw [get e k (by omega), get e' k (by omega)]
    have : k = 0 ∨ k = 1 ∨ k = 2 ∨ k = 3 := by omega
    rcases this with rfl | rfl | rfl | rfl <;> rfl
  · intro h
    have := (get e 4 (by omega)).symm.trans ((congrArg some h).trans (get e' 4 (by omega)))
    simp at this

/-- `tagged` callbacks show which pattern and how many items. -/
theorem tagged_show (hs : List Hir) : ∀ (k k' : Nat) (f f' : List Nat → List Nat → Nat × List Nat) (cs cs' is is' : List Nat),
    ((tagged hs).map Prod.snd)[k]? = some f → ((tagged hs).map Prod.snd)[k']? = some f' → f cs is = f' cs' is' →
      k = k' ∧ is.length = is'.length := by
  intro k k' f f' cs cs' is is' h h' e
  have htag : ∀ {k : Nat} {f : List Nat → List Nat → Nat × List Nat}, ((tagged hs).map Prod.snd)[k]? = some f → f = tag k := by
    intro k f h
    simp only [tagged, List.map_map, List.getElem?_map, List.getElem?_zipIdx, Option.map_map, Option.map_eq_some_iff] at h
    obtain ⟨a, _, rfl⟩ := h
    simp
  rw [htag h, htag h'] at e
  simp only [tag, Prod.mk.injEq] at e
  exact ⟨e.1, by rw [e.2]⟩

/-- All the hypotheses of `c101_tests` can be met: `a{0,1}b` and `b|ab`, of three states each. -/
example : ∃ r r', BuildsTo seeds0 parse0 (tagged [.concat [.rep (.bounded 0 1) ra, rb]]) (.ok r) ∧
    BuildsTo seeds0 parse0 (tagged [.alt [rb, .concat [ra, rb]]]) (.ok r') ∧ r.1.dfa.rows.length + r'.1.dfa.rows.length = 6 ∧
    ∀ n input, (r.1.collect id n (It.start input)).map Prod.fst = (r'.1.collect id n (It.start input)).map Prod.fst := by
  let tab : List Row × Nat × List (Option Nat) := ([[((97, 98), 1), ((98, 99), 2)], [((98, 99), 2)], []], 0, [none, none, some 0])
  obtain ⟨r, hb, e⟩ := tok0_spec (s := seeds0) (hs := [.concat [.rep (.bounded 0 1) ra, rb]])
    (g := fun r => (r.1.dfa.rows, r.1.dfa.b, r.1.dfa.ends)) (x := tab) (by decide +kernel)
  obtain ⟨r', hb', e'⟩ := tok0_spec (s := seeds0) (hs := [.alt [rb, .concat [ra, rb]]])
    (g := fun r => (r.1.dfa.rows, r.1.dfa.b, r.1.dfa.ends)) (x := tab) (by decide +kernel)
  refine ⟨r, r', hb, hb', ?_, ?_⟩
  · simp only [tab, Prod.mk.injEq] at e e'
    rw [e.1, e'.1]
    rfl
  · refine c101_tests parse0_ok seeds0_fair hb parse0_ok seeds0_fair hb' rfl (tagged_show _) id ?_
    intro input _
    have hd : r.1.dfa = r'.1.dfa := by
      rw [← e'] at e
      simp only [Prod.mk.injEq] at e
      rcases h1 : r.1.dfa with ⟨a, b, c⟩
      rcases h2 : r'.1.dfa with ⟨a', b', c'⟩
      rw [h1, h2] at e
      obtain ⟨rfl, rfl, rfl⟩ := e
      rfl
    exact (next_same parse0_ok seeds0_fair hb parse0_ok seeds0_fair hb' rfl (fun l => by unfold Tokenizer.accepts; rw [hd]) _ _ rfl).1

/-- The letters of the tables for `ab|ba`. -/
example : (tok0 seeds0 [.alt [.concat [ra, rb], .concat [rb, ra]]]).map (fun r => r.1.dfa.marks) = some [97, 98, 98, 99, 98, 99, 97, 98] := by
  decide +kernel

end Verif.Tok
