import Verif.Tok.SourceProof
import Verif.Props.TokRead

/-!
# Property C51: tokenizing any iterator
-/

namespace Verif.Tok

open Verif.Par (Source after answer Gives Endless Begins)

variable {π ρ α E σ : Type} {parse : π → Except ρ Hir} {s : Seeds} {ps : List (π × (List Nat → List α → E))}
  {t : Tokenizer α E} {ws : List (Nat × Nat)}

theorem built_wf (hparse : ParserOk parse) (hs : s.Fair) (hb : BuildsTo s parse ps (.ok (t, ws))) : t.dfa.WF t.maker.length := by
  obtain ⟨hirs, h1, h2, h3, h4⟩ := builds_spec hparse hs hb
  rw [h4.maker]
  simpa [h3] using h4.wf

/-- C51: if the source gives the items `l` and then `None`, a call returns what it returns on the list `l`, and has called the source
exactly for the items it took from the list, and possibly once more to see the `None`. -/
theorem c51_list (hparse : ParserOk parse) (hs : s.Fair) (hb : BuildsTo s parse ps (.ok (t, ws))) (map : α → Nat) (nxt : Source σ α)
    (q : List α) (src : σ) (l : List α) (hg : Gives nxt src l) :
    ∃ k, t.Returns map nxt ⟨q, src⟩ (t.next map ⟨q, l⟩).1 ⟨(t.next map ⟨q, l⟩).2.queue, after nxt k src⟩ ∧
      ((k ≤ l.length ∧ (t.next map ⟨q, l⟩).2.src = l.drop k) ∨ (k = l.length + 1 ∧ (t.next map ⟨q, l⟩).2.src = [])) := by
  obtain ⟨sc, r, h1, _⟩ := scan_spec (built_wf hparse hs hb) q l [] _ (scan0_inv (map := map))
  obtain ⟨k, k1, k2⟩ := scanFrom_gives hg h1
  have e := next_finish h1
  rw [e]
  exact ⟨k, ⟨_, nextFrom_finish (it := ⟨q, src⟩) k1⟩, k2⟩

/-- C51: whatever the source is, a call that returns did so because of the finitely many items `l` it has read: either it would return the
same with any other continuation of `l` (and leaves that untouched), or the source has ended behind `l`. -/
theorem c51_explained (hparse : ParserOk parse) (hs : s.Fair) (hb : BuildsTo s parse ps (.ok (t, ws))) (map : α → Nat) (nxt : Source σ α)
    (it it' : ItFrom σ α) (o : Out E) (h : t.Returns map nxt it o it') :
    o ≠ .panic ∧
    ∃ l, (Begins nxt it.src l ∧ it'.src = after nxt l.length it.src ∧ ∀ more, t.next map ⟨it.queue, l ++ more⟩ = (o, ⟨it'.queue, more⟩)) ∨
      (Gives nxt it.src l ∧ it'.src = after nxt (l.length + 1) it.src ∧ t.next map ⟨it.queue, l⟩ = (o, ⟨it'.queue, []⟩)) := by
  have key : ∃ l, (Begins nxt it.src l ∧ it'.src = after nxt l.length it.src ∧ ∀ more, t.next map ⟨it.queue, l ++ more⟩ = (o, ⟨it'.queue, more⟩)) ∨
      (Gives nxt it.src l ∧ it'.src = after nxt (l.length + 1) it.src ∧ t.next map ⟨it.queue, l⟩ = (o, ⟨it'.queue, []⟩)) := by
    obtain ⟨n, h⟩ := h
    cases hsc : scanFrom t.dfa map nxt n (scan0 t.dfa) it.queue it.src with
    | wait => rw [nextFrom_wait.2 hsc] at h; cases h
    | panic => exact absurd hsc (scanFrom_no_panic (built_wf hparse hs hb) scan0_inv)
    | done sc it1 =>
      rw [nextFrom_finish hsc] at h
      cases h
      obtain ⟨l, h1 | h1⟩ := scanFrom_done hsc
      · exact ⟨l, Or.inl ⟨h1.1, h1.2.1, fun more => next_finish (h1.2.2 more)⟩⟩
      · exact ⟨l, Or.inr ⟨h1.1, h1.2.1, next_finish h1.2.2⟩⟩
  refine ⟨?_, key⟩
  have np : ∀ it : It α, (t.next map it).1 ≠ .panic := by
    intro it hp
    obtain ⟨r, _, _, _, _, h | ⟨n, k, p, _, _, _, _, _, h, _⟩⟩ := next_built map hparse hs hb it
    · rw [hp] at h; cases h.1
    · rw [hp] at h; cases h
  obtain ⟨l, h1 | h1⟩ := key
  · have := np ⟨it.queue, l ++ []⟩
    rw [h1.2.2 []] at this
    exact this
  · have := np ⟨it.queue, l⟩
    rw [h1.2.2] at this
    exact this

/-- C51: a call has at most one outcome, and either returns or hangs. -/
theorem c51_one_outcome (t : Tokenizer α E) (map : α → Nat) (nxt : Source σ α) (it : ItFrom σ α) :
    (∀ o it1 o' it2, t.Returns map nxt it o it1 → t.Returns map nxt it o' it2 → o = o' ∧ it1 = it2) ∧
    ((∃ o it', t.Returns map nxt it o it') ↔ ¬ t.Hangs map nxt it) := by
  refine ⟨fun o it1 o' it2 h h' => Returns.det h h', ?_, ?_⟩
  · rintro ⟨o, it', n, h⟩ hh
    rw [hh n] at h; cases h
  · intro h
    obtain ⟨n, hn⟩ := Classical.not_forall.1 h
    cases hr : t.nextFrom map nxt n it with
    | none => exact absurd hr hn
    | some r => exact ⟨r.1, r.2, n, hr⟩

/-- C51: a call hangs exactly if the source never ends and whatever has been read can still be completed to a token. -/
theorem c51_hangs (hparse : ParserOk parse) (hs : s.Fair) (hc : Calm s parse ps) (hl : PatsLive parse ps) (hne : ps ≠ [])
    (hb : BuildsTo s parse ps (.ok (t, ws))) (map : α → Nat) (nxt : Source σ α) (it : ItFrom σ α) :
    t.Hangs map nxt it ↔ Endless nxt it.src ∧ ∀ l, Begins nxt it.src l → Viable (PatCode parse ps) ((it.queue ++ l).map map) := by
  unfold Tokenizer.Hangs
  simp only [nextFrom_wait]
  rw [scanFrom_hangs (built_wf hparse hs hb) scan0_inv]
  refine and_congr Iff.rfl (forall_congr' fun l => imp_congr Iff.rfl ?_)
  have := stuck_iff_viable hparse hs hc hl hne hb ((it.queue ++ l).map map)
  rw [stuck_iff] at this
  rw [List.nil_append, Ne, this, Classical.not_not]

/-- C51: on a source that stays at its end, any number of calls return what they return on the list. -/
theorem c51_fused (hparse : ParserOk parse) (hs : s.Fair) (hb : BuildsTo s parse ps (.ok (t, ws))) (map : α → Nat) (nxt : Source σ α)
    (src : σ) (l : List α) (hg : GivesFused nxt src l) (n : Nat) :
    ∃ it', t.ReturnsAll map nxt ⟨[], src⟩ (t.calls map n (It.start l)).1 it' := by
  have key : ∀ (n : Nat) (q : List α) (src : σ) (l : List α), GivesFused nxt src l →
      ∃ it', t.ReturnsAll map nxt ⟨q, src⟩ (t.calls map n ⟨q, l⟩).1 it' := by
    intro n
    induction n with
    | zero => intro q src l _; exact ⟨_, .nil _⟩
    | succ n ih =>
      intro q src l hg
      obtain ⟨k, h1, h2⟩ := c51_list hparse hs hb map nxt q src l (fun j _ => hg j)
      have hg' : GivesFused nxt (after nxt k src) (t.next map ⟨q, l⟩).2.src := by
        intro j
        rw [← Par.answer_add, hg]
        rcases h2 with ⟨h2, h3⟩ | ⟨h2, h3⟩
        · rw [h3, List.getElem?_drop]
        · rw [h3, h2]
          simp only [List.getElem?_nil]
          rw [List.getElem?_eq_none]; omega
      obtain ⟨it', h3⟩ := ih _ _ _ hg'
      exact ⟨it', .cons _ _ _ _ _ h1 h3⟩
  exact key n [] src l hg

/-! ## Examples -/

/-- A source that gives `a`, then `None`, then `b` and `a` for ever. -/
def blinking : Source Nat Nat := fun n => (match n with
  | 0 => some 97
  | 1 => none
  | n + 2 => if n % 2 = 0 then some 98 else some 97, n + 1)

/-- Patterns `a`, `ba`: the items behind the `None` are tokenized by later calls, and the endless source does not matter. -/
example : (tok0 seeds0 [ra, .concat [rb, ra]]).map (fun r =>
    [r.1.nextFrom id blinking 5 ⟨[], 0⟩, r.1.nextFrom id blinking 5 ⟨[], 2⟩, r.1.nextFrom id blinking 5 ⟨[98], 5⟩].map fun x =>
      x.map fun y => (y.1, y.2.queue, y.2.src)) =
    some [some (.token (0, [97]), [], 2), some (.token (1, [98, 97]), [98], 5), some (.token (1, [98, 97]), [98], 7)] := by rfl

/-- A source that gives `a`, `a`, `None`, `b` and then `None` for ever. -/
def gap : Source Nat Nat := fun n => ([some 97, some 97, none, some 98][n]?.getD none, n + 1)

/-- The tokenizer for the patterns `a`, `aaa`, `ab`. -/
def gapTok : Tokenizer Nat (Nat × List Nat) :=
  match builderBuild 50 seeds0 parse0 (tagged [ra, .concat [ra, ra, ra], .concat [ra, rb]]) with
  | some (.ok r) => r.1
  | _ => { dfa := { b := 0, rows := [], ends := [] }, maker := [] }

/-- C51: without `GivesFused` this fails.  With the patterns `a`, `aaa`, `ab` the first call sees the `None`, returns `a` and puts an `a`
back; the second call goes on behind the `None` and returns a token `ab` that lies on both sides of it. -/
theorem c51_across_none :
    BuildsTo seeds0 parse0 (tagged [ra, .concat [ra, ra, ra], .concat [ra, rb]]) (.ok (gapTok, [])) ∧ Gives gap 0 [97, 97] ∧
    (gapTok.calls id 2 (It.start [97, 97])).1 = [.token (0, [97]), .token (0, [97])] ∧
    ∃ it, gapTok.ReturnsAll id gap ⟨[], 0⟩ [.token (0, [97]), .token (2, [97, 98])] it := by
  refine ⟨⟨50, rfl⟩, ?_, rfl, ⟨_, .cons _ _ _ _ _ ⟨9, rfl⟩ (.cons _ _ _ _ _ ⟨9, rfl⟩ (.nil _))⟩⟩
  intro k hk
  have : k = 0 ∨ k = 1 ∨ k = 2 := by simp at hk; omega
  rcases this with rfl | rfl | rfl <;> rfl

/-- The hypothesis of `c51_list` can be met where the source goes on after `None`. -/
example : Gives blinking 0 [97] := by
  intro k hk
  have : k = 0 ∨ k = 1 := by simp at hk; omega
  rcases this with rfl | rfl <;> rfl

/-- An endless row of `a`s and the pattern `a+`: the call hangs. -/
example (t : Tokenizer Nat (Nat × List Nat)) (ws : List (Nat × Nat)) (hc : Calm seeds0 parse0 (tagged [.rep .oneOrMore ra]))
    (hb : BuildsTo seeds0 parse0 (tagged [.rep .oneOrMore ra]) (.ok (t, ws))) :
    t.Hangs id (fun n : Nat => (some 97, n + 1)) ⟨[], 0⟩ := by
  have hans : ∀ k n, answer (fun n : Nat => (some 97, n + 1)) k n = some 97 := fun k n => rfl
  rw [c51_hangs parse0_ok seeds0_fair hc ?_ (by simp [tagged]) hb]
  · refine ⟨fun k => by rw [hans]; simp, ?_⟩
    intro l hl
    have hl' : ∀ k, k < l.length → l[k]? = some 97 := fun k hk => (hl k hk).symm
    have hrep : l = List.replicate l.length 97 := by
      apply List.ext_getElem? ; intro k
      by_cases hk : k < l.length
      · rw [hl' k hk, List.getElem?_replicate, if_pos hk]
      · rw [List.getElem?_eq_none (by omega), List.getElem?_eq_none (by simp; omega)]
    refine ⟨[97], 0, by simp [IsChar], (c41_contains_language parse0_ok seeds0_fair hb 0 _).1 ?_⟩
    refine ⟨_, .rep .oneOrMore ra, rfl, rfl, ?_⟩
    refine ⟨l.length + 1, by simp [RepKind.allows], ?_⟩
    have : ∀ n, Pow (Lang ra) (n + 1) (List.replicate n 97 ++ [97]) := by
      intro n
      induction n with
      | zero => exact ⟨[97], [], rfl, by simp [Lang], rfl⟩
      | succ n ih => exact ⟨[97], _, rfl, by simp [Lang], ih⟩
    have h2 := this l.length
    rw [← hrep] at h2
    simpa using h2
  · intro p hp h hh
    simp [tagged] at hp
    subst hp
    unfold parse0 at hh
    split at hh
    · cases hh; decide
    · cases hh

end Verif.Tok
