import Verif.Par.StmtCover
import Verif.Props.ParMachine
import Verif.Props.ParGiveUp

/-!
# Lists of statements with recovery, on all inputs: C62
-/

namespace Verif.Par

variable {N T E : Type}

theorem Stmts.gram_ok (S : Stmts N T E) : (gram S.rules 0).Ok := by
  intro r hr
  simp only [gram, Stmts.rules, List.map_append, List.map_cons, List.map_nil, List.map_map, List.mem_append, List.mem_cons,
    List.mem_map, List.not_mem_nil, or_false, List.cons_append] at hr
  rcases hr with rfl | rfl | ⟨b, _, rfl⟩ | rfl <;> intro h <;> simp [Rule.plain] at h

/-- C62: what `parse` does with a list of statements, for any input.  The input falls into segments, each up to a separator.  A segment
whose first token cannot begin a statement is read together with the segment before.  The chunks one gets in this way are evaluated one
by one, from left to right: the callback of the statement, if the chunk is one segment and is correct, otherwise the callback of
`I → error ;`, and then the callback of the list.  Nothing else is called. -/
theorem c62_statements (o : Seeds) (ho : o.Fair) (S : Stmts N T E) (hS : S.Ok) (p : Parser N T E) (ws : List Warning)
    (hp : MakesParser o S.rules 0 p ws) (idx : T → Nat) (input : List T) (cs : List (Chunk T)) (rest : List T)
    (hc : S.Chunked idx input cs rest) (l : List (Call N T)) (r : Except E (Option N)) (he : S.Eval idx none (S.kept idx cs rest) l r) :
    ∃ c, ParsesTo idx p input (Stmts.result rest r) c ∧ c.log.reverse = l := by
  obtain ⟨fresh, hu, hout⟩ := c42_outcomes o ho S.rules 0 S.gram_ok p ws hp
  have hf : fresh ≠ 0 ∧ fresh ≠ 1 := by
    constructor
    · rintro rfl
      exact hu ⟨_, List.mem_map.2 ⟨⟨0, [.nt 0, .nt 1], S.more⟩, by simp [Stmts.rules], rfl⟩, .inl rfl⟩
    · rintro rfl
      exact hu ⟨_, List.mem_map.2 ⟨⟨0, [.nt 0, .nt 1], S.more⟩, by simp [Stmts.rules], rfl⟩, .inr (by simp [Rule.plain])⟩
  suffices h : S.Ends fresh idx input Mach.init (Stmts.result rest r) l by
    obtain ⟨n, m, h1, h2⟩ := h
    obtain ⟨c, h3, h4, -⟩ := ((hout idx input).1 _ _ _).2 ⟨n, m, h1, h2, rfl⟩
    exact ⟨c, h3, h4⟩
  have h0 : S.St (Mach.init : Mach N T) (listP 0 none) 0 [] := ⟨rfl, rfl, rfl, fun r hr => absurd hr id⟩
  have htext := hc.text
  have hlen : ∀ k, input[(cs.flatMap Chunk.text).length + k]? = rest[k]? := by
    intro k
    rw [htext, List.getElem?_append_right (by omega)]
    congr 1
    omega
  have hall : (∀ t, rest.head? = some t → S.Starts idx t) → S.kept idx cs rest = cs → S.Ends fresh idx input Mach.init (Stmts.result rest r) l := by
    intro hz hk
    rw [hk] at he
    have hrun := S.chunksRun hf hS he 0 0 [] Mach.init rest h0 (by simpa using htext) hc.seps hc.joined hc.apart (.inr hz)
    simp only [List.nil_append, Nat.zero_add] at hrun
    cases r with
    | error x => exact hrun.2 x rfl
    | ok v =>
      obtain ⟨i', hi⟩ := hrun.1 v rfl
      refine hi.ends fun m' h' => ?_
      cases rest with
      | nil =>
        have := S.finish (idx := idx) (input := input) hf h' (by simpa using hlen 0)
        cases v <;> exact this
      | cons t rest =>
        have hd : input.drop (cs.flatMap Chunk.text).length = t :: rest := by rw [htext]; simp
        have := S.lostRest hf h' hd hc.rest (by simp)
        cases v <;> exact this
  cases rest with
  | nil => exact hall (by simp) rfl
  | cons t rest =>
    by_cases ht : S.Starts idx t
    · exact hall (by simpa using ht) (by simp [Stmts.kept, ht])
    · rcases List.eq_nil_or_concat cs with rfl | ⟨cs, c, rfl⟩
      · simp only [Stmts.kept, if_neg ht, List.dropLast_nil] at he
        cases he
        have hd : input.drop 0 = t :: rest := by rw [htext]; simp
        exact S.lostRest hf h0 hd hc.rest (by simp)
      · simp only [Stmts.kept, if_neg ht, List.concat_eq_append, List.dropLast_concat] at he
        simp only [List.concat_eq_append] at *
        have hrun := S.chunksRun (input := input) hf hS he 0 0 [] Mach.init (c.text ++ t :: rest) h0 (by rw [htext]; simp)
          (fun c' hc' => hc.seps c' (by simp [hc'])) (fun c' hc' => hc.joined c' (by simp [hc'])) (fun c' hc' => hc.apart c' (by
            cases cs with
            | nil => cases hc'
            | cons => simp at hc' ⊢; exact .inl hc')) (by
            cases cs with
            | nil => exact .inl rfl
            | cons c0 cs =>
              right
              intro t' ht'
              refine hc.apart c (by simp) t' ?_
              obtain ⟨⟨toks, semi⟩, tail⟩ := c
              cases toks <;> simpa [Chunk.text, textOf] using ht')
        simp only [List.nil_append, Nat.zero_add] at hrun
        cases r with
        | error x => exact hrun.2 x rfl
        | ok v =>
          obtain ⟨i', hi⟩ := hrun.1 v rfl
          refine hi.ends fun m' h' => ?_
          have hd : input.drop (cs.flatMap Chunk.text).length = c.text ++ t :: rest := by rw [htext]; simp
          have := S.lostChunk hf hS h' hd (hc.seps c (by simp)) (hc.joined c (by simp)) hc.rest ht
          cases v <;> exact this

/-- Every input falls into chunks, in exactly one way, and every list of chunks has an evaluation: C62 says what happens on every
input. -/
theorem c62_covers (S : Stmts N T E) (idx : T → Nat) (input : List T) :
    ∃ cs rest, S.Chunked idx input cs rest ∧ (∀ cs' rest', S.Chunked idx input cs' rest' → cs' = cs ∧ rest' = rest) ∧
      ∃ l r, S.Eval idx none (S.kept idx cs rest) l r := by
  obtain ⟨cs, rest, h⟩ := S.chunked_exists idx input
  exact ⟨cs, rest, h, fun cs' rest' h' => h'.unique h, S.eval_exists idx none _⟩

/-- No callback fails. -/
def Stmts.NoFail (S : Stmts N T E) : Prop :=
  (∀ b ∈ S.bodies, ∀ a x, b.2 a ≠ .error x) ∧ (∀ a x, S.more a ≠ .error x) ∧ (∀ a x, S.first a ≠ .error x) ∧ ∀ a x, S.bad a ≠ .error x

theorem Stmts.NoFail.item {S : Stmts N T E} (h : S.NoFail) {idx : T → Nat} {c : Chunk T} {k : Call N T} {gen : List (Arg N T) → Except E N}
    (hk : S.ItemCall idx c k gen) (a : List (Arg N T)) (x : E) : gen a ≠ .error x := by
  cases hk with
  | stmt s j b h1 => exact h.1 b (List.mem_of_getElem? h1) a x
  | bad => exact h.2.2.2 a x

theorem Stmts.NoFail.list {S : Stmts N T E} (h : S.NoFail) (i : N) (v : Option N) (a : List (Arg N T)) (x : E) : (S.listCall i v).2 a ≠ .error x := by
  cases v with
  | none => exact h.2.2.1 a x
  | some v => exact h.2.1 a x

theorem Stmts.NoFail.eval {S : Stmts N T E} (h : S.NoFail) {idx : T → Nat} {v : Option N} {cs : List (Chunk T)} {l : List (Call N T)}
    {r : Except E (Option N)} (he : S.Eval idx v cs l r) :
    (∃ v', r = .ok v' ∧ (v'.isSome ↔ v.isSome ∨ cs ≠ [])) ∧ ∀ c ∈ cs, ∃ k gen, S.ItemCall idx c k gen ∧ k ∈ l := by
  induction he with
  | nil v => exact ⟨⟨v, rfl, by simp⟩, by simp⟩
  | item v c cs k gen x hk hx => exact absurd hx (h.item hk _ _)
  | list v c cs k gen w x hk hw hx => exact absurd hx (h.list w v _ _)
  | cons v c cs k gen w v1 l r hk hw hv he ih =>
    obtain ⟨⟨v', h1, h2⟩, h3⟩ := ih
    refine ⟨⟨v', h1, by simp at h2 ⊢; exact h2⟩, ?_⟩
    intro c' hc'
    rcases List.mem_cons.1 hc' with rfl | hc'
    · exact ⟨k, gen, hk, by simp⟩
    · obtain ⟨k', gen', h4, h5⟩ := h3 c' hc'
      exact ⟨k', gen', h4, by simp [h5]⟩

/-- If no callback fails, then `parse` succeeds exactly on the inputs that end with a separator; otherwise it returns
`RecoveryRuleNotFound`.  It never runs for ever and never panics. -/
theorem c62_total (o : Seeds) (ho : o.Fair) (S : Stmts N T E) (hS : S.Ok) (hn : S.NoFail) (p : Parser N T E) (ws : List Warning)
    (hp : MakesParser o S.rules 0 p ws) (idx : T → Nat) (input : List T) :
    ((∃ t, input.getLast? = some t ∧ idx t = S.sync) → ∃ v c, ParsesTo idx p input (.ok v) c) ∧
    ((∀ t, input.getLast? = some t → idx t ≠ S.sync) → ∃ c, ParsesTo idx p input (.error .noRecovery) c) := by
  obtain ⟨cs, rest, hc, -, l, r, he⟩ := c62_covers S idx input
  obtain ⟨c, h1, h2⟩ := c62_statements o ho S hS p ws hp idx input cs rest hc l r he
  obtain ⟨⟨v, rfl, hv⟩, -⟩ := hn.eval he
  have hlast : ∀ (cs : List (Chunk T)) (c : Chunk T), (∀ s ∈ c.1 :: c.2, idx s.2 = S.sync) →
      ∃ t, ((cs ++ [c]).flatMap Chunk.text).getLast? = some t ∧ idx t = S.sync := by
    intro cs c hs
    obtain ⟨s0, tail⟩ := c
    rcases List.eq_nil_or_concat (s0 :: tail) with e | ⟨l, s, e⟩
    · cases e
    · refine ⟨s.2, ?_, hs s (by rw [e]; simp)⟩
      simp [Chunk.text, e, textOf, List.getLast?_append]
  constructor
  · rintro ⟨t, ht, hts⟩
    cases rest with
    | cons t' rest =>
      rw [hc.text, List.getLast?_append] at ht
      obtain ⟨u, hu⟩ : ∃ u, (t' :: rest).getLast? = some u := by
        cases h : (t' :: rest).getLast? with
        | none => simp at h
        | some u => exact ⟨u, rfl⟩
      rw [hu] at ht
      simp at ht
      subst ht
      exact absurd hts (hc.rest u (List.mem_of_getLast? hu))
    | nil =>
      cases cs with
      | nil => rw [hc.text] at ht; simp at ht
      | cons c0 cs =>
        cases v with
        | none => simp [Stmts.kept] at hv
        | some v => exact ⟨v, c, h1⟩
  · intro ht
    cases rest with
    | cons t' rest =>
      refine ⟨c, ?_⟩
      cases v <;> exact h1
    | nil =>
      rcases List.eq_nil_or_concat cs with rfl | ⟨cs, c0, rfl⟩
      · cases v with
        | none => exact ⟨c, h1⟩
        | some v => simp [Stmts.kept] at hv
      · simp only [List.concat_eq_append] at *
        obtain ⟨t, h3, h4⟩ := hlast cs c0 (fun s hs => (hc.seps c0 (by simp) s hs).1)
        refine absurd h4 (ht t ?_)
        rw [hc.text, List.append_nil]
        exact h3

/-- A correct statement is kept if what stands behind it can begin a statement or if nothing stands behind it, whatever else is in the
input: its callback gets exactly its tokens. -/
theorem c62_kept (o : Seeds) (ho : o.Fair) (S : Stmts N T E) (hS : S.Ok) (hn : S.NoFail) (p : Parser N T E) (ws : List Warning)
    (hp : MakesParser o S.rules 0 p ws) (idx : T → Nat) (x y body : List T) (semi : T)
    (hx : ∀ t, x.getLast? = some t → idx t = S.sync) (hbody : ∃ b ∈ S.bodies, b.1 = body.map idx) (hsemi : idx semi = S.sync)
    (hy : ∀ t, y.head? = some t → S.Starts idx t) (r : Except (PErr E) N) (c : Cfg N T) (h : ParsesTo idx p (x ++ body ++ [semi] ++ y) r c) :
    ∃ j b, S.bodies[j]? = some b ∧ b.1 = body.map idx ∧ (j + 2, (body ++ [semi]).map .tok) ∈ c.log := by
  obtain ⟨cx, rx, hcx⟩ := S.chunked_exists idx x
  obtain ⟨cy, ry, hcy⟩ := S.chunked_exists idx y
  have hrx : rx = [] := by
    cases hl : rx.getLast? with
    | none => simpa using hl
    | some t =>
      have : x.getLast? = some t := by rw [hcx.text, List.getLast?_append, hl]; rfl
      exact absurd (hx t this) (hcx.rest t (List.mem_of_getLast? hl))
  subst hrx
  obtain ⟨b, hb1, hb2⟩ := hbody
  have hns : ∀ t ∈ body, idx t ≠ S.sync := by
    intro t ht e
    refine hS b hb1 ?_
    rw [hb2, ← e]
    exact List.mem_map_of_mem ht
  have hcs : S.Chunked idx (body ++ [semi]) [((body, semi), [])] [] := by
    refine ⟨by simp [Chunk.text, textOf], by simp, ?_, by simp, by simp⟩
    simpa using ⟨hsemi, hns⟩
  have hst : ∀ t, (body ++ [semi]).head? = some t → S.Starts idx t := by
    intro t ht
    refine ⟨b, hb1, ?_⟩
    rw [hb2]
    cases body with
    | nil => simp at ht; subst ht; simp [hsemi]
    | cons t' body => simp at ht; subst ht; simp
  have hc := (hcx.append hcs hst).append hcy hy
  rw [← List.append_assoc] at hc
  obtain ⟨l, r', he⟩ := S.eval_exists idx none (S.kept idx (cx ++ [((body, semi), [])] ++ cy) ry)
  obtain ⟨c', h1, h2⟩ := c62_statements o ho S hS p ws hp idx _ _ _ hc l r' he
  obtain ⟨-, rfl⟩ := h.unique h1
  have hmem : ((body, semi), []) ∈ S.kept idx (cx ++ [((body, semi), [])] ++ cy) ry := by
    cases ry with
    | nil => simp [Stmts.kept]
    | cons t ry =>
      simp only [Stmts.kept]
      split
      · simp
      · rename_i hnt
        rcases List.eq_nil_or_concat cy with rfl | ⟨cy, c0, rfl⟩
        · refine absurd (hy t ?_) hnt
          rw [hcy.text]; simp
        · simp only [List.concat_eq_append]
          rw [← List.append_assoc, List.dropLast_concat]
          simp
  obtain ⟨k, gen, hk, hkl⟩ := (hn.eval he).2 _ hmem
  generalize hcc : (((body, semi), []) : Chunk T) = ch at hk
  cases hk with
  | stmt s j b' h3 h4 h5 =>
    cases hcc
    refine ⟨j, b', h3, h4, ?_⟩
    rw [← h2] at hkl
    simpa using hkl
  | bad _ hno =>
    subst hcc
    exact absurd hb2 (hno rfl b hb1)

/-- A correct statement is lost if what stands behind it cannot begin a statement: on `body ; t … ;`, for any `body`, the only statement
is an error with the slice `body ; t …`. -/
theorem c62_lost (o : Seeds) (ho : o.Fair) (S : Stmts N T E) (hS : S.Ok) (hn : S.NoFail) (p : Parser N T E) (ws : List Warning)
    (hp : MakesParser o S.rules 0 p ws) (idx : T → Nat) (body : List T) (semi : T) (t : T) (y : List T) (semi' : T)
    (hbody : ∀ t ∈ body, idx t ≠ S.sync) (hsemi : idx semi = S.sync) (ht : ¬ S.Starts idx t)
    (hy : ∀ u ∈ t :: y, idx u ≠ S.sync) (hsemi' : idx semi' = S.sync) :
    ∃ i v c, ParsesTo idx p (body ++ [semi] ++ t :: y ++ [semi']) (.ok v) c ∧
      c.log.reverse = [(S.badRule, [.err (body ++ [semi] ++ t :: y), .tok semi']), (1, [.nt i])] := by
  have hc : S.Chunked idx (body ++ [semi] ++ t :: y ++ [semi']) [((body, semi), [(t :: y, semi')])] [] := by
    refine ⟨by simp [Chunk.text, textOf], by simp, ?_, ?_, by simp⟩
    · intro c hc s hs
      simp at hc
      subst hc
      simp at hs
      rcases hs with rfl | rfl
      · exact ⟨hsemi, hbody⟩
      · exact ⟨hsemi', hy⟩
    · intro c hc s hs u hu
      simp at hc
      subst hc
      simp at hs
      subst hs
      simp at hu
      subst hu
      exact ht
  have hk : S.ItemCall idx ((body, semi), [(t :: y, semi')]) _ _ := .bad _ (by simp)
  have hbl : S.blame idx ((body, semi), [(t :: y, semi')]) = body ++ [semi] ++ t :: y := by
    have : S.wide idx ((body, semi), [(t :: y, semi')]) = false := by rcases body with _ | ⟨_, _ | _⟩ <;> rfl
    simp only [Stmts.blame, this, Bool.false_eq_true, if_false]
    have : Chunk.text ((body, semi), [(t :: y, semi')]) = body ++ [semi] ++ t :: y ++ [semi'] := by simp [Chunk.text, textOf]
    rw [this, List.dropLast_concat]
  rw [hbl] at hk
  cases hb : S.bad [.err (body ++ [semi] ++ t :: y), .tok semi'] with
  | error x => exact absurd hb (hn.2.2.2 _ _)
  | ok i =>
    cases hv : S.first [.nt i] with
    | error x => exact absurd hv (hn.2.2.1 _ _)
    | ok v =>
      obtain ⟨c, h1, h2⟩ := c62_statements o ho S hS p ws hp idx _ _ _ hc _ _ (.cons none _ [] _ _ i v [] _ hk hb hv (.nil _))
      exact ⟨i, v, c, h1, h2⟩

/-! ## Examples -/

/-- `a ;` -/
def sList : Stmts Nat Nat Nat := ⟨[([0], fun a => .ok a.length)], 1, fun a => .ok a.length, fun a => .ok a.length, fun a => .ok a.length⟩

example : sList.rules = plainRules gList := rfl

theorem sList_ok : sList.Ok ∧ sList.NoFail ∧ MakesParser idSeeds sList.rules 0 pList [] :=
  ⟨by unfold Stmts.Ok; decide, by simp [Stmts.NoFail, sList], pList_makes⟩

/-- `a ; a a ; b b ; a ; ; a ;`: the second and the third segment are one chunk, the fourth and the fifth are one chunk, whose error slice
is `a ; ;`, with both separators, since `;` cannot begin a statement.  The correct fourth segment is lost. -/
theorem c62_example : ∃ c, ParsesTo id pList [0, 1, 0, 0, 1, 2, 2, 1, 0, 1, 1, 0, 1] (.ok 2) c ∧ c.log.reverse =
    [(2, [.tok 0, .tok 1]), (1, [.nt 2]), (3, [.err [0, 0, 1, 2, 2], .tok 1]), (0, [.nt 1, .nt 2]),
      (3, [.err [0, 1, 1], .tok 1]), (0, [.nt 2, .nt 2]), (2, [.tok 0, .tok 1]), (0, [.nt 2, .nt 2])] := by
  have hc : sList.Chunked id [0, 1, 0, 0, 1, 2, 2, 1, 0, 1, 1, 0, 1]
      [(([0], 1), []), (([0, 0], 1), [([2, 2], 1)]), (([0], 1), [([], 1)]), (([0], 1), [])] [] := by
    refine ⟨rfl, by simp, by decide, ?_, ?_⟩
    · intro c hc s hs t ht
      simp at hc
      rcases hc with rfl | rfl | rfl | rfl <;> simp at hs <;> subst hs <;> simp at ht <;> subst ht <;> decide
    · intro c hc t ht
      simp at hc
      rcases hc with rfl | rfl | rfl | rfl <;> simp at ht <;> subst ht <;> decide
  have hgood : sList.ItemCall id (([0], 1), []) (2, [.tok 0, .tok 1]) (fun a => .ok a.length) :=
    .stmt ([0], 1) 0 ([0], fun a => .ok a.length) rfl rfl (by simp)
  have h1 : sList.ItemCall id (([0, 0], 1), [([2, 2], 1)]) (3, [.err [0, 0, 1, 2, 2], .tok 1]) (fun a => .ok a.length) := .bad _ (by simp)
  have h2 : sList.ItemCall id (([0], 1), [([], 1)]) (3, [.err [0, 1, 1], .tok 1]) (fun a => .ok a.length) := .bad _ (by simp)
  exact c62_statements idSeeds idSeeds_fair sList sList_ok.1 pList [] sList_ok.2.2 id _ _ _ hc _ _
    (.cons none _ _ _ _ 2 1 _ _ hgood rfl rfl (.cons (some 1) _ _ _ _ 2 2 _ _ h1 rfl rfl (.cons (some 2) _ _ _ _ 2 2 _ _ h2 rfl rfl
      (.cons (some 2) _ _ _ _ 2 2 _ _ hgood rfl rfl (.nil _)))))

/-- The program itself, run on this input. -/
example : ∃ c, ParsesTo id pList [0, 1, 0, 0, 1, 2, 2, 1, 0, 1, 1, 0, 1] (.ok 2) c ∧ c.log.reverse =
    [(2, [.tok 0, .tok 1]), (1, [.nt 2]), (3, [.err [0, 0, 1, 2, 2], .tok 1]), (0, [.nt 1, .nt 2]),
      (3, [.err [0, 1, 1], .tok 1]), (0, [.nt 2, .nt 2]), (2, [.tok 0, .tok 1]), (0, [.nt 2, .nt 2])] := ⟨_, ⟨60, rfl⟩, rfl⟩

/-- `a ; b ;`: the correct statement is lost. -/
example : ∃ i v c, ParsesTo id pList [0, 1, 2, 1] (.ok v) c ∧ c.log.reverse = [(3, [.err [0, 1, 2], .tok 1]), (1, [.nt i])] :=
  c62_lost idSeeds idSeeds_fair sList sList_ok.1 sList_ok.2.1 pList [] sList_ok.2.2 id [0] 1 2 [] 1 (by decide) rfl (by decide) (by decide) rfl

/-- `b ; a ; a b`: the statement in the middle is kept, although `parse` gives up. -/
example (r : Except (PErr Nat) Nat) (c : Cfg Nat Nat) (h : ParsesTo id pList ([2, 1] ++ [0] ++ [1] ++ [0, 2]) r c) :
    ∃ j b, sList.bodies[j]? = some b ∧ b.1 = [0].map id ∧ (j + 2, ([0] ++ [1]).map .tok) ∈ c.log :=
  c62_kept idSeeds idSeeds_fair sList sList_ok.1 sList_ok.2.1 pList [] sList_ok.2.2 id [2, 1] [0, 2] [0] 1 (by simp [sList])
    ⟨_, List.mem_cons_self, rfl⟩ rfl (by intro t ht; cases ht; decide) r c h

example : ∃ v c, ParsesTo id pList [1, 1, 2, 0, 1] (.ok v) c :=
  (c62_total idSeeds idSeeds_fair sList sList_ok.1 sList_ok.2.1 pList [] sList_ok.2.2 id _).1 ⟨1, rfl, rfl⟩

end Verif.Par
