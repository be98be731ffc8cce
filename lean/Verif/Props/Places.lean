import Verif.Props.Layout
import Verif.Props.ParDamageStm

/-!
# Property C93: places of errors in the text
-/

namespace Verif.Par

open Verif.Tok (PatCode Tokens NoToken)

variable {N T E α π ρ : Type} {parse : π → Except ρ Tok.Hir} {ts : Tok.Seeds} {t : Tok.Tokenizer α (Option T)}
  {ps : List (π × (List Nat → List α → Option T))} {tws : List (Nat × Nat)}

/-! ## Specification -/

/-- The text `b`, which stands behind `a` in the text `a ++ b ++ z`, is covered by tokens of this text: the tokens `l` and tokens that are dropped in between. -/
def StandsFor (L : Nat → List Nat → Prop) (ps : List (π × (List Nat → List α → Option T))) (map : α → Nat) (a b z : List α) (l : List T) : Prop :=
  ∃ es1 mid, Tokens L ps map (a ++ b ++ z) es1 (b ++ z) ∧ Tokens L ps map (b ++ z) mid z ∧ mid.filterMap id = l ∧
    (∃ x, mid.head? = some (some x)) ∧ ∃ y, mid.getLast? = some (some y)

/-! ## Lemmas -/

theorem middle_some {es : List (Option T)} {u l w : List T} (h : es.filterMap id = u ++ l ++ w) (hl : l ≠ []) :
    ∃ es1 mid es3, es = es1 ++ mid ++ es3 ∧ mid.filterMap id = l ∧ (∃ x, mid.head? = some (some x)) ∧ ∃ y, mid.getLast? = some (some y) := by
  obtain ⟨x, l', rfl⟩ : ∃ x l', l = x :: l' := by
    cases l with
    | nil => exact absurd rfl hl
    | cons x l' => exact ⟨x, l', rfl⟩
  rw [List.append_assoc, List.filterMap_eq_append_iff] at h
  obtain ⟨e1, e2, rfl, _, h⟩ := h
  rw [List.cons_append, List.filterMap_eq_cons_iff] at h
  obtain ⟨n, a, e3, rfl, _, h2, h3⟩ := h
  cases a with
  | none => cases h2
  | some a =>
    cases h2
    rcases List.eq_nil_or_concat l' with rfl | ⟨d, y, hd⟩
    · exact ⟨e1 ++ n, [some x], e3, by simp, rfl, ⟨x, rfl⟩, ⟨x, rfl⟩⟩
    · rw [List.concat_eq_append] at hd
      subst hd
      rw [show d ++ [y] ++ w = d ++ (y :: w) by simp, List.filterMap_eq_append_iff] at h3
      obtain ⟨f1, f2, rfl, k1, k2⟩ := h3
      rw [List.filterMap_eq_cons_iff] at k2
      obtain ⟨n2, b, f3, rfl, k3, k4, k5⟩ := k2
      cases b with
      | none => cases k4
      | some b =>
        cases k4
        have hn2 : n2.filterMap id = [] := by rw [List.filterMap_eq_nil_iff]; exact k3
        refine ⟨e1 ++ n, some x :: (f1 ++ n2 ++ [some y]), f3, by simp, ?_, ⟨x, rfl⟩, ⟨y, ?_⟩⟩
        · simp [List.filterMap_append, k1, hn2]
        · rw [← List.cons_append, List.getLast?_concat]

theorem stands_for {L : Nat → List Nat → Prop} {map : α → Nat} {text rest : List α} {es : List (Option T)} (h : Tokens L ps map text es rest) {u l w : List T}
    (he : es.filterMap id = u ++ l ++ w) (hl : l ≠ []) : ∃ a b z, text = a ++ b ++ z ∧ StandsFor L ps map a b z l := by
  obtain ⟨es1, mid, es3, rfl, h1, h2, h3⟩ := middle_some he hl
  obtain ⟨z, g1, _⟩ := h.split
  obtain ⟨m, g2, g3⟩ := g1.split
  obtain ⟨b, rfl⟩ := g3.suffix
  obtain ⟨a, rfl⟩ := g2.suffix
  rw [← List.append_assoc] at g2
  exact ⟨a, b, z, by simp, es1, mid, g2, g3, h1, h2, h3⟩

/-! ## C93 -/

/-- C93: every error slice that a callback gets stands for a part of the text. -/
theorem c93_error_text (hparse : Tok.ParserOk parse) (hs : ts.Fair) (hc : Tok.Calm ts parse ps) (hb : Tok.BuildsTo ts parse ps (.ok (t, tws)))
    (map : α → Nat) (h0 : ∀ k, ¬ PatCode parse ps k []) (text : List α)
    (o : Seeds) (ho : o.Fair) (rules : List (Rule N T E)) (start : Nat) (hok : (gram rules start).Ok)
    (p : Parser N T E) (ws : List Warning) (hm : MakesParser o rules start p ws) (idx : T → Nat) (f : Source (Tok.It α) T) (hf : Flattens (tokSource t map) f)
    (x : Except (PErr E) N) (c : Cfg N T) (it : Tok.It α) (h : ParsesFrom idx f p (Tok.It.start text) x c it) (r : Nat) (args : List (Arg N T)) (l : List T)
    (hlog : (r, args) ∈ c.log) (hl : .err l ∈ args) :
    ∃ a b z, text = a ++ b ++ z ∧ StandsFor (PatCode parse ps) ps map a b z l := by
  obtain ⟨es, rest, h1, h2⟩ := Tok.tokens_exist (map := map) hparse hs hc hb h0 text
  obtain ⟨_, c0, ⟨n, k1⟩, k2, _⟩ := (c47_flatten hparse hs hc hb o ho rules start hok p ws hm idx map text es rest h1 h2 f hf).1 x c it h
  rw [← k2] at hlog
  obtain ⟨g1, before, after, g2⟩ := c33_error_slices o ho rules start hok p ws hm idx (es.filterMap id) n c0 (.inr ⟨x, k1⟩) r args l hlog hl
  exact stands_for h1 g2 g1

/-- The first and the last token of a part of the text, with their items. -/
theorem StandsFor.ends {L : Nat → List Nat → Prop} {map : α → Nat} {a b z : List α} {l : List T} (h0 : ∀ k, ¬ L k []) (h : StandsFor L ps map a b z l) :
    (∃ es, Tokens L ps map b es [] ∧ es.filterMap id = l) ∧
    (∃ x, ∃ k : Nat, ∃ p : π × (List Nat → List α → Option T), ∃ w w', l.head? = some x ∧ ps[k]? = some p ∧ w ≠ [] ∧ b = w ++ w' ∧ p.2 (w.map map) w = some x) ∧
    ∃ y, ∃ k : Nat, ∃ p : π × (List Nat → List α → Option T), ∃ w w', l.getLast? = some y ∧ ps[k]? = some p ∧ w ≠ [] ∧ b = w' ++ w ∧ p.2 (w.map map) w = some y := by
  obtain ⟨es1, mid, _, h2, h3, ⟨x, h4⟩, ⟨y, h5⟩⟩ := h
  refine ⟨⟨mid, h2.cut (y := []) rfl rfl, h3⟩, ?_, ?_⟩
  · obtain ⟨m', rfl⟩ : ∃ m', mid = some x :: m' := by
      cases mid with
      | nil => cases h4
      | cons q m' => cases h4; exact ⟨m', rfl⟩
    have g := h2.cut (x := b) (y := []) rfl rfl
    generalize hq : some x :: m' = q at g
    cases g with
    | nil => cases hq
    | cons _ n k p es _ a1 a2 a3 =>
      simp only [List.cons.injEq] at hq
      refine ⟨x, k, p, b.take n, b.drop n, by rw [← h3]; rfl, a2, ?_, (List.take_append_drop n b).symm, hq.1.symm⟩
      intro he
      refine h0 k ?_
      have := a1.2.1
      rwa [he] at this
  · obtain ⟨m', rfl⟩ : ∃ m', mid = m' ++ [some y] := by
      rcases List.eq_nil_or_concat mid with rfl | ⟨m', q, hq⟩
      · cases h5
      · rw [List.concat_eq_append] at hq
        subst hq
        rw [List.getLast?_concat] at h5
        cases h5
        exact ⟨m', rfl⟩
    have g := h2.cut (x := b) (y := []) rfl rfl
    obtain ⟨r, g1, g2⟩ := g.split
    obtain ⟨w', hw'⟩ := g1.suffix
    generalize hq : [some y] = q at g2
    generalize hr : ([] : List α) = r' at g2
    cases g2 with
    | nil => cases hq
    | cons _ n k p es _ a1 a2 a3 =>
      simp only [List.cons.injEq] at hq
      obtain ⟨hq1, rfl⟩ := hq
      subst hr
      have hd : r.drop n = [] := by
        generalize r.drop n = r1 at a3
        cases a3
        rfl
      have hr : r.take n = r := by
        have := List.take_append_drop n r
        rwa [hd, List.append_nil] at this
      rw [hr] at hq1
      refine ⟨y, k, p, r, w', ?_, a2, ?_, hw', hq1.symm⟩
      · rw [← h3, List.filterMap_append]
        show (_ ++ [y]).getLast? = _
        rw [List.getLast?_concat]
      · rintro rfl
        exact h0 k (by simpa using a1.2.1)

/-- C93: if the items are characters with their places, and tokens know the place of their first and behind their last character, then an error slice is
located: the text from the begin of its first to the end of its last token, read alone, has exactly these tokens. -/
theorem c93_places {β : Type} {t : Tok.Tokenizer (β × Nat) (Option T)} {ps : List (π × (List Nat → List (β × Nat) → Option T))}
    (hparse : Tok.ParserOk parse) (hs : ts.Fair) (hc : Tok.Calm ts parse ps) (hb : Tok.BuildsTo ts parse ps (.ok (t, tws)))
    (map : β × Nat → Nat) (h0 : ∀ k, ¬ PatCode parse ps k []) (text : List β) (place : T → Nat × Nat)
    (hplace : ∀ p ∈ ps, ∀ (cs : List Nat) (w : List (β × Nat)) x, p.2 cs w = some x →
      w.head?.map Prod.snd = some (place x).1 ∧ w.getLast?.map (fun c => c.2 + 1) = some (place x).2)
    (o : Seeds) (ho : o.Fair) (rules : List (Rule N T E)) (start : Nat) (hok : (gram rules start).Ok)
    (p : Parser N T E) (ws : List Warning) (hm : MakesParser o rules start p ws) (idx : T → Nat) (f : Source (Tok.It (β × Nat)) T) (hf : Flattens (tokSource t map) f)
    (x : Except (PErr E) N) (c : Cfg N T) (it : Tok.It (β × Nat)) (h : ParsesFrom idx f p (Tok.It.start text.zipIdx) x c it) (r : Nat) (args : List (Arg N T)) (l : List T)
    (hlog : (r, args) ∈ c.log) (hl : .err l ∈ args) :
    ∃ first last, l.head? = some first ∧ l.getLast? = some last ∧ (place first).1 < (place last).2 ∧ (place last).2 ≤ text.length ∧
      ∃ es, Tokens (PatCode parse ps) ps map ((text.zipIdx.drop (place first).1).take ((place last).2 - (place first).1)) es [] ∧ es.filterMap id = l := by
  obtain ⟨a, b, z, h1, h2⟩ := c93_error_text hparse hs hc hb map h0 text.zipIdx o ho rules start hok p ws hm idx f hf x c it h r args l hlog hl
  obtain ⟨⟨es, g1, g2⟩, ⟨first, k, q, w, w', e1, e2, e3, e4, e5⟩, ⟨last, k', q', v, v', f1, f2, f3, f4, f5⟩⟩ := h2.ends h0
  have hat : ∀ (u : List (β × Nat)) y u', text.zipIdx = u ++ y :: u' → y.2 = u.length := by
    intro u y u' he
    have : text.zipIdx[u.length]? = some y := by rw [he]; simp
    rw [List.getElem?_zipIdx] at this
    simp only [Option.map_eq_some_iff] at this
    obtain ⟨_, _, rfl⟩ := this
    simp
  have hfirst : (place first).1 = a.length := by
    have := (hplace q (List.mem_of_getElem? e2) _ _ _ e5).1
    cases w with
    | nil => exact absurd rfl e3
    | cons y w =>
      simp only [List.head?_cons, Option.map_some, Option.some.injEq] at this
      rw [← this]
      exact hat a y (w ++ w' ++ z) (by rw [h1, e4]; simp)
  have hlast : (place last).2 = a.length + b.length := by
    have := (hplace q' (List.mem_of_getElem? f2) _ _ _ f5).2
    rcases List.eq_nil_or_concat v with rfl | ⟨d, y, hd⟩
    · exact absurd rfl f3
    · rw [List.concat_eq_append] at hd
      subst hd
      simp only [List.getLast?_concat, Option.map_some, Option.some.injEq] at this
      rw [← this, hat (a ++ v' ++ d) y z (by rw [h1, f4]; simp), f4]
      simp
      omega
  have hb0 : 0 < b.length := by
    rw [e4, List.length_append]
    have := List.length_pos_iff.2 e3
    omega
  have hlen : text.length = a.length + b.length + z.length := by
    have := congrArg List.length h1
    simp at this
    omega
  refine ⟨first, last, e1, f1, by omega, by omega, es, ?_, g2⟩
  rw [hfirst, hlast, h1, show a.length + b.length - a.length = b.length by omega, List.append_assoc, List.drop_left' rfl, List.take_left' rfl]
  exact g1

/-- The calls made for a forest: each is for a node below which a contiguous part of the leaves stands. -/
theorem Evals.phrases {rules : List (Rule N T E)} {idx : T → Nat} {input : List T} {fs : List (Tree T)} {lg : List (Call N T)} {as : Except E (List (Arg N T))}
    (h : Evals rules fs lg as) : ∀ {us : List Sym}, Built (rules.map Rule.plain) idx input us fs → ∀ r args, (r, args) ∈ lg →
    ∃ rule cs calls u w, rules[r]? = some rule ∧ Built (rules.map Rule.plain) idx input rule.rhs cs ∧ Evals rules cs calls (.ok args) ∧
      leaves fs = u ++ leaves cs ++ w := by
  induction h with
  | nil => intro us _ r args hm; cases hm
  | leaf i t fs lg as _ ih =>
    intro us hb r args hm
    cases hb with
    | leaf _ _ us _ _ hb =>
      obtain ⟨rule, cs, calls, u, w, h1, h2, h3, h4⟩ := ih hb r args hm
      exact ⟨rule, cs, calls, (Tree.leaf i t).leaves ++ u, w, h1, h2, h3, by rw [leaves, h4]; simp⟩
  | leafE i t fs lg e _ ih =>
    intro us hb r args hm
    cases hb with
    | leaf _ _ us _ _ hb =>
      obtain ⟨rule, cs, calls, u, w, h1, h2, h3, h4⟩ := ih hb r args hm
      exact ⟨rule, cs, calls, (Tree.leaf i t).leaves ++ u, w, h1, h2, h3, by rw [leaves, h4]; simp⟩
  | err lo l fs lg as _ ih =>
    intro us hb r args hm
    cases hb with
    | err _ _ us _ _ _ hb =>
      obtain ⟨rule, cs, calls, u, w, h1, h2, h3, h4⟩ := ih hb r args hm
      exact ⟨rule, cs, calls, (Tree.err lo l).leaves ++ u, w, h1, h2, h3, by rw [leaves, h4]; simp⟩
  | errE lo l fs lg e _ ih =>
    intro us hb r args hm
    cases hb with
    | err _ _ us _ _ _ hb =>
      obtain ⟨rule, cs, calls, u, w, h1, h2, h3, h4⟩ := ih hb r args hm
      exact ⟨rule, cs, calls, (Tree.err lo l).leaves ++ u, w, h1, h2, h3, by rw [leaves, h4]; simp⟩
  | node r0 rule0 cs0 lg1 args0 v fs lg2 as e1 e2 e3 _ ih1 ih2 =>
    intro us hb r args hm
    cases hb with
    | node _ prule _ us _ b1 b2 b3 =>
      rcases List.mem_append.1 hm with hm | hm
      · obtain ⟨rule, cs, calls, u, w, h1, h2, h3, h4⟩ := ih1 b2 r args hm
        exact ⟨rule, cs, calls, u, w ++ leaves fs, h1, h2, h3, by rw [leaves, Tree.leaves, h4]; simp⟩
      · rcases List.mem_cons.1 hm with hm | hm
        · cases hm
          have hr : rule0.rhs = prule.rhs := by
            rw [List.getElem?_map, e1] at b1
            cases b1
            rfl
          exact ⟨rule0, cs0, lg1, [], leaves fs, e1, by rw [hr]; exact b2, e2, by rw [leaves, Tree.leaves]; simp⟩
        · obtain ⟨rule, cs, calls, u, w, h1, h2, h3, h4⟩ := ih2 b3 r args hm
          exact ⟨rule, cs, calls, (Tree.node r0 cs0).leaves ++ u, w, h1, h2, h3, by rw [leaves, h4]; simp⟩
  | nodeE r0 rule0 cs0 lg1 args0 v fs lg2 as e1 e2 e3 _ ih1 ih2 =>
    intro us hb r args hm
    cases hb with
    | node _ prule _ us _ b1 b2 b3 =>
      rcases List.mem_append.1 hm with hm | hm
      · obtain ⟨rule, cs, calls, u, w, h1, h2, h3, h4⟩ := ih1 b2 r args hm
        exact ⟨rule, cs, calls, u, w ++ leaves fs, h1, h2, h3, by rw [leaves, Tree.leaves, h4]; simp⟩
      · rcases List.mem_cons.1 hm with hm | hm
        · cases hm
          have hr : rule0.rhs = prule.rhs := by
            rw [List.getElem?_map, e1] at b1
            cases b1
            rfl
          exact ⟨rule0, cs0, lg1, [], leaves fs, e1, by rw [hr]; exact b2, e2, by rw [leaves, Tree.leaves]; simp⟩
        · obtain ⟨rule, cs, calls, u, w, h1, h2, h3, h4⟩ := ih2 b3 r args hm
          exact ⟨rule, cs, calls, (Tree.node r0 cs0).leaves ++ u, w, h1, h2, h3, by rw [leaves, h4]; simp⟩
  | fail r0 rule0 cs0 lg1 args0 e fs e1 e2 e3 ih1 =>
    intro us hb r args hm
    cases hb with
    | node _ prule _ us _ b1 b2 b3 =>
      rcases List.mem_append.1 hm with hm | hm
      · obtain ⟨rule, cs, calls, u, w, h1, h2, h3, h4⟩ := ih1 b2 r args hm
        exact ⟨rule, cs, calls, u, w ++ leaves fs, h1, h2, h3, by rw [leaves, Tree.leaves, h4]; simp⟩
      · simp only [List.mem_cons, List.not_mem_nil, or_false] at hm
        cases hm
        have hr : rule0.rhs = prule.rhs := by
          rw [List.getElem?_map, e1] at b1
          cases b1
          rfl
        exact ⟨rule0, cs0, lg1, [], leaves fs, e1, by rw [hr]; exact b2, e2, by rw [leaves, Tree.leaves]; simp⟩
  | inner r0 cs0 lg1 e fs _ ih1 =>
    intro us hb r args hm
    cases hb with
    | node _ prule _ us _ b1 b2 b3 =>
      obtain ⟨rule, cs, calls, u, w, h1, h2, h3, h4⟩ := ih1 b2 r args hm
      exact ⟨rule, cs, calls, u, w ++ leaves fs, h1, h2, h3, by rw [leaves, Tree.leaves, h4]; simp⟩

/-- C93: without error rules, in an accepted text every call of a callback is for a phrase that stands for a part of the text (or for no tokens at all). -/
theorem c93_phrases (hparse : Tok.ParserOk parse) (hs : ts.Fair) (hc : Tok.Calm ts parse ps) (hb : Tok.BuildsTo ts parse ps (.ok (t, tws)))
    (map : α → Nat) (h0 : ∀ k, ¬ PatCode parse ps k []) (text : List α)
    (o : Seeds) (ho : o.Fair) (rules : List (Rule N T E)) (start : Nat) (hok : (gram rules start).Ok) (hn : (gram rules start).NoError)
    (p : Parser N T E) (ws : List Warning) (hm : MakesParser o rules start p ws) (idx : T → Nat) (f : Source (Tok.It α) T) (hf : Flattens (tokSource t map) f)
    (v : N) (c : Cfg N T) (it : Tok.It α) (h : ParsesFrom idx f p (Tok.It.start text) (.ok v) c it) (r : Nat) (args : List (Arg N T)) (hlog : (r, args) ∈ c.log) :
    ∃ rule cs calls, rules[r]? = some rule ∧ Evals rules cs calls (.ok args) ∧ Derives (rules.map Rule.plain) rule.rhs ((leaves cs).map fun x => .tm (.sym (idx x.1))) ∧
      (leaves cs = [] ∨ ∃ a b z, text = a ++ b ++ z ∧ StandsFor (PatCode parse ps) ps map a b z ((leaves cs).map Prod.fst)) := by
  obtain ⟨es, rest, h1, h2⟩ := Tok.tokens_exist (map := map) hparse hs hc hb h0 text
  obtain ⟨_, c0, k1, k2, _⟩ := (c47_flatten hparse hs hc hb o ho rules start hok p ws hm idx map text es rest h1 h2 f hf).1 _ c it h
  rw [← k2] at hlog
  obtain ⟨tree, calls, g1, g2, _, _, g5⟩ := c23_sound o ho rules start hok p ws hm idx (es.filterMap id) v c0 k1
  have he : errs [tree] = [] := g1.no_errs (by simp) hn
  obtain ⟨g6, rfl⟩ := g5 he
  obtain ⟨rule, cs, calls, u, w, a1, a2, a3, a4⟩ := g2.phrases g1 r args (by simpa using hlog)
  refine ⟨rule, cs, calls, a1, a3, ?_, ?_⟩
  · have hr : (rule.plain).rhs = rule.rhs := rfl
    have := gen_iff.1 (a2.gen (a2.no_errs (by rw [← hr]; exact hn _ (List.mem_map_of_mem (List.mem_of_getElem? a1))) hn))
    simpa using this
  · by_cases hne : leaves cs = []
    · exact .inl hne
    · right
      rw [g6] at a4
      have := congrArg (List.map Prod.fst) a4
      rw [List.zipIdx_map_fst, List.map_append, List.map_append] at this
      exact stands_for h1 this (by simpa using hne)

/-! ## Example -/

/-- A token: its number, the place of its first character and the place behind its last one. -/
def placeTok (k : Nat) (_ : List Nat) (w : List (Nat × Nat)) : Option (Nat × Nat × Nat) :=
  match w.head?, w.getLast? with
  | some x, some y => some (k, x.2, y.2 + 1)
  | _, _ => none

/-- `(`, `)`, `a` and blanks. -/
def placePats : List (Tok.Hir × (List Nat → List (Nat × Nat) → Option (Nat × Nat × Nat))) :=
  [(.literalU 40, placeTok 0), (.literalU 41, placeTok 1), (Tok.ra, placeTok 2), (.rep .oneOrMore (.classU [(32, 32)]), fun _ _ => none)]

def placeTokenizer : Tok.Tokenizer (Nat × Nat) (Option (Nat × Nat × Nat)) :=
  match Tok.builderBuild 50 Tok.seeds0 Tok.parse0 placePats with
  | some (.ok r) => r.1
  | _ => { dfa := { b := 0, rows := [], ends := [] }, maker := [] }

theorem placeTok_builds : Tok.BuildsTo Tok.seeds0 Tok.parse0 placePats (.ok (placeTokenizer, [])) := ⟨50, rfl⟩

/-- The rules of `gPar` for these tokens. -/
def placeRules : List (Rule Nat (Nat × Nat × Nat) Nat) := gPar.rules.map fun r => ⟨r.lhs, r.rhs, fun l => .ok l.length⟩

def placeParser : Parser Nat (Nat × Nat × Nat) Nat := ⟨placeRules ++ [⟨1, [.nt 0], fun _ => .error 0⟩], pPar.tab⟩

theorem placeParser_makes : MakesParser idSeeds placeRules 0 placeParser [] := ⟨⟨40, by decide +kernel, by simp⟩, _, rfl⟩

/-- The hypotheses of `c93_places` are met: in the text `( a  a a)` the error is located from 2 to 8. -/
example (f : Source (Tok.It (Nat × Nat)) (Nat × Nat × Nat)) (hf : Flattens (tokSource placeTokenizer Prod.fst) f) :
    (∀ k, ¬ PatCode Tok.parse0 placePats k []) ∧
    (∀ p ∈ placePats, ∀ (cs : List Nat) (w : List (Nat × Nat)) x, p.2 cs w = some x →
      w.head?.map Prod.snd = some x.2.1 ∧ w.getLast?.map (fun c => c.2 + 1) = some x.2.2) ∧
    ∃ c it, ParsesFrom Prod.fst f placeParser (Tok.It.start ([40, 32, 97, 32, 32, 97, 32, 97, 41] : List Nat).zipIdx) (.ok 3) c it ∧
      (1, [.tok (0, 0, 1), .err [(2, 2, 3), (2, 5, 6), (2, 7, 8)], .tok (1, 8, 9)]) ∈ c.log := by
  have hnil : ∀ k, ¬ PatCode Tok.parse0 placePats k [] :=
    (Tok.c41_translated_language Tok.parse0_ok Tok.seeds0_fair (fun _ => Iff.rfl) placeTok_builds []).2.1 rfl
  refine ⟨hnil, ?_, ?_⟩
  · intro p hp cs w x h
    have key : ∀ k, placeTok k cs w = some x → w.head?.map Prod.snd = some x.2.1 ∧ w.getLast?.map (fun c => c.2 + 1) = some x.2.2 := by
      intro k h
      unfold placeTok at h
      split at h
      · rename_i a b h1 h2
        cases h
        rw [h1, h2]
        exact ⟨rfl, rfl⟩
      · cases h
    simp only [placePats, List.mem_cons, List.not_mem_nil, or_false] at hp
    rcases hp with rfl | rfl | rfl | rfl
    · exact key _ h
    · exact key _ h
    · exact key _ h
    · cases h
  · obtain ⟨rest, ht, hr⟩ := (Tok.c41_stream Tok.parse0_ok Tok.seeds0_fair (fun _ => Iff.rfl) placeTok_builds Prod.fst
      ([40, 32, 97, 32, 32, 97, 32, 97, 41] : List Nat).zipIdx [some (0, 0, 1), none, some (2, 2, 3), none, some (2, 5, 6), none, some (2, 7, 8), some (1, 8, 9)]).2.1
      ⟨20, _, rfl⟩
    obtain ⟨a1, a2, _, _⟩ := c47_flatten Tok.parse0_ok Tok.seeds0_fair (fun _ => Iff.rfl) placeTok_builds idSeeds idSeeds_fair placeRules 0 (by decide) placeParser []
      placeParser_makes Prod.fst Prod.fst _ _ _ ht hr f hf
    obtain ⟨c0, k1, k2⟩ : ∃ c0, ParsesTo Prod.fst placeParser [(0, 0, 1), (2, 2, 3), (2, 5, 6), (2, 7, 8), (1, 8, 9)] (.ok 3) c0 ∧
        c0.log = [(1, [.tok (0, 0, 1), .err [(2, 2, 3), (2, 5, 6), (2, 7, 8)], .tok (1, 8, 9)])] := ⟨_, ⟨40, rfl⟩, rfl⟩
    obtain ⟨c, it, k3⟩ := a2 _ _ k1
    obtain ⟨_, c1, k4, k5, _⟩ := a1 _ _ _ k3
    obtain ⟨_, rfl⟩ := k1.unique k4
    refine ⟨c, it, k3, ?_⟩
    rw [← k5, k2]
    simp

end Verif.Par
