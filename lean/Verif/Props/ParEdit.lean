import Verif.Props.ParParts
import Verif.Props.Places
import Verif.Props.TokEdit

/-!
# Property C95: exchanging parts of a text
-/

namespace Verif.Par

open Verif.Tok (PatCode Tokens NoToken)

variable {N T E α π ρ : Type} {parse : π → Except ρ Tok.Hir} {ts : Tok.Seeds} {t : Tok.Tokenizer α (Option T)}
  {ps : List (π × (List Nat → List α → Option T))} {tws : List (Nat × Nat)}

/-- C95: if the grammar has no warnings, and a part `b` of a text stands for tokens that are derived from the non-terminal `A` at their place, then `b` can be exchanged for
every `b'` that stands for tokens derived from `A` with the same value. -/
theorem c95_text (hparse : Tok.ParserOk parse) (hs : ts.Fair) (hc : Tok.Calm ts parse ps) (hb : Tok.BuildsTo ts parse ps (.ok (t, tws)))
    (map : α → Nat) (h0 : ∀ k, ¬ PatCode parse ps k [])
    (o o' : Seeds) (ho : o.Fair) (ho' : o'.Fair) (rules : List (Rule N T E)) (start A : Nat) (hok : (gram rules start).Ok)
    (p q : Parser N T E) (hp : MakesParser o rules start p []) (hq : MakesParser o' rules A q []) (hcy : ¬ (gram rules start).Cyclic) (hcA : ¬ (gram rules A).Cyclic)
    (idx : T → Nat) (f : Source (Tok.It α) T) (hf : Flattens (tokSource t map) f)
    (a b b' z : List α) (l l' : List T) (hl : StandsFor (PatCode parse ps) ps map a b z l) (hl' : StandsFor (PatCode parse ps) ps map a b' z l')
    (es1 es3 : List (Option T)) (rest : List α) (h1 : Tokens (PatCode parse ps) ps map a es1 []) (h3 : Tokens (PatCode parse ps) ps map z es3 rest)
    (hr : NoToken (PatCode parse ps) map rest)
    (hd : Derives (rules.map Rule.plain) [.nt start]
      ((es1.filterMap id).map (fun t => .tm (.sym (idx t))) ++ .nt A :: (es3.filterMap id).map (fun t => .tm (.sym (idx t)))))
    (hsl : (gram rules A).Sentence (l.map idx)) (hsl' : (gram rules A).Sentence (l'.map idx)) (v : N) (hv : ∃ c, ParsesTo idx q l (.ok v) c)
    (hv' : ∃ c, ParsesTo idx q l' (.ok v) c) :
    ∃ r, (∃ c it, ParsesFrom idx f p (Tok.It.start (a ++ b ++ z)) r c it) ∧ ∃ c it, ParsesFrom idx f p (Tok.It.start (a ++ b' ++ z)) r c it := by
  obtain ⟨r, ⟨c, k⟩, c', k'⟩ := c94_exchange o o' ho ho' rules start A hok p q hp hq hcy hcA idx (es1.filterMap id) (es3.filterMap id) hd l l' hsl hsl' v hv hv'
  have key : ∀ (b : List α) (l : List T), StandsFor (PatCode parse ps) ps map a b z l →
      ∀ c, ParsesTo idx p (es1.filterMap id ++ l ++ es3.filterMap id) r c → ∃ c it, ParsesFrom idx f p (Tok.It.start (a ++ b ++ z)) r c it := by
    rintro b l ⟨e1, mid, g1, g2, g3, _, _⟩ c k
    have hcut : Tokens (PatCode parse ps) ps map a e1 [] := by
      rw [List.append_assoc] at g1
      exact g1.cut (y := []) rfl rfl
    obtain ⟨rfl, _⟩ := hcut.greedy (Tok.no_token_nil h0) h1 (Tok.no_token_nil h0)
    have hall := (g1.append g2).append h3
    refine (c47_flatten hparse hs hc hb o ho rules start hok p [] hp idx map _ _ rest hall hr f hf).2.1 r c ?_
    rw [List.filterMap_append, List.filterMap_append, g3]
    exact k
  exact ⟨r, key b l hl c k, key b' l' hl' c' k'⟩

/-! ## Example -/

/-- `+`, `a+`, `(`, `)` and blanks; the value of a number is the count of its letters. -/
def sumPats : List (Tok.Hir × (List Nat → List Nat → Option (Nat × Nat))) :=
  [(.literalU 43, fun _ _ => some (0, 0)), (.rep .oneOrMore Tok.ra, fun _ w => some (1, w.length)), (.literalU 40, fun _ _ => some (2, 0)),
    (.literalU 41, fun _ _ => some (3, 0)), (.rep .oneOrMore (.classU [(32, 32)]), fun _ _ => none)]

def sumTok : Tok.Tokenizer Nat (Option (Nat × Nat)) :=
  match Tok.builderBuild 50 Tok.seeds0 Tok.parse0 sumPats with
  | some (.ok r) => r.1
  | _ => { dfa := { b := 0, rows := [], ends := [] }, maker := [] }

theorem sumTok_builds : Tok.BuildsTo Tok.seeds0 Tok.parse0 sumPats (.ok (sumTok, [])) := ⟨50, rfl⟩

theorem sumPar_sentence (w : List (Nat × Nat)) (c : Cfg Nat (Nat × Nat)) (v : Nat) (h : ParsesTo Prod.fst (sumParOf 1) w (.ok v) c) :
    (gram sumPar 1).Sentence (w.map Prod.fst) :=
  c23_sentence idSeeds idSeeds_fair sumPar 1 (by decide) (by unfold Gram.NoError; decide) _ _ sumPar_makes1 Prod.fst w v c h

/-- In `aaaaa + aaa +aaaaaaa` the part `aaa` can be exchanged for `( a+aa )`. -/
example (f : Source (Tok.It Nat) (Nat × Nat)) (hf : Flattens (tokSource sumTok id) f) :
    ∃ r, (∃ c it, ParsesFrom Prod.fst f (sumParOf 0) (Tok.It.start ([97, 97, 97, 97, 97, 32, 43, 32] ++ [97, 97, 97] ++ [32, 43, 97, 97, 97, 97, 97, 97, 97])) r c it) ∧
      ∃ c it, ParsesFrom Prod.fst f (sumParOf 0) (Tok.It.start ([97, 97, 97, 97, 97, 32, 43, 32] ++ [40, 32, 97, 43, 97, 97, 32, 41] ++ [32, 43, 97, 97, 97, 97, 97, 97, 97])) r c it := by
  have st := fun (l : List Nat) es => Tok.c41_stream Tok.parse0_ok Tok.seeds0_fair (fun _ => Iff.rfl) sumTok_builds id l es
  have hnil : ∀ k, ¬ PatCode Tok.parse0 sumPats k [] :=
    (Tok.c41_translated_language Tok.parse0_ok Tok.seeds0_fair (fun _ => Iff.rfl) sumTok_builds []).2.1 rfl
  have p1 : ∃ c, ParsesTo Prod.fst (sumParOf 1) [(1, 3)] (.ok 3) c := ⟨_, 60, rfl⟩
  have p2 : ∃ c, ParsesTo Prod.fst (sumParOf 1) [(2, 0), (1, 1), (0, 0), (1, 2), (3, 0)] (.ok 3) c := ⟨_, 60, rfl⟩
  refine c95_text Tok.parse0_ok Tok.seeds0_fair (fun _ => Iff.rfl) sumTok_builds id hnil idSeeds idSeeds idSeeds_fair idSeeds_fair sumPar 0 1 (by decide)
    (sumParOf 0) (sumParOf 1) sumPar_makes0 sumPar_makes1 sumPar_not_cyclic0 sumPar_not_cyclic1 Prod.fst f hf _ _ _ _ [(1, 3)] [(2, 0), (1, 1), (0, 0), (1, 2), (3, 0)]
    ?_ ?_ [some (1, 5), none, some (0, 0), none] [none, some (0, 0), some (1, 7)] [] ?_ ?_ (Tok.no_token_nil hnil) sumPar_around
    (sumPar_sentence _ _ _ p1.choose_spec) (sumPar_sentence _ _ _ p2.choose_spec) 3 p1 p2
  · exact ⟨[some (1, 5), none, some (0, 0), none], [some (1, 3)], ((st _ _).1 _).1 ⟨_, rfl, rfl⟩, ((st _ _).1 _).1 ⟨_, rfl, rfl⟩, rfl, ⟨_, rfl⟩, _, rfl⟩
  · exact ⟨[some (1, 5), none, some (0, 0), none], [some (2, 0), none, some (1, 1), some (0, 0), some (1, 2), none, some (3, 0)],
      ((st _ _).1 _).1 ⟨_, rfl, rfl⟩, ((st _ _).1 _).1 ⟨_, rfl, rfl⟩, rfl, ⟨_, rfl⟩, _, rfl⟩
  · exact ((st _ _).1 _).1 ⟨_, rfl, rfl⟩
  · exact ((st _ _).1 _).1 ⟨_, rfl, rfl⟩

end Verif.Par
