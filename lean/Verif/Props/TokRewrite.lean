import Verif.Tok.RewriteProof
import Verif.Props.TokOrder

/-!
# Property C78: writing a pattern in another way

Which ways of writing a regex differently change nothing, which do although the language is the same, and how to write a regex so
that exactly its language is matched.
-/

namespace Verif.Tok

variable {π ρ α E : Type} {parse : π → Except ρ Hir} {s s' : Seeds} {ps qs : List (π × (List Nat → List α → E))}
  {t t' : Tokenizer α E} {ws ws' : List (Nat × Nat)}

/-! ## Lemmas -/

theorem Rewritten.get {R : Hir → Hir → Prop} (hr : Rewritten R parse ps qs) {i : Nat} :
    (ps[i]? = none ∧ qs[i]? = none) ∨ ∃ p q h h', ps[i]? = some p ∧ qs[i]? = some q ∧ p.2 = q.2 ∧ parse p.1 = .ok h ∧
      parse q.1 = .ok h' ∧ R h h' := by
  by_cases hi : i < ps.length
  · have h1 := List.getElem?_eq_getElem hi
    have h2 := List.getElem?_eq_getElem (hr.1 ▸ hi)
    obtain ⟨h3, h, h', h4, h5, h6⟩ := hr.2 i _ _ h1 h2
    exact .inr ⟨_, _, h, h', h1, h2, h3, h4, h5, h6⟩
  · refine .inl ⟨List.getElem?_eq_none (by omega), List.getElem?_eq_none ?_⟩
    rw [← hr.1]; omega

theorem Rewritten.builds {R : Hir → Hir → Prop} (hr : Rewritten R parse ps qs) (hR : ∀ h h', R h h' → ∀ e, Has e h ↔ Has e h')
    (hparse : ParserOk parse) (hs : s.Fair) (hs' : s'.Fair) :
    (∃ t ws, BuildsTo s parse ps (.ok (t, ws))) ↔ ∃ t ws, BuildsTo s' parse qs (.ok (t, ws)) := by
  rw [(c03_build_errors hparse hs ps).2.2.1, (c03_build_errors hparse hs' qs).2.2.1]
  constructor
  · intro H q hq
    obtain ⟨i, hi⟩ := List.getElem?_of_mem hq
    rcases hr.get (i := i) with ⟨_, h2⟩ | ⟨p, q', h, h', h1, h2, h3, h4, h5, h6⟩
    · rw [hi] at h2; cases h2
    · rw [hi] at h2; cases h2
      obtain ⟨x, hx, hn⟩ := H p (List.mem_of_getElem? h1)
      rw [h4] at hx; cases hx
      exact ⟨h', h5, fun e he => hn e ((hR _ _ h6 e).2 he)⟩
  · intro H p hp
    obtain ⟨i, hi⟩ := List.getElem?_of_mem hp
    rcases hr.get (i := i) with ⟨h1, _⟩ | ⟨p', q, h, h', h1, h2, h3, h4, h5, h6⟩
    · rw [hi] at h1; cases h1
    · rw [hi] at h1; cases h1
      obtain ⟨x, hx, hn⟩ := H q (List.mem_of_getElem? h2)
      rw [h5] at hx; cases hx
      exact ⟨h, h4, fun e he => hn e ((hR _ _ h6 e).1 he)⟩

theorem tokens_rewritten {M : Nat → List Nat → Prop} {R : Hir → Hir → Prop} (hr : Rewritten R parse ps qs) {map : α → Nat}
    {input : List α} {es : List E} {rest : List α} : Tokens M ps map input es rest ↔ Tokens M qs map input es rest := by
  constructor
  · intro h
    induction h with
    | nil l => exact .nil l
    | cons l n k p es rest h1 h2 _ ih =>
      rcases hr.get (i := k) with ⟨g1, _⟩ | ⟨p', q, _, _, g1, g2, g3, _⟩
      · rw [h2] at g1; cases g1
      · rw [h2] at g1; cases g1
        rw [g3]
        exact .cons l n k q es rest h1 g2 ih
  · intro h
    induction h with
    | nil l => exact .nil l
    | cons l n k p es rest h1 h2 _ ih =>
      rcases hr.get (i := k) with ⟨_, g2⟩ | ⟨p', q, _, _, g1, g2, g3, _⟩
      · rw [h2] at g2; cases g2
      · rw [h2] at g2; cases g2
        rw [← g3]
        exact .cons l n k p' es rest h1 g1 ih

/-! ## Theorems -/

/-- C78: whatever the patterns and wherever in them a regex stands, writing it in one of these ways does not change whether the
tokenizer can be built. -/
theorem c78_builds (hparse : ParserOk parse) (hr : Rewritten Rewr parse ps qs) (hs : s.Fair) (hs' : s'.Fair) :
    (∃ t ws, BuildsTo s parse ps (.ok (t, ws))) ↔ ∃ t ws, BuildsTo s' parse qs (.ok (t, ws)) :=
  hr.builds (fun _ _ r _ => r.has) hparse hs hs'

/-- C78: nor does it change a token of any text, or a warning. -/
theorem c78_rewrite (hparse : ParserOk parse) (hr : Rewritten Rewr parse ps qs) (hs : s.Fair) (hc : Calm s parse ps)
    (hb : BuildsTo s parse ps (.ok (t, ws))) (hs' : s'.Fair) (hc' : Calm s' parse qs) (hb' : BuildsTo s' parse qs (.ok (t', ws'))) :
    (∀ map, SameCut t t' map) ∧ (∀ w, t.accepts w = t'.accepts w) ∧ (∀ a b, (a, b) ∈ ws ↔ (a, b) ∈ ws') := by
  have hcode : PatCode parse ps = PatCode parse qs := by
    funext i w
    apply propext
    unfold PatCode
    rcases hr.get (i := i) with ⟨h1, h2⟩ | ⟨p, q, h, h', h1, h2, h3, h4, h5, h6⟩
    · rw [h1, h2]
    · constructor
      · rintro ⟨p', x, e1, e2, e3⟩
        rw [h1] at e1; cases e1
        rw [h4] at e2; cases e2
        exact ⟨q, h', h2, h5, h6.code ▸ e3⟩
      · rintro ⟨p', x, e1, e2, e3⟩
        rw [h2] at e1; cases e1
        rw [h5] at e2; cases e2
        exact ⟨p, h, h1, h4, h6.code ▸ e3⟩
  refine ⟨?_, ?_, ?_⟩
  · intro map input es
    obtain ⟨a1, a2⟩ := c41_stream hparse hs hc hb map input es
    obtain ⟨b1, b2⟩ := c41_stream hparse hs' hc' hb' map input es
    refine ⟨fun rest => (a1 rest).trans (Iff.trans ?_ (b1 rest).symm), a2.trans (Iff.trans ?_ b2.symm)⟩
    · rw [hcode, tokens_rewritten hr]
    · rw [hcode]
      simp only [tokens_rewritten hr]
  · intro w
    obtain ⟨a1, a2⟩ := c41_translated_language hparse hs hc hb w
    obtain ⟨b1, b2⟩ := c41_translated_language hparse hs' hc' hb' w
    cases h : t.accepts w with
    | none => rw [eq_comm, b2, ← hcode, ← a2]; exact h
    | some k => rw [eq_comm, b1, ← hcode, ← a1]; exact h
  · intro a b
    rw [(c41_warnings hparse hs hb).exact, (c41_warnings hparse hs' hb').exact, hcode]

/-- C78: written safely, every pattern can be built if it could before, and it is matched exactly: a word is accepted for the first
pattern to whose language it belongs.  A regex that is matched exactly anyway is left as it is. -/
theorem c78_safe (hparse : ParserOk parse) (hr : Rewritten (fun h h' => h' = h.safe) parse ps qs) (hs : s.Fair) :
    ((∃ t ws, BuildsTo s parse ps (.ok (t, ws))) ↔ ∃ t ws, BuildsTo s parse qs (.ok (t, ws))) ∧
    (Calm s parse qs → BuildsTo s parse qs (.ok (t, ws)) → ∀ w,
      (∀ k, t.accepts w = some k ↔ PatLang parse ps k w ∧ ∀ j < k, ¬ PatLang parse ps j w) ∧
      (t.accepts w = none ↔ ∀ j, ¬ PatLang parse ps j w)) ∧
    (∀ i, PatFaithful parse ps i → ∀ p q h h', ps[i]? = some p → qs[i]? = some q → parse p.1 = .ok h → parse q.1 = .ok h' → h' = h) := by
  refine ⟨hr.builds (by rintro h _ rfl e; exact (safe_has h).symm) hparse hs hs, ?_, ?_⟩
  · intro hc hb w
    have hcode : ∀ i, PatCode parse qs i w ↔ PatLang parse ps i w := by
      intro i
      obtain ⟨h1, h2⟩ := c41_contains_language hparse hs hb i w
      have h3 : PatLang parse qs i w ↔ PatLang parse ps i w := by
        unfold PatLang
        rcases hr.get (i := i) with ⟨h1, h2⟩ | ⟨p, q, h, h', h1, h2, h3, h4, h5, rfl⟩
        · rw [h1, h2]
        · constructor
          · rintro ⟨p', x, e1, e2, e3⟩
            rw [h2] at e1; cases e1
            rw [h5] at e2; cases e2
            exact ⟨p, h, h1, h4, safe_lang h ▸ e3⟩
          · rintro ⟨p', x, e1, e2, e3⟩
            rw [h1] at e1; cases e1
            rw [h4] at e2; cases e2
            exact ⟨q, h.safe, h2, h5, (safe_lang h).symm ▸ e3⟩
      rw [← h3]
      refine ⟨h2 ?_, h1⟩
      intro q x e1 e2
      rcases hr.get (i := i) with ⟨_, g⟩ | ⟨p, q', h, h', g1, g2, g3, g4, g5, rfl⟩
      · rw [e1] at g; cases g
      · rw [e1] at g2; cases g2
        rw [e2] at g5; cases g5
        exact safe_faithful h
    have := c41_translated_language hparse hs hc hb w
    simpa only [hcode] using this
  · intro i hf p q h h' h1 h2 h3 h4
    obtain ⟨_, x, x', e1, e2, e3⟩ := hr.2 i p q h1 h2
    rw [h3] at e1; cases e1
    rw [h4] at e2; cases e2
    rw [e3, safe_id h (hf p h h1 h3)]

/-! ## Other ways of writing -/

theorem lang_plus (h : Hir) (w : List Nat) : Lang (.rep .oneOrMore h) w ↔ Lang (.concat [h, .rep .zeroOrMore h]) w := by
  simp only [Lang, LangSeq, RepKind.allows, true_and]
  constructor
  · rintro ⟨n, hn, hp⟩
    cases n with
    | zero => omega
    | succ n =>
      obtain ⟨u, v, rfl, h1, h2⟩ := hp
      exact ⟨u, v, rfl, h1, v, [], by simp, ⟨n, h2⟩, rfl⟩
  · rintro ⟨u, _, rfl, h1, v, _, rfl, ⟨n, h2⟩, rfl⟩
    refine ⟨n + 1, by omega, u, v, by simp, h1, h2⟩

theorem lang_optStar (h : Hir) (w : List Nat) : Lang (.rep .zeroOrMore (.rep .zeroOrOne h)) w ↔ Lang (.rep .zeroOrMore h) w := by
  simp only [Lang, RepKind.allows, true_and]
  constructor
  · rintro ⟨n, hp⟩
    induction n generalizing w with
    | zero => exact ⟨0, hp⟩
    | succ n ih =>
      obtain ⟨u, v, rfl, ⟨k, hk, h1⟩, h2⟩ := hp
      obtain ⟨m, hm⟩ := ih v h2
      match k, hk, h1 with
      | 0, _, h1 => simp only [Pow] at h1; subst h1; exact ⟨m, hm⟩
      | 1, _, ⟨x, y, hxy, hx, hy⟩ =>
        simp only [Pow] at hy
        subst hy
        simp only [List.append_nil] at hxy
        subst hxy
        exact ⟨m + 1, u, v, rfl, hx, hm⟩
  · rintro ⟨n, hp⟩
    refine ⟨n, ?_⟩
    induction n generalizing w with
    | zero => exact hp
    | succ n ih =>
      obtain ⟨u, v, rfl, h1, h2⟩ := hp
      exact ⟨u, v, rfl, ⟨1, by omega, u, [], by simp, h1, rfl⟩, ih v h2⟩

theorem lang_orEmpty (h : Hir) (w : List Nat) : Lang (.alt [h, .empty]) w ↔ Lang (.rep .zeroOrOne h) w := by
  simp only [Lang, LangAny, RepKind.allows, or_false]
  constructor
  · rintro (hw | rfl)
    · exact ⟨1, by omega, w, [], by simp, hw, rfl⟩
    · exact ⟨0, by omega, rfl⟩
  · rintro ⟨n, hn, hp⟩
    match n, hn, hp with
    | 0, _, hp => exact .inr hp
    | 1, _, ⟨x, y, hxy, hx, hy⟩ =>
      simp only [Pow] at hy
      subst hy
      simp only [List.append_nil] at hxy
      subst hxy
      exact .inl hx

/-- C78: other ways of writing do change tokens, although the language is the same for every regex: `x+` and `xx*` (in `(a+b)*`),
`(x?)*` and `x*` (for `ab*`), `(x|)` and `x?` (for `a`), `(x|x)` and `x` (in `(a*b)*`). -/
theorem c78_unsafe :
    ((∀ h w, Lang (.rep .oneOrMore h) w ↔ Lang (.concat [h, .rep .zeroOrMore h]) w) ∧
      acc0 seeds0 [.rep .zeroOrMore (.concat [.rep .oneOrMore ra, rb])] [97] = some (some 0) ∧
      acc0 seeds0 [.rep .zeroOrMore (.concat [.concat [ra, .rep .zeroOrMore ra], rb])] [97] = some none) ∧
    ((∀ h w, Lang (.rep .zeroOrMore (.rep .zeroOrOne h)) w ↔ Lang (.rep .zeroOrMore h) w) ∧
      acc0 seeds0 [.rep .zeroOrMore (.rep .zeroOrOne (.concat [ra, .rep .zeroOrMore rb]))] [98] = some (some 0) ∧
      acc0 seeds0 [.rep .zeroOrMore (.concat [ra, .rep .zeroOrMore rb])] [98] = some none) ∧
    ((∀ h w, Lang (.alt [h, .empty]) w ↔ Lang (.rep .zeroOrOne h) w) ∧
      acc0 seeds0 [.alt [ra, .empty]] [98] = some (some 0) ∧ acc0 seeds0 [.rep .zeroOrOne ra] [98] = some none) ∧
    ((∀ h w, Lang (.alt [h, h]) w ↔ Lang h w) ∧
      acc0 seeds0 [.rep .zeroOrMore (.concat [.rep .zeroOrMore ra, rb])] [97] = some (some 0) ∧
      acc0 seeds0 [.rep .zeroOrMore (.alt [.concat [.rep .zeroOrMore ra, rb], .concat [.rep .zeroOrMore ra, rb]])] [97] = some none) := by
  refine ⟨⟨lang_plus, by decide +kernel, by decide +kernel⟩, ⟨lang_optStar, by decide +kernel, by decide +kernel⟩,
    ⟨lang_orEmpty, by decide +kernel, by decide +kernel⟩, ⟨?_, by decide +kernel, by decide +kernel⟩⟩
  intro h w
  simp [Lang, LangAny]

theorem lang_plusOpt (h : Hir) (w : List Nat) : Lang (.rep .zeroOrOne (.rep .oneOrMore h)) w ↔ Lang (.rep .zeroOrMore h) w := by
  simp only [Lang, RepKind.allows, true_and]
  constructor
  · rintro ⟨k, hk, hp⟩
    match k, hk, hp with
    | 0, _, hp => exact ⟨0, hp⟩
    | 1, _, hp =>
      obtain ⟨n, _, hn⟩ := pow_one.mp hp
      exact ⟨n, hn⟩
  · rintro ⟨n, hp⟩
    cases n with
    | zero => exact ⟨0, by omega, hp⟩
    | succ n => exact ⟨1, by omega, pow_one.mpr ⟨n + 1, by omega, hp⟩⟩

theorem lang_optPlus (h : Hir) (w : List Nat) : Lang (.rep .oneOrMore (.rep .zeroOrOne h)) w ↔ Lang (.rep .zeroOrMore h) w := by
  rw [← lang_optStar]
  simp only [Lang, RepKind.allows, true_and]
  constructor
  · rintro ⟨k, _, hp⟩
    exact ⟨k, hp⟩
  · rintro ⟨k, hp⟩
    cases k with
    | zero => exact ⟨1, by omega, pow_one.mpr ⟨0, by omega, hp⟩⟩
    | succ k => exact ⟨k + 1, by omega, hp⟩

/-- C78: neither are these: `(x+)?` and `x*`, `(x?)+` and `x*` (both for `ab*`), `x{1,}` and `x+` (in `(a+c)*`). -/
theorem c78_unsafe_more :
    ((∀ h w, Lang (.rep .zeroOrOne (.rep .oneOrMore h)) w ↔ Lang (.rep .zeroOrMore h) w) ∧
      acc0 seeds0 [.rep .zeroOrOne (.rep .oneOrMore (.concat [ra, .rep .zeroOrMore rb]))] [98] = some (some 0) ∧
      acc0 seeds0 [.rep .zeroOrMore (.concat [ra, .rep .zeroOrMore rb])] [98] = some none) ∧
    ((∀ h w, Lang (.rep .oneOrMore (.rep .zeroOrOne h)) w ↔ Lang (.rep .zeroOrMore h) w) ∧
      acc0 seeds0 [.rep .oneOrMore (.rep .zeroOrOne (.concat [ra, .rep .zeroOrMore rb]))] [98] = some (some 0) ∧
      acc0 seeds0 [.rep .zeroOrMore (.concat [ra, .rep .zeroOrMore rb])] [98] = some none) ∧
    ((∀ h w, Lang (.rep (.atLeast 1) h) w ↔ Lang (.rep .oneOrMore h) w) ∧
      acc0 seeds0 [.rep .zeroOrMore (.concat [.rep (.atLeast 1) ra, rx])] [97] = some none ∧
      acc0 seeds0 [.rep .zeroOrMore (.concat [.rep .oneOrMore ra, rx])] [97] = some (some 0)) :=
  ⟨⟨lang_plusOpt, by decide +kernel, by decide +kernel⟩, ⟨lang_optPlus, by decide +kernel, by decide +kernel⟩,
    ⟨fun _ _ => by simp only [Lang, RepKind.allows], by decide +kernel, by decide +kernel⟩⟩

/-! ## Examples -/

/-- `(ab|ac){2,}` and `(?:a(?:b|c))(?:a(?:c|b))(?:ac|ab)*`. -/
example : Rewritten Rewr parse0 (tagged [.rep (.atLeast 2) (.group (.alt [.concat [ra, rb], .concat [ra, rx]]))])
    (tagged [.concat [.alt [.concat [ra, .alt [rb, rx]]], .alt [.concat [ra, rb], .concat [ra, rx]],
      .rep .zeroOrMore (.alt [.concat [ra, rx], .concat [ra, rb]])]]) := by
  refine ⟨rfl, ?_⟩
  intro i p q h1 h2
  match i, h1, h2 with
  | 0, h1, h2 =>
    simp [tagged] at h1 h2
    subst h1 h2
    refine ⟨rfl, _, _, rfl, rfl, ?_⟩
    refine .trans (.least 1 _) ?_
    refine .trans (.inConcat [] _ (.times 1 _)) ?_
    refine .trans (.flat [] (List.replicate 2 _) _ (by simp)) ?_
    refine .trans (.inConcat [] _ (.trans (.bracket _) (.factorL _ _ _ []))) ?_
    refine .trans (.inConcat [_] _ (.bracket _)) ?_
    exact .inConcat [_, _] [] (.inRep _ (.trans (.bracket _) (.altPerm (.swap ..))))
  | i + 1, h1, _ => simp [tagged] at h1

/-- `(a*b)*|` is written `((a*b|a*b))*|a{0}`. -/
example : Rewritten (fun h h' => h' = h.safe) parse0 (tagged [.alt [.rep .zeroOrMore (.concat [.rep .zeroOrMore ra, rb]), .empty]])
    (tagged [.alt [.rep .zeroOrMore (.group (.alt [.concat [.rep .zeroOrMore ra, rb], .concat [.rep .zeroOrMore ra, rb]])),
      .rep (.exactly 0) (.literalU 97)]]) := by
  refine ⟨rfl, ?_⟩
  intro i p q h1 h2
  match i, h1, h2 with
  | 0, h1, h2 =>
    simp [tagged] at h1 h2
    subst h1 h2
    exact ⟨rfl, _, _, rfl, rfl, by simp [Hir.safe, Hir.safeAll, Hir.faithful, Hir.faithfulAll, Hir.nullable, Hir.nullableAll, Hir.freeB, Hir.freeBHead, ra, rb]⟩
  | i + 1, h1, _ => simp [tagged] at h1

example : acc0 seeds0 [(Hir.rep .zeroOrMore (.concat [.rep .zeroOrMore ra, rb])).safe] [97] = some none ∧
    acc0 seeds0 [(Hir.rep .zeroOrMore (.concat [.rep .zeroOrMore ra, rb])).safe] [97, 98, 98] = some (some 0) := by decide +kernel

end Verif.Tok
