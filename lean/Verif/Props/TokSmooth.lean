import Verif.Tok.SmoothProof
import Verif.Props.TokCode

/-!
# Property C77: when hash collisions can do no harm

Most properties of tokenizers are stated for builds that no hash collision disturbed (`Calm`).  Here is a condition on the texts
that the patterns match, and a check on the automaton, under which no collision disturbs any build.
-/

namespace Verif.Tok

section
variable {π ρ α E : Type} {parse : π → Except ρ Hir} {ps : List (π × (List Nat → List α → E))}

theorem live_all (hl : PatsLive parse ps) (hne : ps ≠ []) {hirs : List Hir} (h1 : parseAll parse (ps.map Prod.fst) = .ok hirs) :
    (∀ h ∈ hirs, h.live = true) ∧ hirs ≠ [] := by
  constructor
  · intro h hh
    obtain ⟨i, hi⟩ := List.getElem?_of_mem hh
    obtain ⟨p, hp1, hp2⟩ := (parsed_get h1 i).2 h hi
    exact hl p (List.mem_of_getElem? hp1) h hp2
  · rintro rfl
    have := (parseAll_ok.1 h1).1
    exact hne (List.eq_nil_of_length_eq_zero (by simpa using this.symm))

theorem tornO_iff (hparse : ParserOk parse) (hl : PatsLive parse ps) (hne : ps ≠ []) {hirs : List Hir} {tn : TNFA} {d : DFA}
    (h1 : parseAll parse (ps.map Prod.fst) = .ok hirs) (h2 : buildAll hirs = .ok tn) (hd : DfaOf tn d) {u v : List Nat} {c : Nat} :
    TornO d.obs 0 u v c ↔ Torn (PatCode parse ps) u v c := by
  have ho := parseAll_wf hparse h1
  obtain ⟨h3, h4⟩ := live_all hl hne h1
  rw [torn_texts h2 ho h3 h4 hd]
  have : OwnAt hirs = PatCode parse ps := by
    funext k w
    exact propext (own_code h1 h2 ho k w)
  rw [this]

/-- C77: unless the patterns are torn at two texts and a character, no hash collision can disturb the build, whatever the seeds. -/
theorem c77_texts (hparse : ParserOk parse) (hl : PatsLive parse ps) (hne : ps ≠ []) (hn : ∀ u v c, ¬ Torn (PatCode parse ps) u v c)
    (s : Seeds) (hs : s.Fair) : Calm s parse ps :=
  calm_of_not_torn hparse hs fun _ _ _ h1 h2 hd u v c ht => hn u v c ((tornO_iff hparse hl hne h1 h2 hd).1 ht)

/-- C77: a condition that is simpler to see.  There are no texts `u` and `v` with the same token (or none) and no character `c` such
that `c` can follow both, `c + 1` can follow only `v`, and `uc`, `vc` and `v(c+1)` have the same token (or none). -/
theorem c77_simple (hparse : ParserOk parse) (hl : PatsLive parse ps) (hne : ps ≠ [])
    (hn : ∀ u v c, Viable (PatCode parse ps) (u ++ [c]) → Viable (PatCode parse ps) (v ++ [c]) → Viable (PatCode parse ps) (v ++ [c + 1]) →
      Alike (PatCode parse ps) u v → Alike (PatCode parse ps) (u ++ [c]) (v ++ [c]) → Alike (PatCode parse ps) (v ++ [c]) (v ++ [c + 1]) →
      Viable (PatCode parse ps) (u ++ [c + 1]))
    (s : Seeds) (hs : s.Fair) : Calm s parse ps := by
  refine c77_texts hparse hl hne ?_ s hs
  rintro u v c ⟨h1, h2, h3, h4, h5, h6, h7, _⟩
  exact h2 (hn u v c h1 h3 h4 h5 h6 h7)

/-- C77: if the check on the automaton succeeds, no hash collision can disturb the build, whatever the seeds. -/
theorem c77_check (hparse : ParserOk parse) {fuel : Nat} (hc : smoothCheck fuel parse ps = true) (s : Seeds) (hs : s.Fair) :
    Calm s parse ps := by
  refine calm_of_not_torn hparse hs ?_
  intro hirs tn d h1 h2 hd u v c ht
  unfold smoothCheck at hc
  rw [h1] at hc
  simp only at hc
  rw [h2] at hc
  simp only at hc
  cases h3 : fromNfa fuel id tn with
  | none => rw [h3] at hc; cases hc
  | some r =>
    obtain ⟨d', ws⟩ := r
    rw [h3] at hc
    have hd' := (fromNfa_spec (buildAll_edgesOk h2 (parseAll_wf hparse h1)) (fun _ => List.Perm.refl _) h3).1
    rw [obs_other hd hd'] at ht
    exact (smooth_spec hd'.wf hd'.reach).1 hc u v c ht

/-- C77: the check decides whether the patterns of a tokenizer are torn. -/
theorem c77_decides (hparse : ParserOk parse) (hl : PatsLive parse ps) (hne : ps ≠ []) {s : Seeds} (hs : s.Fair) {t : Tokenizer α E}
    {ws : List (Nat × Nat)} (hb : BuildsTo s parse ps (.ok (t, ws))) :
    (∃ fuel, smoothCheck fuel parse ps = true) ↔ ∀ u v c, ¬ Torn (PatCode parse ps) u v c := by
  obtain ⟨hirs, h1, ho, h3, h4⟩ := builds_spec hparse hs hb
  obtain ⟨tn, _, h2, _⟩ := h4.dfa
  have key : ∀ fuel, smoothCheck fuel parse ps = match fromNfa fuel id tn with
      | none => false
      | some (d, _) => d.smooth := by
    intro fuel
    unfold smoothCheck
    rw [h1]
    simp only
    rw [h2]
    rfl
  have spec : ∀ fuel d w, fromNfa fuel id tn = some (d, w) → (d.smooth = true ↔ ∀ u v c, ¬ Torn (PatCode parse ps) u v c) := by
    intro fuel d w hf
    have hd := (fromNfa_spec (buildAll_edgesOk h2 ho) (fun _ => List.Perm.refl _) hf).1
    rw [smooth_spec hd.wf hd.reach]
    simp only [tornO_iff hparse hl hne h1 h2 hd]
  simp only [key]
  constructor
  · rintro ⟨fuel, hc⟩
    cases hf : fromNfa fuel id tn with
    | none => rw [hf] at hc; cases hc
    | some r =>
      rw [hf] at hc
      exact (spec fuel r.1 r.2 hf).1 hc
  · intro hn
    obtain ⟨fuel, r, hf⟩ := fromNfa_some (ord := id) (buildAll_good h2 ho).1 (buildAll_edgesOk h2 ho)
    refine ⟨fuel, ?_⟩
    rw [hf]
    exact (spec fuel r.1 r.2 hf).2 hn

/-- C77: then the tokenizer follows its patterns on every text, with every seed. -/
theorem c77_language (hparse : ParserOk parse) {fuel : Nat} (hc : smoothCheck fuel parse ps = true ∨
      PatsLive parse ps ∧ ps ≠ [] ∧ ∀ u v c, ¬ Torn (PatCode parse ps) u v c)
    {s : Seeds} (hs : s.Fair) {t : Tokenizer α E} {ws : List (Nat × Nat)} (hb : BuildsTo s parse ps (.ok (t, ws))) (w : List Nat) :
    (∀ k, t.accepts w = some k ↔ PatCode parse ps k w ∧ ∀ j < k, ¬ PatCode parse ps j w) ∧
    (t.accepts w = none ↔ ∀ j, ¬ PatCode parse ps j w) := by
  refine c41_translated_language hparse hs ?_ hb w
  rcases hc with hc | ⟨h1, h2, h3⟩
  · exact c77_check hparse hc s hs
  · exact c77_texts hparse h1 h2 h3 s hs

end

/-- The regex `[a-z]` and so on. -/
def cls (l : List (Nat × Nat)) : Hir := .classU l

/-- Patterns of an ordinary language: `if`, `else`, `[A-Z_a-z][0-9A-Z_a-z]*`, `[0-9]+`, `0x[0-9a-f]+`, `[0-9]+\.[0-9]+`,
`"([^"\\]|\\.)*"`, `[ \t\n\r]+`, `<=`, `<`, `==`, `=`, `//[^\n]*\n`. -/
def ordinary : List Hir :=
  [.concat [.literalU 105, .literalU 102], .concat [.literalU 101, .literalU 108, .literalU 115, .literalU 101],
   .concat [cls [(65, 90), (95, 95), (97, 122)], .rep .zeroOrMore (cls [(48, 57), (65, 90), (95, 95), (97, 122)])],
   .rep .oneOrMore (cls [(48, 57)]), .concat [.literalU 48, .literalU 120, .rep .oneOrMore (cls [(48, 57), (97, 102)])],
   .concat [.rep .oneOrMore (cls [(48, 57)]), .literalU 46, .rep .oneOrMore (cls [(48, 57)])],
   .concat [.literalU 34, .rep .zeroOrMore (.group (.alt [cls [(0, 33), (35, 91), (93, 0x10FFFF)], .concat [.literalU 92, cls [(0, 9), (11, 0x10FFFF)]]])), .literalU 34],
   .rep .oneOrMore (cls [(9, 10), (13, 13), (32, 32)]), .concat [.literalU 60, .literalU 61], .literalU 60,
   .concat [.literalU 61, .literalU 61], .literalU 61,
   .concat [.literalU 47, .literalU 47, .rep .zeroOrMore (cls [(0, 9), (11, 0x10FFFF)]), .literalU 10]]

theorem ordinary_smooth : smoothCheck 200 parse0 (tagged ordinary) = true := by decide +kernel

example (s : Seeds) (hs : s.Fair) : Calm s parse0 (tagged ordinary) := c77_check parse0_ok ordinary_smooth s hs

theorem live0 {hs : List Hir} (h : hs.all Hir.live = true) : PatsLive parse0 (tagged hs) := by
  intro p hp h' hh
  unfold parse0 at hh
  split at hh
  · cases hh
    simp only [tagged, List.mem_map] at hp
    obtain ⟨⟨x, i⟩, hx, rfl⟩ := hp
    exact List.all_eq_true.1 h x (List.fst_mem_of_mem_zipIdx hx)
  · cases hh

example : PatsLive parse0 (tagged ordinary) ∧ (tagged ordinary).length = 13 ∧ (builderBuild 200 seeds1 parse0 (tagged ordinary)).isSome = true :=
  ⟨live0 (by decide), by decide, by decide +kernel⟩

theorem collision_code (k : Nat) (w : List Nat) :
    PatCode parse0 (tagged [collisionPattern]) k w ↔ k = 0 ∧ (w = [120, 97] ∨ w = [121, 97] ∨ w = [121, 98]) := by
  have hp : parseAll parse0 ((tagged [collisionPattern]).map Prod.fst) = .ok [collisionPattern] := rfl
  rw [patCode_iff hp]
  have hc : Code collisionPattern false true w ↔ w = [120, 97] ∨ w = [121, 97] ∨ w = [121, 98] := by
    simp only [collisionPattern, Code, CodeAny, CodeSeq, Mat.one, Mat.seq, or_false]
    constructor
    · rintro (⟨u, v, rfl, rfl, rfl⟩ | ⟨u, v, rfl, rfl, c, rfl, r, hr, h1, h2⟩)
      · simp
      · simp only [List.mem_singleton] at hr
        subst hr
        simp only at h1 h2
        obtain rfl | rfl : c = 97 ∨ c = 98 := by omega
        · simp
        · simp
    · rintro (rfl | rfl | rfl)
      · exact .inl ⟨_, _, rfl, rfl, rfl⟩
      · exact .inr ⟨[121], [97], rfl, rfl, 97, rfl, _, List.mem_singleton.2 rfl, by simp, by simp⟩
      · exact .inr ⟨[121], [98], rfl, rfl, 98, rfl, _, List.mem_singleton.2 rfl, by simp, by simp⟩
  constructor
  · rintro ⟨h, h1, h2⟩
    cases k with
    | zero =>
      cases h1
      exact ⟨rfl, hc.1 h2⟩
    | succ k => cases h1
  · rintro ⟨rfl, h⟩
    exact ⟨_, rfl, hc.2 h⟩

/-- C77: the condition cannot be left out: `xa|y[ab]` is torn at `x`, `y` and `a`, and there are seeds whose collisions do harm. -/
theorem c77_needed : PatsLive parse0 (tagged [collisionPattern]) ∧ Torn (PatCode parse0 (tagged [collisionPattern])) [120] [121] 97 ∧
    seeds1.Fair ∧ ¬ Calm seeds1 parse0 (tagged [collisionPattern]) := by
  have hv : ∀ a c, Viable (PatCode parse0 (tagged [collisionPattern])) ([a] ++ [c]) ↔ a = 120 ∧ c = 97 ∨ a = 121 ∧ (c = 97 ∨ c = 98) := by
    intro a c
    unfold Viable
    simp only [collision_code]
    constructor
    · rintro ⟨v, k, _, _, h⟩
      simp only [List.cons_append, List.nil_append, List.cons.injEq] at h
      omega
    · intro h
      refine ⟨[], 0, by simp, rfl, ?_⟩
      simp only [List.cons_append, List.nil_append, List.cons.injEq, and_true]
      omega
  have hl : ∀ k w, Least (PatCode parse0 (tagged [collisionPattern])) k w ↔ k = 0 ∧ (w = [120, 97] ∨ w = [121, 97] ∨ w = [121, 98]) := by
    intro k w
    unfold Least
    simp only [collision_code]
    constructor
    · rintro ⟨h, _⟩; exact h
    · rintro ⟨rfl, h⟩; exact ⟨⟨rfl, h⟩, fun j hj => by omega⟩
  have ha : ∀ a c a' c', (a = 120 ∧ c = 97 ∨ a = 121 ∧ (c = 97 ∨ c = 98)) → (a' = 120 ∧ c' = 97 ∨ a' = 121 ∧ (c' = 97 ∨ c' = 98)) →
      Alike (PatCode parse0 (tagged [collisionPattern])) ([a] ++ [c]) ([a'] ++ [c']) := by
    intro a c a' c' h1 h2 k
    rw [hl, hl]
    simp only [List.cons_append, List.nil_append, List.cons.injEq, and_true]
    omega
  have hb : ∀ a x, (a = 120 ∨ a = 121) → (Begins (PatCode parse0 (tagged [collisionPattern])) [a] x ↔ x = 97) := by
    intro a x hax
    unfold Begins
    simp only [hv]
    constructor
    · rintro ⟨h1, h2⟩
      apply Classical.byContradiction
      intro hne
      exact h2 97 (by omega) (by omega) (ha a 97 a x (by omega) (by omega))
    · rintro rfl
      exact ⟨by omega, fun y hy hy' => by omega⟩
  refine ⟨live0 (by decide), ⟨(hv _ _).2 (by omega), fun h => by have := (hv _ _).1 h; omega, (hv _ _).2 (by omega), (hv _ _).2 (by omega), ?_,
    ha _ _ _ _ (by omega) (by omega), ha _ _ _ _ (by omega) (by omega), ?_⟩, seeds1_fair, ?_⟩
  · intro k
    rw [hl, hl]
    simp
  · intro x
    rw [hb 120 x (by omega), hb 121 x (by omega)]
    refine ⟨Iff.rfl, ?_⟩
    rintro rfl
    exact ha _ _ _ _ (by omega) (by omega)
  · intro hc
    obtain ⟨h1, h2, _⟩ := c08_collision
    obtain ⟨t, ws, hb, h3⟩ := acc0_spec h2
    have := ((c41_translated_language parse0_ok seeds1_fair hc hb [121, 98]).2.1 h3) 0
    exact this ((collision_code 0 _).2 ⟨rfl, by simp⟩)

end Verif.Tok
