import Verif.Tok.Spec
import Verif.Tok.BuilderProof
import Verif.Tok.IterProof

/-!
# Helper lemmas connecting the specification vocabulary to the automata
-/

namespace Verif.Tok

theorem has_iff : ∀ (h : Hir) (e : NfaError), e ∈ h.unsupported ↔ Has e h := by
  apply Hir.ind
  case empty => intro e; simp [Hir.unsupported]; intro h; cases h
  case literalU => intro c e; simp [Hir.unsupported]; intro h; cases h
  case literalB =>
    intro c e; simp [Hir.unsupported]
    exact ⟨fun h => .literalB _ h, fun h => by cases h; assumption⟩
  case classU => intro c e; simp [Hir.unsupported]; intro h; cases h
  case classB => intro e; simp [Hir.unsupported]; exact ⟨fun h => .classB h, fun h => by cases h; assumption⟩
  case anchor => intro e; simp [Hir.unsupported]; exact ⟨fun h => .anchor h, fun h => by cases h; assumption⟩
  case wordBoundary => intro e; simp [Hir.unsupported]; exact ⟨fun h => .wordBoundary h, fun h => by cases h; assumption⟩
  case rep => intro k h ih e; rw [Hir.unsupported, ih]; exact ⟨fun h => .rep _ _ h, fun h => by cases h; assumption⟩
  case group => intro h ih e; rw [Hir.unsupported, ih]; exact ⟨fun h => .group _ h, fun h => by cases h; assumption⟩
  case concat =>
    intro hs ih e
    have key : e ∈ Hir.unsupportedR hs ↔ ∃ h ∈ hs, Has e h := by
      induction hs with
      | nil => simp [Hir.unsupportedR]
      | cons a hs ihs =>
        rw [Hir.unsupportedR, List.mem_append, ihs (fun h hh => ih h (List.mem_cons_of_mem _ hh)), ih a List.mem_cons_self]
        simp only [List.mem_cons, exists_eq_or_imp]
        exact or_comm
    rw [Hir.unsupported, key]
    exact ⟨fun ⟨h, h1, h2⟩ => .concat _ h h1 h2, fun h => by cases h; exact ⟨_, ‹_›, ‹_›⟩⟩
  case alt =>
    intro hs ih e
    have key : e ∈ Hir.unsupportedL hs ↔ ∃ h ∈ hs, Has e h := by
      induction hs with
      | nil => simp [Hir.unsupportedL]
      | cons a hs ihs =>
        rw [Hir.unsupportedL, List.mem_append, ihs (fun h hh => ih h (List.mem_cons_of_mem _ hh)), ih a List.mem_cons_self]
        simp only [List.mem_cons, exists_eq_or_imp]
    rw [Hir.unsupported, key]
    exact ⟨fun ⟨h, h1, h2⟩ => .alt _ h h1 h2, fun h => by cases h; exact ⟨_, ‹_›, ‹_›⟩⟩

theorem has_ne_panic {h e} (hh : Has e h) : e ≠ .panic := by
  induction hh with
  | literalB _ h => rw [h]; decide
  | classB h => rw [h]; decide
  | anchor h => rw [h]; decide
  | wordBoundary h => rw [h]; decide
  | rep _ _ _ ih => exact ih
  | group _ _ ih => exact ih
  | concat _ _ _ _ ih => exact ih
  | alt _ _ _ _ ih => exact ih

variable {π ρ α E : Type} {parse : π → Except ρ Hir} {ps : List (π × (List Nat → List α → E))} {hs : List Hir}

theorem parsed_get (hp : parseAll parse (ps.map Prod.fst) = .ok hs) (i : Nat) :
    (∀ p, ps[i]? = some p → ∃ h, hs[i]? = some h ∧ parse p.1 = .ok h) ∧
    (∀ h, hs[i]? = some h → ∃ p, ps[i]? = some p ∧ parse p.1 = .ok h) := by
  obtain ⟨h1, h2⟩ := parseAll_ok.1 hp
  constructor
  · intro p hi
    exact h2 i p.1 (by rw [List.getElem?_map, hi]; rfl)
  · intro h hi
    have hil : i < ps.length := by
      have := (List.getElem?_eq_some_iff.1 hi).1
      simpa [h1] using this
    obtain ⟨h', e1, e2⟩ := h2 i ps[i].1 (by rw [List.getElem?_map, List.getElem?_eq_getElem hil]; rfl)
    rw [hi] at e1
    cases e1
    exact ⟨_, List.getElem?_eq_getElem hil, e2⟩

theorem patLang_iff (hp : parseAll parse (ps.map Prod.fst) = .ok hs) (i : Nat) (w : List Nat) :
    PatLang parse ps i w ↔ ∃ h, hs[i]? = some h ∧ Lang h w := by
  constructor
  · rintro ⟨p, h, h1, h2, h3⟩
    obtain ⟨h', e1, e2⟩ := (parsed_get hp i).1 p h1
    rw [h2] at e2
    cases e2
    exact ⟨h, e1, h3⟩
  · rintro ⟨h, h1, h3⟩
    obtain ⟨p, e1, e2⟩ := (parsed_get hp i).2 h h1
    exact ⟨p, h, e1, e2, h3⟩

theorem lang_own {tn : TNFA} (hb : buildAll hs = .ok tn) (ho : ∀ h ∈ hs, h.ok = true) {i h w} (hi : hs[i]? = some h)
    (hw : Lang h w) : OwnAt hs i w := by
  obtain ⟨x, hx, _⟩ := (buildAll_good hb ho).2.2 i h hi
  exact ⟨h, hi, x, hx, (build_good h x hx (ho h (List.mem_of_getElem? hi))).sup w hw⟩

theorem own_lang (ho : ∀ h ∈ hs, h.ok = true) {i h w} (hi : hs[i]? = some h) (hf : h.faithful = true)
    (hw : OwnAt hs i w) : Lang h w := by
  obtain ⟨h', e1, x, hx, hacc⟩ := hw
  rw [hi] at e1
  cases e1
  exact (build_good h x hx (ho h (List.mem_of_getElem? hi))).exact hf w hacc

theorem patLang_own {tn : TNFA} (hp : parseAll parse (ps.map Prod.fst) = .ok hs) (hb : buildAll hs = .ok tn)
    (ho : ∀ h ∈ hs, h.ok = true) {i w} (h : PatLang parse ps i w) : OwnAt hs i w := by
  obtain ⟨h, h1, h2⟩ := (patLang_iff hp i w).1 h
  exact lang_own hb ho h1 h2

theorem own_patLang (hp : parseAll parse (ps.map Prod.fst) = .ok hs) (ho : ∀ h ∈ hs, h.ok = true) {i w}
    (hf : PatFaithful parse ps i) (h : OwnAt hs i w) : PatLang parse ps i w := by
  obtain ⟨h', e1, _⟩ := id h
  obtain ⟨p, e2, e3⟩ := (parsed_get hp i).2 h' e1
  exact (patLang_iff hp i w).2 ⟨h', e1, own_lang ho e1 (hf p h' e2 e3) h⟩

theorem accepts_iff {s : Seeds} {makers : List (List Nat → List α → E)} {t ws} (hb : Built s hs makers t ws)
    (hc : s.NoCollision) (w : List Nat) (k : Nat) :
    t.accepts w = some k ↔ OwnAt hs k w ∧ ∀ j < k, ¬ OwnAt hs j w := by
  obtain ⟨tn, d, h1, h2, h3, h4, h5⟩ := hb.dfa
  obtain ⟨f, hf⟩ := h5 hc
  rw [← h4, ← hf.obs h2.wf]
  unfold Tokenizer.accepts
  cases t.dfa.obs w with
  | none => simp
  | some x => simp

theorem least_of_some {P : Nat → Prop} (h : ∃ i, P i) : ∃ i, P i ∧ ∀ j < i, ¬ P j := by
  obtain ⟨i, hi⟩ := h
  induction i using Nat.strongRecOn with
  | ind i ih =>
    by_cases hj : ∃ j < i, P j
    · obtain ⟨j, h1, h2⟩ := hj
      exact ih j h1 h2
    · exact ⟨i, hi, fun j h1 h2 => hj ⟨j, h1, h2⟩⟩

theorem accepts_none_iff {s : Seeds} {makers : List (List Nat → List α → E)} {t ws} (hb : Built s hs makers t ws)
    (hc : s.NoCollision) (w : List Nat) : t.accepts w = none ↔ ∀ j, ¬ OwnAt hs j w := by
  constructor
  · intro h j hj
    obtain ⟨i, h1, h2⟩ := least_of_some (P := fun j => OwnAt hs j w) ⟨j, hj⟩
    rw [(accepts_iff hb hc w i).2 ⟨h1, h2⟩] at h
    cases h
  · intro h
    cases ha : t.accepts w with
    | none => rfl
    | some k => exact absurd ((accepts_iff hb hc w k).1 ha).1 (h k)

/-- The tokenizer built from one pattern alone. -/
theorem own_alone {s' : Seeds} {p : π × (List Nat → List α → E)} {t ws} (hok : ParserOk parse)
    (hp : parseAll parse (ps.map Prod.fst) = .ok hs) {i : Nat} (hi : ps[i]? = some p) (hs' : s'.Fair)
    (hc : s'.NoCollision) (h : BuildsTo s' parse [p] (.ok (t, ws))) (w : List Nat) :
    (t.accepts w = some 0 ↔ OwnAt hs i w) ∧ (t.accepts w = none ↔ ¬ OwnAt hs i w) := by
  obtain ⟨hirs, h1, h2, h3, h4⟩ := builds_spec hok hs' h
  obtain ⟨h0, e1, e2⟩ := (parsed_get hp i).1 p hi
  have hh : hirs = [h0] := by
    obtain ⟨l1, l2⟩ := parseAll_ok.1 h1
    obtain ⟨h', a1, a2⟩ := l2 0 p.1 rfl
    rw [e2] at a2
    cases a2
    match hirs, l1, a1 with
    | [x], _, a1 => simpa using a1
  have key : ∀ j, OwnAt hirs j w ↔ j = 0 ∧ OwnAt hs i w := by
    intro j
    rw [hh]
    unfold OwnAt
    constructor
    · rintro ⟨h', a1, a2⟩
      cases j with
      | zero => simp at a1; subst a1; exact ⟨rfl, _, e1, a2⟩
      | succ j => simp at a1
    · rintro ⟨rfl, h', a1, a2⟩
      rw [e1] at a1
      cases a1
      exact ⟨h0, rfl, a2⟩
  constructor
  · rw [accepts_iff h4 hc]
    simp only [key]
    simp
  · rw [accepts_none_iff h4 hc]
    simp only [key]
    constructor
    · intro h ho; exact h 0 ⟨rfl, ho⟩
    · rintro h j ⟨_, ho⟩; exact h ho

end Verif.Tok
