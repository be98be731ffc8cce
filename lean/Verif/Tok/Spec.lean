import Verif.Tok.Builder

/-!
# Vocabulary of the tokenizer properties (specification)
-/

namespace Verif.Tok

/-- A regex parser that keeps the invariants of `regex_syntax` values. -/
def ParserOk {π ρ : Type} (parse : π → Except ρ Hir) : Prop := ∀ p h, parse p = .ok h → h.ok = true

/-- `w` belongs to the regular language of pattern number `i`. -/
def PatLang {π ρ β : Type} (parse : π → Except ρ Hir) (ps : List (π × β)) (i : Nat) (w : List Nat) : Prop :=
  ∃ p h, ps[i]? = some p ∧ parse p.1 = .ok h ∧ Lang h w

/-- Pattern number `i` is in the class of regexes for which the construction is exact. -/
def PatFaithful {π ρ β : Type} (parse : π → Except ρ Hir) (ps : List (π × β)) (i : Nat) : Prop :=
  ∀ p h, ps[i]? = some p → parse p.1 = .ok h → h.faithful = true

/-- The regex contains the unsupported construct `e` somewhere. -/
inductive Has (e : NfaError) : Hir → Prop
  | literalB (b) : e = .byteLiteral → Has e (.literalB b)
  | classB : e = .bytesClass → Has e .classB
  | anchor : e = .anchor → Has e .anchor
  | wordBoundary : e = .wordBoundary → Has e .wordBoundary
  | rep (k h) : Has e h → Has e (.rep k h)
  | group (h) : Has e h → Has e (.group h)
  | concat (hs h) : h ∈ hs → Has e h → Has e (.concat hs)
  | alt (hs h) : h ∈ hs → Has e h → Has e (.alt hs)

/-! ## Concrete values for examples -/

/-- A regex parser on regexes that are already parsed. -/
def parse0 (h : Hir) : Except Unit Hir := if h.ok then .ok h else .error ()

theorem parse0_ok : ParserOk parse0 := by
  intro p h hp
  unfold parse0 at hp
  split at hp
  · cases hp; assumption
  · cases hp

/-- Insertion order everywhere, no collision. -/
def seeds0 : Seeds :=
  { ord := id, min := { visit := fun _ _ l => l, order := fun _ _ l => l, collide := fun _ _ _ _ _ => false, pick := fun l => l.headD 0 } }

theorem seeds0_fair : seeds0.Fair := by
  refine ⟨fun l => List.Perm.refl _, ⟨fun _ _ l => List.Perm.refl _, fun _ _ l => List.Perm.refl _, ?_⟩⟩
  intro l h
  cases l with
  | nil => exact absurd rfl h
  | cons a l => simp [seeds0]

theorem seeds0_noCollision : seeds0.NoCollision := fun _ _ _ _ _ => rfl

/-- The same, but keys that compare equal are always confused. -/
def seeds1 : Seeds := { seeds0 with min := { seeds0.min with collide := fun _ _ _ _ _ => true } }

theorem seeds1_fair : seeds1.Fair := by
  refine ⟨fun l => List.Perm.refl _, ⟨fun _ _ l => List.Perm.refl _, fun _ _ l => List.Perm.refl _, ?_⟩⟩
  intro l h
  exact seeds0_fair.min.pick l h

/-- A callback that returns the pattern number and the items. -/
def tag (k : Nat) : List Nat → List Nat → Nat × List Nat := fun _ items => (k, items)

/-- Patterns with such callbacks. -/
def tagged (hs : List Hir) : List (Hir × (List Nat → List Nat → Nat × List Nat)) :=
  hs.zipIdx.map fun (h, i) => (h, tag i)

/-- The tokenizer built from parsed regexes with the given seeds (with plenty of fuel), for examples. -/
def tok0 (s : Seeds) (hs : List Hir) : Option (Tokenizer Nat (Nat × List Nat) × List (Nat × Nat)) :=
  match builderBuild 50 s parse0 (tagged hs) with
  | some (.ok r) => some r
  | _ => none

/-- Accept index of a built example tokenizer (`none` if the build failed). -/
def acc0 (s : Seeds) (hs : List Hir) (w : List Nat) : Option (Option Nat) := (tok0 s hs).map fun r => r.1.accepts w

theorem acc0_spec {s : Seeds} {hs : List Hir} {w k} (h : acc0 s hs w = some k) :
    ∃ t ws, BuildsTo s parse0 (tagged hs) (.ok (t, ws)) ∧ t.accepts w = k := by
  unfold acc0 at h
  obtain ⟨⟨t, ws⟩, h1, h2⟩ := Option.map_eq_some_iff.1 h
  refine ⟨t, ws, ⟨50, ?_⟩, h2⟩
  unfold tok0 at h1
  split at h1
  · rename_i r hr; cases h1; exact hr
  · cases h1

/-- Regex `a`, `b`, `x`, `y`. -/
abbrev ra : Hir := .literalU 97
abbrev rb : Hir := .literalU 98
abbrev rx : Hir := .literalU 120
abbrev ry : Hir := .literalU 121

end Verif.Tok
