/-!
# Regular expressions and their languages (specification)

`Hir` models `regex_syntax::hir::HirKind` (regex-syntax 0.6), the type `tokenizer/src/nfa.rs:246-247` matches on.
Characters are code points (`Nat`).  `Lang` is the independent specification: the textbook regular language.
-/

namespace Verif.Tok

/-- `regex_syntax::hir::{RepetitionKind, RepetitionRange}` as matched in nfa.rs:285-413 (`greedy` is never read). -/
inductive RepKind where
  | zeroOrOne
  | zeroOrMore
  | oneOrMore
  | exactly (n : Nat)
  | atLeast (n : Nat)
  | bounded (n m : Nat)
  deriving DecidableEq, Repr

/-- `regex_syntax::hir::HirKind` as matched in nfa.rs:247-442.  `classU` holds inclusive code point ranges. -/
inductive Hir where
  | empty
  | literalU (c : Nat)
  | literalB (b : Nat)
  | classU (ranges : List (Nat × Nat))
  | classB
  | anchor
  | wordBoundary
  | rep (k : RepKind) (h : Hir)
  | group (h : Hir)
  | concat (hs : List Hir)
  | alt (hs : List Hir)

/-- Number of repetitions a repetition operator allows (specification). -/
def RepKind.allows : RepKind → Nat → Prop
  | .zeroOrOne, k => k ≤ 1
  | .zeroOrMore, _ => True
  | .oneOrMore, k => 1 ≤ k
  | .exactly n, k => k = n
  | .atLeast n, k => n ≤ k
  | .bounded n m, k => n ≤ k ∧ k ≤ m

/-- `Pow L n w`: `w` is a concatenation of `n` words of `L` (specification). -/
def Pow (L : List Nat → Prop) : Nat → List Nat → Prop
  | 0, w => w = []
  | n + 1, w => ∃ u v, w = u ++ v ∧ L u ∧ Pow L n v

mutual
/-- The regular language of a regex (specification).  Unsupported constructs have the empty language. -/
def Lang : Hir → List Nat → Prop
  | .empty => fun w => w = []
  | .literalU c => fun w => w = [c]
  | .literalB _ => fun _ => False
  | .classU rs => fun w => ∃ c, w = [c] ∧ ∃ r ∈ rs, r.1 ≤ c ∧ c ≤ r.2
  | .classB => fun _ => False
  | .anchor => fun _ => False
  | .wordBoundary => fun _ => False
  | .rep k h => fun w => ∃ n, k.allows n ∧ Pow (Lang h) n w
  | .group h => Lang h
  | .concat hs => LangSeq hs
  | .alt hs => LangAny hs
/-- Language of a concatenation. -/
def LangSeq : List Hir → List Nat → Prop
  | [] => fun w => w = []
  | h :: t => fun w => ∃ u v, w = u ++ v ∧ Lang h u ∧ LangSeq t v
/-- Language of an alternation. -/
def LangAny : List Hir → List Nat → Prop
  | [] => fun _ => False
  | h :: t => fun w => Lang h w ∨ LangAny t w
end

/-- Class ranges as regex-syntax guarantees them (canonical `ClassUnicode`): non-empty, and strictly
increasing without overlap. -/
def classOk (rs : List (Nat × Nat)) : Bool :=
  (rs.all fun r => decide (r.1 ≤ r.2)) && decide (rs.Pairwise fun a b => a.2 < b.1)

mutual
/-- Invariants of values made by `regex_syntax::Parser`: canonical classes, no empty concatenation,
`{n,m}` with `n ≤ m`. -/
def Hir.ok : Hir → Bool
  | .classU rs => classOk rs
  | .rep (.bounded n m) h => decide (n ≤ m) && h.ok
  | .rep _ h => h.ok
  | .group h => h.ok
  | .concat hs => !hs.isEmpty && Hir.okList hs
  | .alt hs => Hir.okList hs
  | _ => true
def Hir.okList : List Hir → Bool
  | [] => true
  | h :: t => h.ok && Hir.okList t
end

/-- Induction over regexes with the induction hypothesis for all members of a list. -/
theorem Hir.ind {P : Hir → Prop}
    (empty : P .empty) (literalU : ∀ c, P (.literalU c)) (literalB : ∀ b, P (.literalB b))
    (classU : ∀ rs, P (.classU rs)) (classB : P .classB) (anchor : P .anchor) (wordBoundary : P .wordBoundary)
    (rep : ∀ k h, P h → P (.rep k h)) (group : ∀ h, P h → P (.group h))
    (concat : ∀ hs, (∀ h ∈ hs, P h) → P (.concat hs)) (alt : ∀ hs, (∀ h ∈ hs, P h) → P (.alt hs)) :
    ∀ h, P h
  | .empty => empty
  | .literalU c => literalU c
  | .literalB b => literalB b
  | .classU rs => classU rs
  | .classB => classB
  | .anchor => anchor
  | .wordBoundary => wordBoundary
  | .rep k h => rep k h (Hir.ind empty literalU literalB classU classB anchor wordBoundary rep group concat alt h)
  | .group h => group h (Hir.ind empty literalU literalB classU classB anchor wordBoundary rep group concat alt h)
  | .concat hs => concat hs (fun h _ => Hir.ind empty literalU literalB classU classB anchor wordBoundary rep group concat alt h)
  | .alt hs => alt hs (fun h _ => Hir.ind empty literalU literalB classU classB anchor wordBoundary rep group concat alt h)
termination_by h => sizeOf h
decreasing_by all_goals (simp_wf; try omega)
              all_goals (have := List.sizeOf_lt_of_mem ‹_ ∈ _›; omega)

end Verif.Tok
