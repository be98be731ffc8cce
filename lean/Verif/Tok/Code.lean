import Verif.Tok.Spec

/-!
# What the builder makes of a regex (specification)

`Lang` (Hir.lean) is the language a regex should have.  `Code` is the language it gets.  A regex becomes a piece of an automaton
with two ends, `false` (begin) and `true` (end), and what the pieces around it can read depends on more than the words from
begin to end: a loop may lead from the begin back to the begin, from the end to the end, or from the end to the begin.  So the
meaning of a regex is a matrix of four languages.  It is defined by recursion on the regex, without any automaton.
-/

namespace Verif.Tok

/-- `M p q` are the words leading from end `p` to end `q`. -/
abbrev Mat := Bool → Bool → List Nat → Prop

/-- The only way is from begin to end, by a word of `L`. -/
def Mat.one (L : List Nat → Prop) : Mat
  | false, true => L
  | true, false => fun _ => False
  | false, false => fun w => w = []
  | true, true => fun w => w = []

/-- Begin and end are the same, there are no ways. -/
def Mat.unit : Mat := fun _ _ w => w = []

/-- One piece behind the other: there is no way back from the second one. -/
def Mat.seq (A B : Mat) : Mat
  | false, true => fun w => ∃ u v, w = u ++ v ∧ A false true u ∧ B false true v
  | true, false => fun _ => False
  | false, false => A false false
  | true, true => B true true

/-- A piece with an additional jump from `x` to `y`. -/
inductive Mat.Jump (M : Mat) (x y : Bool) : Mat
  | stay {p q w} : M p q w → Mat.Jump M x y p q w
  | jump {p q u v} : M p x u → Mat.Jump M x y y q v → Mat.Jump M x y p q (u ++ v)

/-- `n` pieces in a row. -/
def Mat.chain (M : Mat) : Nat → Mat
  | 0 => Mat.unit
  | 1 => M
  | n + 2 => Mat.seq (Mat.chain M (n + 1)) M

/-- From `n` to `m` pieces in a row, `1 ≤ n < m`. -/
def Mat.upTo (M : Mat) (n m : Nat) : Mat
  | false, true => fun w => ∃ k, n ≤ k ∧ k ≤ m ∧ Pow (M false true) k w
  | true, false => fun _ => False
  | false, false => M false false
  | true, true => M true true

/-- A loop from the end to the begin, which then is the end too. -/
def Mat.star (M : Mat) : Mat := fun _ _ => Mat.Jump M true false false false

/-- Repetition operators. -/
def Mat.rep (M : Mat) : RepKind → Mat
  | .zeroOrOne => Mat.Jump M false true
  | .zeroOrMore => Mat.star M
  | .oneOrMore => Mat.Jump M true false
  | .exactly n => Mat.chain M n
  | .atLeast n => if n = 0 then Mat.star M else Mat.seq (Mat.chain M n) (Mat.star M)
  | .bounded n m =>
    if n = m then Mat.chain M n
    else if n ≠ 0 then Mat.upTo M n m
    else if m = 1 then Mat.Jump M false true
    else Mat.Jump (Mat.upTo M 1 m) false true

mutual
/-- The four languages of a regex as it is translated. -/
def Code : Hir → Mat
  | .empty => fun _ _ w => ∀ c ∈ w, c < 0x110000
  | .literalU c => Mat.one fun w => w = [c]
  | .literalB _ => fun _ _ _ => False
  | .classU rs => Mat.one fun w => ∃ c, w = [c] ∧ ∃ r ∈ rs, r.1 ≤ c ∧ c ≤ r.2
  | .classB => fun _ _ _ => False
  | .anchor => fun _ _ _ => False
  | .wordBoundary => fun _ _ _ => False
  | .rep k h => Mat.rep (Code h) k
  | .group h => Code h
  | .concat hs => CodeSeq hs
  | .alt hs => Mat.one (CodeAny hs)
/-- Concatenation. -/
def CodeSeq : List Hir → Mat
  | [] => Mat.unit
  | [h] => Code h
  | h :: t => Mat.seq (Code h) (CodeSeq t)
/-- Alternation. -/
def CodeAny : List Hir → List Nat → Prop
  | [] => fun _ => False
  | h :: t => fun w => Code h false true w ∨ CodeAny t w
end

/-- `w` is read by pattern number `i` as it is translated. -/
def PatCode {π ρ β : Type} (parse : π → Except ρ Hir) (ps : List (π × β)) (i : Nat) (w : List Nat) : Prop :=
  ∃ p h, ps[i]? = some p ∧ parse p.1 = .ok h ∧ Code h false true w

end Verif.Tok
