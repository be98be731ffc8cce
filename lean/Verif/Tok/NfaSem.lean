import Verif.Tok.Nfa

/-!
# Meaning of an automaton (specification)

The textbook acceptance relation of a nondeterministic automaton with ε edges.
-/

namespace Verif.Tok

/-- A path through the graph with ε edges `E` and labelled edges `S`, reading a word. -/
inductive Path (E : Nat → Nat → Prop) (S : Nat → Nat → Nat → Prop) : Nat → List Nat → Nat → Prop
  | nil (p) : Path E S p [] p
  | eps {p q w r} : E p q → Path E S q w r → Path E S p w r
  | step {p c q w r} : S p c q → Path E S q w r → Path E S p (c :: w) r

/-- ε edge of a node list. -/
def Eps (ns : List Node) (p q : Nat) : Prop := ∃ n, ns[p]? = some n ∧ q ∈ n.eps

/-- Labelled edge of a node list. -/
def Stp (ns : List Node) (p c q : Nat) : Prop :=
  ∃ n, ns[p]? = some n ∧ ∃ r t, (r, t) ∈ n.next ∧ r.1 ≤ c ∧ c < r.2 ∧ q ∈ t

/-- Path in a node list. -/
abbrev NPath (ns : List Node) := Path (Eps ns) (Stp ns)

/-- The word `w` is accepted by `x`. -/
def NFA.Accepts (x : NFA) (w : List Nat) : Prop := NPath x.node x.b w x.e

/-- Pattern `i` of a combined automaton accepts `w`. -/
def TNFA.Accepts (x : TNFA) (i : Nat) (w : List Nat) : Prop := ∃ e, x.ends[i]? = some e ∧ NPath x.node x.b w e

/-! ## Syntactic conditions used by the exactness theorem (specification side: they only read the regex) -/

mutual
/-- The regex matches the empty word. -/
def Hir.nullable : Hir → Bool
  | .empty => true
  | .rep (.oneOrMore) h => h.nullable
  | .rep (.exactly n) h => n == 0 || h.nullable
  | .rep (.atLeast n) h => n == 0 || h.nullable
  | .rep (.bounded n m) h => decide (n ≤ m) && (n == 0 || h.nullable)
  | .rep _ _ => true
  | .group h => h.nullable
  | .concat hs => Hir.nullableAll hs
  | .alt hs => Hir.nullableAny hs
  | _ => false
def Hir.nullableAll : List Hir → Bool
  | [] => true
  | h :: t => h.nullable && Hir.nullableAll t
def Hir.nullableAny : List Hir → Bool
  | [] => false
  | h :: t => h.nullable || Hir.nullableAny t
end

mutual
/-- Nothing in the automaton built for the regex leads back to its first node: the regex does not begin with a
loop. -/
def Hir.freeB : Hir → Bool
  | .empty => false
  | .rep k h =>
    match k with
    | .zeroOrOne => h.freeB
    | .zeroOrMore => false
    | .oneOrMore => false
    | .exactly n => n == 0 || h.freeB
    | .atLeast n => n != 0 && h.freeB
    | .bounded _ m => m == 0 || h.freeB
  | .group h => h.freeB
  | .concat hs => Hir.freeBHead hs
  | _ => true
def Hir.freeBHead : List Hir → Bool
  | [] => true
  | h :: _ => h.freeB
end

mutual
/-- Nothing in the automaton built for the regex leaves its last node: the regex does not end with a loop. -/
def Hir.freeE : Hir → Bool
  | .empty => false
  | .rep k h =>
    match k with
    | .zeroOrOne => h.freeE
    | .zeroOrMore => false
    | .oneOrMore => false
    | .exactly n => n == 0 || h.freeE
    | .atLeast _ => false
    | .bounded _ m => m == 0 || h.freeE
  | .group h => h.freeE
  | .concat hs => Hir.freeELast hs
  | _ => true
def Hir.freeELast : List Hir → Bool
  | [] => true
  | [h] => h.freeE
  | _ :: t => Hir.freeELast t
end

mutual
/-- Regexes for which the construction is exact: no empty regex outside `{0}`; `x?` and `x{0,m}` only where `x`
matches the empty word or neither begins nor ends with a loop; `x*` and `x{n,}` only where `x` matches the empty
word or does not begin with a loop. -/
def Hir.faithful : Hir → Bool
  | .empty => false
  | .rep k h =>
    match k with
    | .zeroOrOne => h.faithful && (h.nullable || (h.freeB && h.freeE))
    | .zeroOrMore => h.faithful && (h.nullable || h.freeB)
    | .oneOrMore => h.faithful
    | .exactly n => n == 0 || h.faithful
    | .atLeast _ => h.faithful && (h.nullable || h.freeB)
    | .bounded n m => m == 0 || (h.faithful && (n != 0 || h.nullable || (h.freeB && h.freeE)))
  | .group h => h.faithful
  | .concat hs => Hir.faithfulAll hs
  | .alt hs => Hir.faithfulAll hs
  | _ => true
def Hir.faithfulAll : List Hir → Bool
  | [] => true
  | h :: t => h.faithful && Hir.faithfulAll t
end

mutual
/-- The unsupported constructs inside a regex (byte literals, byte classes, anchors, word boundaries), in the order
in which the construction meets them: a concatenation is visited from its last element to its first. -/
def Hir.unsupported : Hir → List NfaError
  | .literalB _ => [.byteLiteral]
  | .classB => [.bytesClass]
  | .anchor => [.anchor]
  | .wordBoundary => [.wordBoundary]
  | .rep _ h => h.unsupported
  | .group h => h.unsupported
  | .concat hs => Hir.unsupportedR hs
  | .alt hs => Hir.unsupportedL hs
  | _ => []
def Hir.unsupportedR : List Hir → List NfaError
  | [] => []
  | h :: t => Hir.unsupportedR t ++ h.unsupported
def Hir.unsupportedL : List Hir → List NfaError
  | [] => []
  | h :: t => h.unsupported ++ Hir.unsupportedL t
end

end Verif.Tok
