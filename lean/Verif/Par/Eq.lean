import Verif.Par.Parse
import Verif.Par.Syntax

/-!
# Equality of parsers and syntaxes

`LR1Parser` and `Syntax` derive `PartialEq` (parser.rs:311, syntax.rs:13): all fields are compared.  The rules are
compared with `Rule::eq`, which does not look at the callbacks; the tables are hash maps and hash sets and are compared
as the standard library does it.
-/

namespace Verif.Par

variable {N T E : Type}

/-- `==` of two `HashMap`s: the same number of entries, and each entry of the first is found in the second with an equal
value (standard library; used by the derived `==` of parser.rs:311 for the tables of parser.rs:314-316). -/
def mapEq {κ β : Type} [DecidableEq κ] (eqv : β → β → Bool) (m m' : List (κ × β)) : Bool :=
  m.length == m'.length && m.all fun x =>
    match get x.1 m' with
    | some v => eqv x.2 v
    | none => false

/-- `==` of two `HashSet`s, for `error_rules` (parser.rs:316).  The lists of the model may name a rule more than once, so
that inclusion in both directions takes the place of the comparison of sizes. -/
def setEq (l l' : List Nat) : Bool := (l.all fun r => l'.contains r) && l'.all fun r => l.contains r

/-- `==` of two `Vec<Rule>`s (syntax.rs:15, parser.rs:313), with `Rule::eq`, syntax.rs:81-85. -/
def rulesEq : List (Rule N T E) → List (Rule N T E) → Bool
  | [], [] => true
  | r :: l, r' :: l' => r.beq r' && rulesEq l l'
  | _, _ => false

/-- The tables and the start state, parser.rs:314-317, compared by the derived `==` of parser.rs:311. -/
def Tables.eq (A B : Tables) : Bool :=
  mapEq (mapEq fun x y => x == y) A.action B.action && mapEq (mapEq fun x y => x == y) A.goto B.goto &&
    mapEq setEq A.errors B.errors && A.start == B.start

/-- `==` of two `LR1Parser`s, derived, parser.rs:311-318. -/
def Parser.eq (p q : Parser N T E) : Bool := rulesEq p.rules q.rules && p.tab.eq q.tab

/-- `==` of two `Syntax`es, derived, syntax.rs:13-17. -/
def syntaxEq (x y : List (Rule N T E) × Nat) : Bool := rulesEq x.1 y.1 && x.2 == y.2

end Verif.Par
