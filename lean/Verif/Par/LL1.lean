import Verif.Par.Rightmost

/-!
# LL(1) grammars (specification)

The textbook condition under which a grammar can be parsed top-down by looking at one token, for comparison with the
parsers `LR1Parser::new` (parser.rs:309-390) makes.
-/

namespace Verif.Par

/-- The terminal `a` can come first where rule number `j` is used: its right-hand side with what can follow its left-hand
side derives something that begins with `a`. -/
def Gram.Selects (g : Gram) (j : Nat) (a : Term) : Prop :=
  ∃ rule x y ρ, g.rules[j]? = some rule ∧ Derives g.rules [.nt g.start] (x ++ .nt rule.lhs :: y) ∧
    Derives g.rules (rule.rhs ++ y ++ [.tm .eoi]) (.tm a :: ρ)

/-- One terminal tells which rule for a non-terminal is to be used. -/
def Gram.LL1 (g : Gram) : Prop :=
  ∀ j j' rule rule' a, g.rules[j]? = some rule → g.rules[j']? = some rule' → rule.lhs = rule'.lhs →
    g.Selects j a → g.Selects j' a → j = j'

/-! ## The usual table check -/

/-- Sets for an LL(1) check: which non-terminals are empty-able, what they can begin with, what can follow them. -/
structure LLSets where
  null : Nat → Bool
  first : Nat → List Term
  follow : Nat → List Term

namespace LLSets

/-- The string derives nothing but, possibly, the empty string. -/
def nullAll (c : LLSets) : List Sym → Bool
  | [] => true
  | .tm _ :: _ => false
  | .nt n :: l => c.null n && c.nullAll l

/-- What a string can begin with. -/
def firstOf (c : LLSets) : List Sym → List Term
  | [] => []
  | .tm t :: _ => [t]
  | .nt n :: l => c.first n ++ if c.null n then c.firstOf l else []

/-- What the use of a rule can begin with. -/
def select (c : LLSets) (r : PRule) : List Term := c.firstOf r.rhs ++ if c.nullAll r.rhs then c.follow r.lhs else []

/-- The sets take account of what the occurrences of non-terminals in `l`, a tail of the right-hand side of a rule for `n`,
imply. -/
def followOk (c : LLSets) (n : Nat) : List Sym → Bool
  | [] => true
  | .tm _ :: l => c.followOk n l
  | .nt m :: l => (c.firstOf l).all (· ∈ c.follow m) && (!c.nullAll l || (c.follow n).all (· ∈ c.follow m)) && c.followOk n l

/-- The sets are closed under the rules, and the select sets of rules for the same non-terminal are disjoint. -/
def check (c : LLSets) (g : Gram) : Bool :=
  (Term.eoi ∈ c.follow g.start) &&
  g.rules.all (fun r => (!c.nullAll r.rhs || c.null r.lhs) && (c.firstOf r.rhs).all (· ∈ c.first r.lhs) && c.followOk r.lhs r.rhs) &&
  (g.rules.zipIdx.all fun p => g.rules.zipIdx.all fun q => (p.2 == q.2) || (p.1.lhs != q.1.lhs) || (c.select p.1).all (· ∉ c.select q.1))

end LLSets

/-- `rank` shows that every non-terminal in use derives some string of terminals. -/
def Gram.ranked (g : Gram) (rank : Nat → Nat) : Bool :=
  (.nt g.start :: g.rules.flatMap PRule.rhs).all fun
    | .tm _ => true
    | .nt n => g.rules.any fun r => (r.lhs == n) && r.rhs.all fun
      | .tm _ => true
      | .nt m => decide (rank m < rank n)

end Verif.Par
