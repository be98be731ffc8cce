import Verif.Par.Parse

/-!
# Tables with an entry left out (specification)
-/

namespace Verif.Par

variable {N T E : Type}

/-- The tables without the action of state `q` on `a`. -/
def Tables.dropAction (t : Tables) (q : Nat) (a : Term) : Tables :=
  { t with action := t.action.map fun x => (x.1, if x.1 = q then x.2.filter fun y => decide (y.1 ≠ a) else x.2) }

/-- The tables without the goto of state `q` on the non-terminal `n`. -/
def Tables.dropGoto (t : Tables) (q n : Nat) : Tables :=
  { t with goto := t.goto.map fun x => (x.1, if x.1 = q then x.2.filter fun y => decide (y.1 ≠ n) else x.2) }

def Parser.dropAction (p : Parser N T E) (q : Nat) (a : Term) : Parser N T E := { p with tab := p.tab.dropAction q a }

def Parser.dropGoto (p : Parser N T E) (q n : Nat) : Parser N T E := { p with tab := p.tab.dropGoto q n }

/-- No callback returns an error. -/
def Unfailing (rules : List (Rule N T E)) : Prop := ∀ rule ∈ rules, ∀ args, ∃ v, rule.gen args = .ok v

/-- There is a token for every terminal of the rules. -/
def Typed (idx : T → Nat) (g : Gram) : Prop := ∀ r ∈ g.rules, ∀ t, Sym.tm (.sym t) ∈ r.rhs → ∃ x, idx x = t

/-- In the parse of `input` the loop gets into state `q`. -/
def Visits (idx : T → Nat) (p : Parser N T E) (input : List T) (q : Nat) : Prop :=
  ∃ n c, run idx p n (Cfg.init p input) = .more c ∧ c.state = q

end Verif.Par
