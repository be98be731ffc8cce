import Verif.Par.Parse

/-!
# Specification: grammars that differ only in names, order of rules, and rules out of reach
-/

namespace Verif.Par

variable {N T E : Type}

def Term.rename (b : Nat → Nat) : Term → Term
  | .sym x => .sym (b x)
  | .err => .err
  | .eoi => .eoi

/-- Non-terminals are renamed by `a`, terminals by `b`. -/
def Sym.rename (a b : Nat → Nat) : Sym → Sym
  | .nt n => .nt (a n)
  | .tm t => .tm (t.rename b)

def PRule.rename (a b : Nat → Nat) (r : PRule) : PRule := ⟨a r.lhs, r.rhs.map (Sym.rename a b)⟩

/-- The callback stays the same. -/
def Rule.rename (a b : Nat → Nat) (r : Rule N T E) : Rule N T E := ⟨a r.lhs, r.rhs.map (Sym.rename a b), r.gen⟩

/-- `n` occurs in something derived from the start symbol. -/
def Gram.InReach (g : Gram) (n : Nat) : Prop := ∃ x y, Derives g.rules [.nt g.start] (x ++ .nt n :: y)

/-- Terminal `t` occurs in a rule in reach. -/
def Gram.TermInReach (g : Gram) (t : Nat) : Prop := ∃ r ∈ g.rules, g.InReach r.lhs ∧ Sym.tm (.sym t) ∈ r.rhs

/-- Rule `i` is in reach. -/
def Gram.RuleInReach (g : Gram) (i : Nat) : Prop := ∃ r, g.rules[i]? = some r ∧ g.InReach r.lhs

/-- As far as they can be reached from the start symbols, the two lists of rules are the same but for the names of
non-terminals (`a`), the numbers of terminals (`b`) and the places of the rules in the list (`σ`). -/
structure SameUpTo (a b σ : Nat → Nat) (rules : List (Rule N T E)) (start : Nat) (rules' : List (Rule N T E)) (start' : Nat) : Prop where
  begins : start' = a start
  there : ∀ i r, rules[i]? = some r → (gram rules start).InReach r.lhs → rules'[σ i]? = some (r.rename a b)
  back : ∀ j r', rules'[j]? = some r' → (gram rules' start').InReach r'.lhs → ∃ i, (gram rules start).RuleInReach i ∧ j = σ i
  a_inj : ∀ m n, (gram rules start).InReach m → (gram rules start).InReach n → a m = a n → m = n
  b_inj : ∀ x y, (gram rules start).TermInReach x → (gram rules start).TermInReach y → b x = b y → x = y
  σ_inj : ∀ i j, (gram rules start).RuleInReach i → (gram rules start).RuleInReach j → σ i = σ j → i = j

/-- `idx'` numbers tokens as `idx` does, up to `b`; tokens that occur in no rule in reach may have any number that is not
used by the rules. -/
def SameTokens (b : Nat → Nat) (g : Gram) (idx idx' : T → Nat) : Prop := ∀ t x, g.TermInReach x → (idx' t = b x ↔ idx t = x)

/-- `σ` does not change the order of rules in reach. -/
def KeepsOrder (σ : Nat → Nat) (g : Gram) : Prop := ∀ i j, g.RuleInReach i → g.RuleInReach j → i < j → σ i < σ j

end Verif.Par
