import Verif.Par.Tables

/-!
# Specification of LR(1) tables

What tables should say, in terms of valid items.  `R` are the rules with the start rule (number `s`) appended.
-/

namespace Verif.Par

/-- The action of the tables. -/
def Tables.act (T : Tables) (q : Nat) (a : Term) : Option (Action Nat) := (get q T.action).bind (get a)

/-- The successor of a state under a symbol. -/
def Tables.goes (T : Tables) (q : Nat) : Sym → Option Nat
  | .nt n => (get q T.goto).bind (get n)
  | .tm t => match T.act q t with
    | some (.shift q') => some q'
    | _ => none

/-- The state after a sequence of symbols. -/
def Tables.walkFrom (T : Tables) (q : Nat) : List Sym → Option Nat
  | [] => some q
  | X :: γ => (T.goes q X).bind fun q' => T.walkFrom q' γ

def Tables.walk (T : Tables) (γ : List Sym) : Option Nat := T.walkFrom T.start γ

/-- Rule `r` is complete after `γ` with look-ahead `a`. -/
def Complete (R : List PRule) (s : Nat) (γ : List Sym) (r : Nat) (a : Term) : Prop :=
  ∃ rule, R[r]? = some rule ∧ Valid R s γ ⟨r, rule.rhs.length, a⟩

/-- Some item valid for `γ` expects the symbol `X`. -/
def Expects (R : List PRule) (s : Nat) (γ : List Sym) (X : Sym) : Prop :=
  ∃ i rule, Valid R s γ i ∧ R[i.rule]? = some rule ∧ rule.rhs[i.pos]? = some X

/-- The start rule is complete. -/
def Accepts (R : List PRule) (s : Nat) (γ : List Sym) : Prop := ∃ a, Complete R s γ s a

/-- `S` is the ordered set of the items valid for `γ`. -/
def ItemsOf (R : List PRule) (s : Nat) (γ : List Sym) (S : State) : Prop := OSet.Sorted S ∧ ∀ i, i ∈ S ↔ Valid R s γ i

/-- The tables are the canonical LR(1) tables, with conflicts resolved for shift and for the earlier rule. -/
structure Canonical (R : List PRule) (s : Nat) (T : Tables) : Prop where
  /-- exactly the viable prefixes lead to a state -/
  walk_iff : ∀ γ, (∃ q, T.walk γ = some q) ↔ ∃ i, Valid R s γ i
  /-- states are the same exactly if the valid items are -/
  same : ∀ γ γ' q q', T.walk γ = some q → T.walk γ' = some q' → (q = q' ↔ ∀ i, Valid R s γ i ↔ Valid R s γ' i)
  row : ∀ γ q, T.walk γ = some q → ∃ row, get q T.action = some row
  goes : ∀ γ q X, T.walk γ = some q → ((∃ q', T.goes q X = some q') ↔ Expects R s γ X)
  accept : ∀ γ q a, T.walk γ = some q → (T.act q a = some .accept ↔ a = .eoi ∧ Accepts R s γ)
  reduce : ∀ γ q a r, T.walk γ = some q → (T.act q a = some (.reduce r) ↔
    r ≠ s ∧ Complete R s γ r a ∧ ¬ Expects R s γ (.tm a) ∧ ¬ (a = .eoi ∧ Accepts R s γ) ∧
      ∀ r', r' ≠ s → Complete R s γ r' a → r ≤ r')
  errors : ∀ γ q r, T.walk γ = some q → (r ∈ (get q T.errors).getD [] ↔
    ∃ i rule, Valid R s γ i ∧ i.rule = r ∧ R[r]? = some rule ∧ rule.rhs[i.pos]? = some (.tm .err))
  errors_ne : ∀ q es, get q T.errors = some es → es ≠ []

/-- The warnings say exactly which reductions lost against a shift or an earlier rule. -/
structure WarnExact (R : List PRule) (s : Nat) (ws : List Warning) : Prop where
  shiftReduce : ∀ S S' r, .shiftReduce S S' r ∈ ws ↔ ∃ γ a, ItemsOf R s γ S ∧ ItemsOf R s (γ ++ [.tm a]) S' ∧
    r ≠ s ∧ Complete R s γ r a ∧ Expects R s γ (.tm a)
  reduceReduce : ∀ S r r', .reduceReduce S r r' ∈ ws ↔ ∃ γ a, ItemsOf R s γ S ∧ r ≠ s ∧ r' ≠ s ∧ r < r' ∧
    Complete R s γ r a ∧ Complete R s γ r' a ∧ ¬ Expects R s γ (.tm a) ∧ ∀ r'', r'' ≠ s → Complete R s γ r'' a → r ≤ r''

/-- In the state `S`, with look-ahead `a`, rule `r` is complete but loses: against a shift, or else against the first
complete rule.  `w` says this. -/
def Conflict (R : List PRule) (s : Nat) (S : State) (a : Term) (r : Nat) (w : Warning) : Prop :=
  ∃ γ, ItemsOf R s γ S ∧ r ≠ s ∧ Complete R s γ r a ∧
    ((∃ S', Expects R s γ (.tm a) ∧ ItemsOf R s (γ ++ [.tm a]) S' ∧ w = .shiftReduce S S' r) ∨
     (¬ Expects R s γ (.tm a) ∧ ∃ r', r' ≠ s ∧ r' < r ∧ Complete R s γ r' a ∧ (∀ r'', r'' ≠ s → Complete R s γ r'' a → r' ≤ r'') ∧
       w = .reduceReduce S r' r))

/-- `ws` has exactly one warning for each conflict. -/
def OneEach (R : List PRule) (s : Nat) (ws : List Warning) : Prop :=
  ∃ L : List (State × Term × Nat × Warning), L.Nodup ∧ (∀ S a r w, (S, a, r, w) ∈ L ↔ Conflict R s S a r w) ∧
    ws = L.map fun x => x.2.2.2

/-- The tables have the states `0, …, k - 1`. -/
def Tables.HasStates (tab : Tables) (k : Nat) : Prop := ∀ q, (∃ row, get q tab.action = some row) ↔ q < k

/-- The same items are valid. -/
def SameItems (R : List PRule) (s : Nat) (γ γ' : List Sym) : Prop := ∀ i, Valid R s γ i ↔ Valid R s γ' i

/-- Number of places for the dot. -/
def dots (R : List PRule) : Nat := (R.map fun r => r.rhs.length + 1).sum

end Verif.Par
