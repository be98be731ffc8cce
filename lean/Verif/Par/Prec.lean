import Verif.Par.Trees
import Verif.Par.Ops

/-!
# Expressions with levels of precedence (specification for C67)

The usual unambiguous grammar: one non-terminal for each level.
-/

namespace Verif.Par

/-- How the operators of a level are written and grouped. -/
inductive Fix where
  | left
  | right
  | non
  | pre
  | post
  deriving DecidableEq, Repr

structure Level where
  fix : Fix
  ops : List Nat

/-- The levels, the loosest one first; the atoms; the pairs of brackets. -/
structure Prec where
  levels : List Level
  atoms : List Nat
  pars : List (Nat × Nat)

/-- The right-hand side of the rule for an operator of level `i`. -/
def Fix.rhs (i t : Nat) : Fix → List Sym
  | .left => [.nt i, tk t, .nt (i + 1)]
  | .right => [.nt (i + 1), tk t, .nt i]
  | .non => [.nt (i + 1), tk t, .nt (i + 1)]
  | .pre => [tk t, .nt i]
  | .post => [.nt i, tk t]

/-- The rules of level `i` and of the levels behind it: `Ei → Ei+1` and a rule for each operator; behind the last level `En → a | ( E0 )`. -/
def precRules (atoms : List Nat) (pars : List (Nat × Nat)) : Nat → List Level → List PRule
  | n, [] => atoms.map (fun t => ⟨n, [tk t]⟩) ++ pars.map (fun x => ⟨n, [tk x.1, .nt 0, tk x.2]⟩)
  | i, L :: Ls => ⟨i, [.nt (i + 1)]⟩ :: L.ops.map (fun t => ⟨i, L.fix.rhs i t⟩) ++ precRules atoms pars (i + 1) Ls

def Prec.rules (P : Prec) : List PRule := precRules P.atoms P.pars 0 P.levels

/-- The tokens that stand in front of an operand, and those that stand behind one. -/
def Prec.before (P : Prec) : List Nat := P.atoms ++ P.pars.map Prod.fst ++ P.levels.flatMap fun L => if L.fix = .pre then L.ops else []
def Prec.after (P : Prec) : List Nat := P.levels.flatMap fun L => if L.fix = .pre then [] else L.ops

/-- The role of a token is clear from whether it stands in front of an operand or behind one.  A token may have one role of each kind. -/
structure Prec.Ok (P : Prec) : Prop where
  some : P.atoms ≠ []
  before : P.before.Nodup
  after : P.after.Nodup
  close : ∀ x ∈ P.pars, x.2 ∉ P.after

/-- `t` is an operator of level `i`. -/
def Prec.Op (P : Prec) (i : Nat) (f : Fix) (t : Nat) : Prop := ∃ L, P.levels[i]? = some L ∧ L.fix = f ∧ t ∈ L.ops

/-- Expressions over tokens. -/
inductive Ex (T : Type) where
  | atom (t : T)
  | bin (l : Ex T) (t : T) (r : Ex T)
  | pre (t : T) (e : Ex T)
  | post (e : Ex T) (t : T)
  | par (t : T) (e : Ex T) (u : T)

variable {N T E : Type}

/-- How an expression is written. -/
def Ex.tokens : Ex T → List T
  | .atom t => [t]
  | .bin l t r => l.tokens ++ t :: r.tokens
  | .pre t e => t :: e.tokens
  | .post e t => e.tokens ++ [t]
  | .par t e u => t :: e.tokens ++ [u]

/-- `e` is grouped as the levels demand, and its outermost operator is of level `i` (or `e` is an atom or in brackets and `i` is the number
of levels): operands are of higher levels; of the same level only where the operators of the level associate to this side, or the operator
is written only on the other side. -/
inductive Grp (P : Prec) (idx : T → Nat) : Nat → Ex T → Prop
  | atom (t) : idx t ∈ P.atoms → Grp P idx P.levels.length (.atom t)
  | par (t e u i) : (idx t, idx u) ∈ P.pars → Grp P idx i e → Grp P idx P.levels.length (.par t e u)
  | left (i l t r j k) : P.Op i .left (idx t) → Grp P idx j l → Grp P idx k r → i ≤ j → i < k → Grp P idx i (.bin l t r)
  | right (i l t r j k) : P.Op i .right (idx t) → Grp P idx j l → Grp P idx k r → i < j → i ≤ k → Grp P idx i (.bin l t r)
  | non (i l t r j k) : P.Op i .non (idx t) → Grp P idx j l → Grp P idx k r → i < j → i < k → Grp P idx i (.bin l t r)
  | pre (i t e j) : P.Op i .pre (idx t) → Grp P idx j e → i ≤ j → Grp P idx i (.pre t e)
  | post (i e t j) : P.Op i .post (idx t) → Grp P idx j e → i ≤ j → Grp P idx i (.post e t)

/-- The value of an expression, by the callbacks of the rules for its operators. -/
inductive Value (rules : List (Rule N T E)) (idx : T → Nat) : Ex T → N → Prop
  | atom (t r v) : r ∈ rules → r.rhs = [tk (idx t)] → r.gen [.tok t] = .ok v → Value rules idx (.atom t) v
  | bin (l t e r a b x y v) : r ∈ rules → r.rhs = [.nt a, tk (idx t), .nt b] → Value rules idx l x → Value rules idx e y →
      r.gen [.nt x, .tok t, .nt y] = .ok v → Value rules idx (.bin l t e) v
  | pre (t e r a x v) : r ∈ rules → r.rhs = [tk (idx t), .nt a] → Value rules idx e x → r.gen [.tok t, .nt x] = .ok v →
      Value rules idx (.pre t e) v
  | post (e t r a x v) : r ∈ rules → r.rhs = [.nt a, tk (idx t)] → Value rules idx e x → r.gen [.nt x, .tok t] = .ok v →
      Value rules idx (.post e t) v
  | par (t e u r a x v) : r ∈ rules → r.rhs = [tk (idx t), .nt a, tk (idx u)] → Value rules idx e x →
      r.gen [.tok t, .nt x, .tok u] = .ok v → Value rules idx (.par t e u) v

/-- The rules `Ei → Ei+1` hand on the value. -/
def Transparent (rules : List (Rule N T E)) : Prop := ∀ r ∈ rules, ∀ a, r.rhs = [.nt a] → ∀ v, r.gen [.nt v] = .ok v

/-! ## Writing expressions -/

/-- All atoms, operators and brackets are declared; grouping is free. -/
def Ex.Uses (P : Prec) (idx : T → Nat) : Ex T → Prop
  | .atom t => idx t ∈ P.atoms
  | .bin l t r => (∃ i, P.Op i .left (idx t) ∨ P.Op i .right (idx t) ∨ P.Op i .non (idx t)) ∧ l.Uses P idx ∧ r.Uses P idx
  | .pre t e => (∃ i, P.Op i .pre (idx t)) ∧ e.Uses P idx
  | .post e t => (∃ i, P.Op i .post (idx t)) ∧ e.Uses P idx
  | .par t e u => (idx t, idx u) ∈ P.pars ∧ e.Uses P idx

/-- The level of an operator that is written in front of its operand (`true`) or behind one (`false`). -/
def Prec.levelOf (P : Prec) (front : Bool) (t : Nat) : Nat := P.levels.findIdx fun L => decide (L.fix = .pre) == front && L.ops.contains t

/-- The levels that the operands of an operator between operands need at least. -/
def Prec.sidesOf (P : Prec) (t : Nat) : Nat × Nat :=
  let i := P.levelOf false t
  match P.levels[i]?.map Level.fix with
  | some .left => (i, i + 1)
  | some .right => (i + 1, i)
  | _ => (i + 1, i + 1)

def Ex.root (P : Prec) (idx : T → Nat) : Ex T → Nat
  | .bin _ t _ => P.levelOf false (idx t)
  | .pre t _ => P.levelOf true (idx t)
  | .post _ t => P.levelOf false (idx t)
  | _ => P.levels.length

/-- Puts brackets around an operand that binds more loosely than `k`. -/
def Ex.wrap (P : Prec) (idx : T → Nat) (o c : T) (k : Nat) (e : Ex T) : Ex T := if e.root P idx < k then .par o e c else e

/-- Puts brackets where the grouping needs them. -/
def Ex.close (P : Prec) (idx : T → Nat) (o c : T) : Ex T → Ex T
  | .atom t => .atom t
  | .bin l t r => .bin ((l.close P idx o c).wrap P idx o c (P.sidesOf (idx t)).1) t ((r.close P idx o c).wrap P idx o c (P.sidesOf (idx t)).2)
  | .pre t e => .pre t ((e.close P idx o c).wrap P idx o c (P.levelOf true (idx t)))
  | .post e t => .post ((e.close P idx o c).wrap P idx o c (P.levelOf false (idx t))) t
  | .par t e u => .par t (e.close P idx o c) u

end Verif.Par
