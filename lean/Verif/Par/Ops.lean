import Verif.Par.Trees
import Verif.Par.Grammar

/-!
# Expressions with operators (specification for C64)

The usual ambiguous grammar: one non-terminal, one rule for each operator.
-/

namespace Verif.Par

/-- The token kinds in their roles.  `pars` are pairs of brackets, `ites` are pairs of `if` and `else`. -/
structure Ops where
  atoms : List Nat
  pres : List Nat
  posts : List Nat
  bins : List Nat
  pars : List (Nat × Nat)
  ites : List (Nat × Nat)

/-- A token kind as a symbol. -/
abbrev tk (t : Nat) : Sym := .tm (.sym t)

/-- `E → a | p E | E q | E o E | ( E ) | if E | if E else E`. -/
def Ops.rules (o : Ops) (s : Nat) : List PRule :=
  o.atoms.map (fun t => ⟨s, [tk t]⟩) ++ o.pres.map (fun t => ⟨s, [tk t, .nt s]⟩) ++ o.posts.map (fun t => ⟨s, [.nt s, tk t]⟩) ++
  o.bins.map (fun t => ⟨s, [.nt s, tk t, .nt s]⟩) ++ o.pars.map (fun x => ⟨s, [tk x.1, .nt s, tk x.2]⟩) ++
  o.ites.map (fun x => ⟨s, [tk x.1, .nt s]⟩) ++ o.ites.map (fun x => ⟨s, [tk x.1, .nt s, tk x.2, .nt s]⟩)

/-- The role of a token is clear from whether it stands in front of an expression or behind one.  A token may have one role of each kind,
like `-` in most languages. -/
structure Ops.Ok (o : Ops) : Prop where
  some : o.atoms ≠ []
  before : (o.atoms ++ o.pres ++ o.pars.map Prod.fst ++ o.ites.map Prod.fst).Nodup
  after : (o.posts ++ o.bins).Nodup
  close : ∀ x ∈ o.pars, x.2 ∉ o.posts ∧ x.2 ∉ o.bins ∧ x.2 ∉ o.ites.map Prod.snd
  els : ∀ x ∈ o.ites, x.2 ∉ o.posts ∧ x.2 ∉ o.bins

variable {T : Type}

/-- The last child is a token. -/
def Tree.Closed (f : Tree T) : Prop := ∃ r cs i t, f = .node r (cs ++ [.leaf i t])

/-- At the right end there is an `if` without `else`, for which `e` would be the `else`. -/
inductive Dangles (ites : List (Nat × Nat)) (idx : T → Nat) (e : Nat) : Tree T → Prop
  | here (r i t x) : (idx t, e) ∈ ites → Dangles ites idx e (.node r [.leaf i t, x])
  | last (r cs x) : Dangles ites idx e x → Dangles ites idx e (.node r (cs ++ [x]))

/-- Everything is grouped to the right: what stands to the left of an operator ends with a token, that is, it is not an application of a
binary operator, of a prefix operator or of `if`; and `else` belongs to the nearest `if`. -/
inductive RightGrouped (ites : List (Nat × Nat)) (idx : T → Nat) : Tree T → Prop
  | atom (r i t) : RightGrouped ites idx (.node r [.leaf i t])
  | pre (r i t x) : RightGrouped ites idx x → RightGrouped ites idx (.node r [.leaf i t, x])
  | post (r x i t) : RightGrouped ites idx x → x.Closed → RightGrouped ites idx (.node r [x, .leaf i t])
  | bin (r x i t y) : RightGrouped ites idx x → x.Closed → RightGrouped ites idx y → RightGrouped ites idx (.node r [x, .leaf i t, y])
  | par (r i t x j u) : RightGrouped ites idx x → RightGrouped ites idx (.node r [.leaf i t, x, .leaf j u])
  | ite (r i t x j u y) : RightGrouped ites idx x → ¬ Dangles ites idx (idx u) x → RightGrouped ites idx y →
      RightGrouped ites idx (.node r [.leaf i t, x, .leaf j u, y])

end Verif.Par
