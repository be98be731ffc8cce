import Verif.Par.Stop

/-!
# Inputs in which parts of sentences are replaced by something wrong (specification)
-/

namespace Verif.Par

variable {T : Type}

/-- The tokens from position `i` up to and not including position `k`, as symbols. -/
def stretch (idx : T → Nat) (input : List T) (i k : Nat) : List Sym := ((input.drop i).take (k - i)).map fun t => .tm (.sym (idx t))

/-- The token at position `k`, or the end of input. -/
def tokenAt (idx : T → Nat) (input : List T) (k : Nat) : Term :=
  match input[k]? with
  | some t => .sym (idx t)
  | none => .eoi

/-- The tokens from position `lo` up to position `stop` are wrong behind the symbols `γ`, and only there: what stands in front of them is not touched, and
nothing inside of them could be taken for the end of the damage. -/
structure Gram.Slip (g : Gram) (idx : T → Nat) (input : List T) (γ : List Sym) (lo stop : Nat) : Prop where
  long : lo < stop
  /-- the first of them is possible -/
  enters : g.ViablePrefix (γ ++ [.tm (tokenAt idx input lo)])
  /-- `error` is not possible behind one or more of them -/
  closed : ∀ k ζ, lo < k → k ≤ stop → Derives g.rules ζ (stretch idx input lo k) → ¬ g.ViablePrefix (γ ++ ζ ++ [.tm .err])
  /-- they do not complete anything that has begun before -/
  apart : ∀ k ζ, lo < k → k ≤ stop → Derives g.rules ζ (stretch idx input lo k) → ∀ rule ∈ g.rules, ∀ α β, γ = β ++ α → rule.rhs = α ++ ζ → α = []
  /-- the token behind them is not possible -/
  breaks : ∀ ζ, Derives g.rules ζ (stretch idx input lo stop) → ¬ g.ViablePrefix (γ ++ ζ ++ [.tm (tokenAt idx input stop)])
  /-- except the first, none of them is possible behind `error` -/
  skips : ∀ i t, lo < i → i < stop → input[i]? = some t → ¬ g.StopAt γ (idx t)

/-- The error slice for the tokens from `lo` up to `stop`: these tokens, and if it is a single one, also the token behind it. -/
def slipSlice (input : List T) (lo stop : Nat) : List T := (input.drop lo).take (if stop = lo + 1 then 2 else stop - lo)

/-- The token at position `lo` is wrong behind the symbols `γ`, and none of the tokens from there up to position `stop` (if any) is possible behind `error`. -/
structure Gram.Stumble (g : Gram) (idx : T → Nat) (input : List T) (γ : List Sym) (lo stop : Nat) : Prop where
  order : lo ≤ stop
  /-- the token is not possible -/
  blocked : ¬ g.ViablePrefix (γ ++ [.tm (tokenAt idx input lo)])
  /-- no phrase ends in front of the token -/
  whole : ∀ r, ¬ g.HandleAt r γ (tokenAt idx input lo)
  skips : ∀ i t, lo ≤ i → i < stop → input[i]? = some t → ¬ g.StopAt γ (idx t)

/-- The error slice for the tokens from `lo` up to `stop` in this case: these tokens, and if there is none, the token at `lo`. -/
def stumbleSlice (input : List T) (lo stop : Nat) : List T := (input.drop lo).take (if stop = lo then 1 else stop - lo)

/-- The two ways for the tokens from `lo` up to `stop` to be wrong, with their error slices. -/
inductive Gram.Hurt (g : Gram) (idx : T → Nat) (input : List T) (γ : List Sym) (lo stop : Nat) : List T → Prop
  | slip : g.Slip idx input γ lo stop → Gram.Hurt g idx input γ lo stop (slipSlice input lo stop)
  | stumble : g.Stumble idx input γ lo stop → Gram.Hurt g idx input γ lo stop (stumbleSlice input lo stop)

/-- `Damaged γ us j fs k`: behind the symbols `γ`, the tokens from position `j` up to position `k` are derived from the symbols `us` by the forest `fs`, except
for damaged parts, which are the error leaves of `fs`; behind one of them nothing else of the same rule is damaged.  What really follows a phrase can follow it. -/
inductive Damaged (g : Gram) (idx : T → Nat) (input : List T) : List Sym → List Sym → Nat → List (Tree T) → Nat → Prop
  | nil (γ j) : Damaged g idx input γ [] j [] j
  | leaf (γ j t us fs k) : input[j]? = some t → Damaged g idx input (γ ++ [.tm (.sym (idx t))]) us (j + 1) fs k →
      Damaged g idx input γ (.tm (.sym (idx t)) :: us) j (.leaf j t :: fs) k
  | err (γ j stop l us fs k) : g.Hurt idx input γ j stop l → errs fs = [] → Damaged g idx input (γ ++ [.tm .err]) us stop fs k →
      Damaged g idx input γ (.tm .err :: us) j (.err j l :: fs) k
  | node (γ j r rule cs k us fs k') : g.rules[r]? = some rule → Damaged g idx input γ rule.rhs j cs k → g.HandleAt r (γ ++ rule.rhs) (tokenAt idx input k) →
      Damaged g idx input (γ ++ [.nt rule.lhs]) us k fs k' → Damaged g idx input γ (.nt rule.lhs :: us) j (.node r cs :: fs) k'

end Verif.Par
