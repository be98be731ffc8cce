import Verif.Calc.Model

/-!
# Specification of the calculator: expressions, their tokens and values
-/

namespace Verif.Calc

variable {V : Type}

/-- Expressions.  Only numbers have signs. -/
inductive Ex (V : Type) where
  | num (v : V)
  | pos (v : V)
  | neg (v : V)
  | paren (e : Ex V)
  | sqrt (e : Ex V)
  | mul (a b : Ex V)
  | div (a b : Ex V)
  | add (a b : Ex V)
  | sub (a b : Ex V)
  deriving DecidableEq, Repr

/-- Binding strength of the outermost operator. -/
def Ex.level : Ex V → Nat
  | .add _ _ | .sub _ _ => 0
  | .mul _ _ | .div _ _ => 1
  | _ => 2

/-- `*` and `/` bind stronger than `+` and `-`, `sqrt` stronger than both, and equal operators group to the left: expressions that are
written without further parentheses. -/
def Ex.Wf : Ex V → Prop
  | .num _ | .pos _ | .neg _ => True
  | .paren e => e.Wf
  | .sqrt e => e.Wf ∧ 2 ≤ e.level
  | .mul a b | .div a b => a.Wf ∧ b.Wf ∧ 1 ≤ a.level ∧ 2 ≤ b.level
  | .add a b | .sub a b => a.Wf ∧ b.Wf ∧ 1 ≤ b.level

/-- The expression written down. -/
def Ex.toks : Ex V → List (Token V)
  | .num v => [.number v]
  | .pos v => [.add, .number v]
  | .neg v => [.sub, .number v]
  | .paren e => [.bracket] ++ e.toks ++ [.closeBracket]
  | .sqrt e => [.sqrt] ++ e.toks
  | .mul a b => a.toks ++ [.mul] ++ b.toks
  | .div a b => a.toks ++ [.div] ++ b.toks
  | .add a b => a.toks ++ [.add] ++ b.toks
  | .sub a b => a.toks ++ [.sub] ++ b.toks

/-- Its value. -/
def Ex.eval (A : Arith V) : Ex V → V
  | .num v => v
  | .pos v => v
  | .neg v => A.neg v
  | .paren e => e.eval A
  | .sqrt e => A.sqrt (e.eval A)
  | .mul a b => A.mul (a.eval A) (b.eval A)
  | .div a b => A.div (a.eval A) (b.eval A)
  | .add a b => A.add (a.eval A) (b.eval A)
  | .sub a b => A.sub (a.eval A) (b.eval A)

/-! ## Texts -/

/-- `0` to `9`. -/
def Digit (c : Nat) : Prop := 48 ≤ c ∧ c ≤ 57

/-- Mantissa: digits, with a point before, between or behind them. -/
def Mantissa (m : List Nat) : Prop :=
  (m ≠ [] ∧ ∀ c ∈ m, Digit c) ∨ ∃ a b, m = a ++ 46 :: b ∧ (∀ c ∈ a, Digit c) ∧ (∀ c ∈ b, Digit c) ∧ (a ≠ [] ∨ b ≠ [])

/-- Exponent, may be missing. -/
def Exponent (x : List Nat) : Prop :=
  x = [] ∨ ∃ e s d, x = e :: (s ++ d) ∧ (e = 69 ∨ e = 101) ∧ (s = [] ∨ s = [43] ∨ s = [45]) ∧ d ≠ [] ∧ ∀ c ∈ d, Digit c

/-- The syntax of numbers without sign.  The standard library promises that `str::parse::<f64>` reads all of them. -/
def Numeral (w : List Nat) : Prop := ∃ m x, w = m ++ x ∧ Mantissa m ∧ Exponent x

/-- How tokens are spelled; number tokens are given by their text here. -/
def Token.spell : Token (List Nat) → List Nat
  | .number w => w
  | .add => [43]
  | .sub => [45]
  | .mul => [42]
  | .div => [47]
  | .bracket => [40]
  | .closeBracket => [41]
  | .sqrt => [115, 113, 114, 116]

/-- The texts of number tokens are numerals. -/
def Token.Ok : Token (List Nat) → Prop
  | .number w => Numeral w
  | _ => True

/-- The token with the text replaced by its value. -/
def Token.value (A : Arith V) : Token (List Nat) → Token V
  | .number w => .number (A.read w)
  | .add => .add
  | .sub => .sub
  | .mul => .mul
  | .div => .div
  | .bracket => .bracket
  | .closeBracket => .closeBracket
  | .sqrt => .sqrt

/-- The expression with the texts of numbers replaced by their values. -/
def Ex.value (A : Arith V) : Ex (List Nat) → Ex V
  | .num w => .num (A.read w)
  | .pos w => .pos (A.read w)
  | .neg w => .neg (A.read w)
  | .paren e => .paren (e.value A)
  | .sqrt e => .sqrt (e.value A)
  | .mul a b => .mul (a.value A) (b.value A)
  | .div a b => .div (a.value A) (b.value A)
  | .add a b => .add (a.value A) (b.value A)
  | .sub a b => .sub (a.value A) (b.value A)

/-- Characters that are no part of any token: not `0` to `9` and `.`, not `e`, `E`, `s`, and no operator or parenthesis. -/
def Blank (c : Nat) : Prop :=
  c < 0x110000 ∧ ¬ Digit c ∧ c ∉ [46, 101, 69, 115, 43, 45, 42, 47, 40, 41]

/-- The text consists of the tokens, with any blanks before, between and behind them. -/
inductive Written : List (Token (List Nat)) → List Nat → Prop
  | nil : Written [] []
  | blank (c ts w) : Blank c → Written ts w → Written ts (c :: w)
  | token (t ts w) : t.Ok → Written ts w → Written (t :: ts) (t.spell ++ w)

/-- The text consists of the tokens and of single other characters, whatever these are. -/
inductive Within : List (Token (List Nat)) → List Nat → Prop
  | nil : Within [] []
  | other (c ts w) : c < 0x110000 → Within ts w → Within ts (c :: w)
  | token (t ts w) : t.Ok → Within ts w → Within (t :: ts) (t.spell ++ w)

end Verif.Calc
