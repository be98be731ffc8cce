import Verif.Par.Syntax
import Verif.Tok.Builder

/-!
# Model of the example program `example/src/main.rs`, a calculator

The number type `f64` is abstract: `Arith V` are its operations.  `unreachable!()` in a callback is modelled by the result `Err(())`; no
callback of the example returns `Err` otherwise.
-/

namespace Verif.Calc

open Verif.Par (USym Arg Rule ruleNew)

/-- The operations of `f64` that the example uses.  `read` is `s.parse().unwrap()` (main.rs:29), where it does not panic. -/
structure Arith (V : Type) where
  zero : V
  add : V → V → V
  sub : V → V → V
  mul : V → V → V
  div : V → V → V
  neg : V → V
  sqrt : V → V
  read : List Nat → V

/-- `Token`, main.rs:9-19. -/
inductive Token (V : Type) where
  | number (v : V)
  | add
  | sub
  | mul
  | div
  | bracket
  | closeBracket
  | sqrt
  deriving DecidableEq, Repr

/-- `ParseResult`, main.rs:21-26. -/
inductive Val (V : Type) where
  | sum (v : Option V)
  | product (v : Option V)
  | block (v : Option V)
  deriving DecidableEq, Repr

variable {V : Type}

/-- Derived `EnumIndex` of `Token`, main.rs:9. -/
def Token.index : Token V → Nat
  | .number _ => 0
  | .add => 1
  | .sub => 2
  | .mul => 3
  | .div => 4
  | .bracket => 5
  | .closeBracket => 6
  | .sqrt => 7

/-- Derived `EnumIndex` of `ParseResult`, main.rs:21. -/
def Val.index : Val V → Nat
  | .sum _ => 0
  | .product _ => 1
  | .block _ => 2

/-- The arguments of a callback (the code gets references). -/
abbrev Args (V : Type) := List (Arg (Val V) (Token V))

/-- `a.and_then(|a| b.map(|b| f(a, b)))`, main.rs:44, 51, 59, 66. -/
def both (f : V → V → V) (a b : Option V) : Option V := a.bind fun a => b.map fun b => f a b

/-- main.rs:42-48. -/
def onAdd (A : Arith V) (list : Args V) : Except Unit (Val V) :=
  match list with
  | [.nt (.sum a), _, .nt (.product b)] => .ok (.sum (both A.add a b))
  | _ => .error ()

/-- main.rs:49-55. -/
def onSub (A : Arith V) (list : Args V) : Except Unit (Val V) :=
  match list with
  | [.nt (.sum a), _, .nt (.product b)] => .ok (.sum (both A.sub a b))
  | _ => .error ()

/-- main.rs:56. -/
def onSum (list : Args V) : Except Unit (Val V) :=
  match list with
  | [.nt (.product a)] => .ok (.sum a)
  | _ => .error ()

/-- main.rs:57-63. -/
def onMul (A : Arith V) (list : Args V) : Except Unit (Val V) :=
  match list with
  | [.nt (.product a), _, .nt (.block b)] => .ok (.product (both A.mul a b))
  | _ => .error ()

/-- main.rs:64-70. -/
def onDiv (A : Arith V) (list : Args V) : Except Unit (Val V) :=
  match list with
  | [.nt (.product a), _, .nt (.block b)] => .ok (.product (both A.div a b))
  | _ => .error ()

/-- main.rs:71. -/
def onProduct (list : Args V) : Except Unit (Val V) :=
  match list with
  | [.nt (.block a)] => .ok (.product a)
  | _ => .error ()

/-- main.rs:72. -/
def onNumber (list : Args V) : Except Unit (Val V) :=
  match list with
  | [.tok (.number n)] => .ok (.block (some n))
  | _ => .error ()

/-- main.rs:73. -/
def onPlus (list : Args V) : Except Unit (Val V) :=
  match list with
  | [_, .tok (.number n)] => .ok (.block (some n))
  | _ => .error ()

/-- main.rs:74. -/
def onMinus (A : Arith V) (list : Args V) : Except Unit (Val V) :=
  match list with
  | [_, .tok (.number n)] => .ok (.block (some (A.neg n)))
  | _ => .error ()

/-- main.rs:75-81. -/
def onParen (list : Args V) : Except Unit (Val V) :=
  match list with
  | [_, .nt (.sum n), _] => .ok (.block n)
  | _ => .error ()

/-- main.rs:82. -/
def onSqrt (A : Arith V) (list : Args V) : Except Unit (Val V) :=
  match list with
  | [_, .nt (.block n)] => .ok (.block (n.map A.sqrt))
  | _ => .error ()

/-- `Rule::new` at the types of the example. -/
abbrev mk (start : Val V) (rule : List (USym (Val V) (Token V))) (gen : Args V → Except Unit (Val V)) : Rule (Val V) (Token V) Unit :=
  ruleNew Val.index Token.index start rule gen

/-- The rules, main.rs:41-82. -/
def rules (A : Arith V) : List (Rule (Val V) (Token V) Unit) :=
  [mk (.sum none) [.nt (.sum none), .tok .add, .nt (.product none)] (onAdd A),
   mk (.sum none) [.nt (.sum none), .tok .sub, .nt (.product none)] (onSub A),
   mk (.sum none) [.nt (.product none)] onSum,
   mk (.product none) [.nt (.product none), .tok .mul, .nt (.block none)] (onMul A),
   mk (.product none) [.nt (.product none), .tok .div, .nt (.block none)] (onDiv A),
   mk (.product none) [.nt (.block none)] onProduct,
   mk (.block none) [.tok (.number A.zero)] onNumber,
   mk (.block none) [.tok .add, .tok (.number A.zero)] onPlus,
   mk (.block none) [.tok .sub, .tok (.number A.zero)] (onMinus A),
   mk (.block none) [.tok .bracket, .nt (.sum none), .tok .closeBracket] onParen,
   mk (.block none) [.tok .sqrt, .nt (.block none)] (onSqrt A)]

/-- The start symbol, main.rs:83. -/
def start : Nat := (Val.sum (none : Option Unit)).index

/-! ## The patterns -/

/-- `[0-9]` -/
def digitH : Tok.Hir := .classU [(48, 57)]

/-- `([0-9]+|[0-9]+\.[0-9]*|[0-9]*\.[0-9]+)([eE][\+\-]?[0-9]+)?`, main.rs:29, as parsed by `regex_syntax`. -/
def numberH : Tok.Hir :=
  .concat [
    .group (.alt [
      .rep .oneOrMore digitH,
      .concat [.rep .oneOrMore digitH, .literalU 46, .rep .zeroOrMore digitH],
      .concat [.rep .zeroOrMore digitH, .literalU 46, .rep .oneOrMore digitH]]),
    .rep .zeroOrOne (.group (.concat [.classU [(69, 69), (101, 101)], .rep .zeroOrOne (.classU [(43, 43), (45, 45)]), .rep .oneOrMore digitH]))]

/-- The patterns and callbacks, main.rs:29-37; characters are given by their code points. -/
def pats (A : Arith V) : List (Tok.Hir × (List Nat → List Nat → Option (Token V))) :=
  [(numberH, fun s _ => some (.number (A.read s))),
   (.literalU 43, fun _ _ => some .add),
   (.literalU 45, fun _ _ => some .sub),
   (.literalU 42, fun _ _ => some .mul),
   (.literalU 47, fun _ _ => some .div),
   (.literalU 40, fun _ _ => some .bracket),
   (.literalU 41, fun _ _ => some .closeBracket),
   (.concat [.literalU 115, .literalU 113, .literalU 114, .literalU 116], fun _ _ => some .sqrt),
   (.alt [.classU [(0, 9), (11, 0x10FFFF)], .literalU 10], fun _ _ => none)]

end Verif.Calc
