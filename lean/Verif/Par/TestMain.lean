import Verif.Par.Parse

/-!
# The program of `parser_generator/tests/main.rs`, for every input

`E → E + T | T; T → T * F | F; F → Number | ERROR`, where the callback of the last rule reports the error slice.
-/

namespace Verif.Par.TestMain

open Verif.Par

/-- `Terminal`, main.rs:9-14. -/
inductive Tok where
  | num (n : Nat)
  | plus
  | star
  deriving DecidableEq, Repr

/-- Derived `EnumIndex` of `Terminal`, main.rs:9. -/
def Tok.index : Tok → Nat
  | .num _ => 0
  | .plus => 1
  | .star => 2

/-- `NonTerminal`, main.rs:16-21. -/
inductive Nt where
  | e (l : List Nt)
  | t (l : List Nt)
  | f (x : Tok)

/-- main.rs:37-40 (`mem::take` leaves a value that is dropped afterwards; `unreachable!()` of the generated callback is `Err` here and
in the following). -/
def onPlus : List (Arg Nt Tok) → Except (List Tok) Nt
  | [.nt (.e l), _, .nt (.t v)] => .ok (.e (l ++ [.t v]))
  | _ => .error []

/-- main.rs:41 -/
def onSum : List (Arg Nt Tok) → Except (List Tok) Nt
  | [.nt (.t v)] => .ok (.e [.t v])
  | _ => .error []

/-- main.rs:42-45 -/
def onStar : List (Arg Nt Tok) → Except (List Tok) Nt
  | [.nt (.t l), _, .nt f] => .ok (.t (l ++ [f]))
  | _ => .error []

/-- main.rs:46 -/
def onProd : List (Arg Nt Tok) → Except (List Tok) Nt
  | [.nt f] => .ok (.t [f])
  | _ => .error []

/-- main.rs:47 -/
def onNumber : List (Arg Nt Tok) → Except (List Tok) Nt
  | [.tok x] => .ok (.f x)
  | _ => .error []

/-- main.rs:48; the error is the list, before it is printed. -/
def onError : List (Arg Nt Tok) → Except (List Tok) Nt
  | [.err l] => .error l
  | _ => .error []

/-- main.rs:37-48 -/
def rules : List (Rule Nt Tok (List Tok)) :=
  [⟨0, [.nt 0, .tm (.sym 1), .nt 1], onPlus⟩, ⟨0, [.nt 1], onSum⟩, ⟨1, [.nt 1, .tm (.sym 2), .nt 2], onStar⟩, ⟨1, [.nt 2], onProd⟩,
   ⟨2, [.tm (.sym 0)], onNumber⟩, ⟨2, [.tm .err], onError⟩]

/-! ## Specification -/

/-- Factors with stars between them. -/
def product : List Nat → List Tok
  | [] => []
  | [n] => [.num n]
  | n :: l => .num n :: .star :: product l

/-- Products with pluses between them. -/
def sum : List (List Nat) → List Tok
  | [] => []
  | [l] => product l
  | l :: ls => product l ++ .plus :: sum ls

/-- The value of a sum of products. -/
def value (ls : List (List Nat)) : Nt := .e (ls.map fun l => .t (l.map fun n => .f (.num n)))

/-- Numbers, each followed by an operator. -/
inductive Even : List Tok → Prop
  | nil : Even []
  | plus (n w) : Even w → Even (.num n :: .plus :: w)
  | star (n w) : Even w → Even (.num n :: .star :: w)

/-- What is reported: the first operand that is not a single number.  If there are several numbers, these; if there is none, the
operator that comes instead or, at the end, the first token of the input. -/
inductive Blames : List Tok → List Tok → Prop
  | numbers (u : List Tok) (ns : List Nat) (w : List Tok) : Even u → 2 ≤ ns.length → (∀ n v, w ≠ .num n :: v) → Blames (u ++ ns.map .num ++ w) (ns.map .num)
  | operator (u o w) : Even u → (∀ n, o ≠ .num n) → Blames (u ++ o :: w) [o]
  | nothing (t u) : Even (t :: u) → Blames (t :: u) [t]

end Verif.Par.TestMain
