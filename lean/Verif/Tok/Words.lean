import Verif.Tok.Spec

/-!
# The tokenizers of `tokenizer_generator/tests`, for every text

Words, numbers with a base, and single characters.  The patterns are the same in `normal.rs` and `with.rs`.
-/

namespace Verif.Tok.Words

open Verif.Tok

/-- `[a-zA-Z_][a-zA-Z0-9_]*`, normal.rs:14 and with.rs:14, as `regex_syntax` reads it. -/
def wordRegex : Hir := .concat [.classU [(65, 90), (95, 95), (97, 122)], .rep .zeroOrMore (.classU [(48, 57), (65, 90), (95, 95), (97, 122)])]

/-- `0([xX][0-9a-fA-F]+|[dD][0-9]+|[oO][0-7]+|[bB][01]+)|[1-9][0-9]*|0`, normal.rs:15 and with.rs:15. -/
def numberRegex : Hir :=
  .alt [
    .concat [.literalU 48, .group (.alt [
      .concat [.classU [(88, 88), (120, 120)], .rep .oneOrMore (.classU [(48, 57), (65, 70), (97, 102)])],
      .concat [.classU [(68, 68), (100, 100)], .rep .oneOrMore (.classU [(48, 57)])],
      .concat [.classU [(79, 79), (111, 111)], .rep .oneOrMore (.classU [(48, 55)])],
      .concat [.classU [(66, 66), (98, 98)], .rep .oneOrMore (.classU [(48, 49)])]])],
    .concat [.classU [(49, 57)], .rep .zeroOrMore (.classU [(48, 57)])],
    .literalU 48]

/-- `.|\n`, normal.rs:16 and with.rs:16. -/
def anyRegex : Hir := .alt [.classU [(0, 9), (11, 0x10FFFF)], .literalU 10]

/-- The patterns with callbacks `f`, `g`, `h`. -/
def pats {α E : Type} (f g h : List Nat → List α → E) : List (Hir × (List Nat → List α → E)) := [(wordRegex, f), (numberRegex, g), (anyRegex, h)]

/-- `Token`, normal.rs:1-6. -/
inductive Token where
  | a (s : List Nat)
  | b (s : List Nat)
  | c (s : List Nat)
  deriving DecidableEq, Repr

/-- normal.rs:14-16 -/
def normal : List (Hir × (List Nat → List Nat → Token)) := pats (fun s _ => .a s) (fun s _ => .b s) (fun s _ => .c s)

/-- `Token`, with.rs:1-6, or the panic of `a[0]` in the callback. -/
inductive TokenAt where
  | a (s : List Nat) (i n : Nat)
  | b (s : List Nat) (i n : Nat)
  | c (s : List Nat) (i n : Nat)
  | panic
  deriving DecidableEq, Repr

/-- with.rs:14-16: `|s, a| make(s.to_string(), a[0].1, a.len())` -/
def located (make : List Nat → Nat → Nat → TokenAt) (s : List Nat) (a : List (Nat × Nat)) : TokenAt :=
  match a[0]? with
  | some x => make s x.2 a.length
  | none => .panic

/-- with.rs:14-16 -/
def withIndex : List (Hir × (List Nat → List (Nat × Nat) → TokenAt)) := pats (located .a) (located .b) (located .c)

/-! ## Specification: a tokenizer written by hand -/

def digit (c : Nat) : Bool := 48 ≤ c && c ≤ 57
def letter (c : Nat) : Bool := (65 ≤ c && c ≤ 90) || (97 ≤ c && c ≤ 122) || c == 95
def word (c : Nat) : Bool := letter c || digit c
def hex (c : Nat) : Bool := digit c || (65 ≤ c && c ≤ 70) || (97 ≤ c && c ≤ 102)

/-- The digits that may follow `0` and the letter. -/
def base (c : Nat) : Option (Nat → Bool) :=
  if c = 120 ∨ c = 88 then some hex
  else if c = 100 ∨ c = 68 then some digit
  else if c = 111 ∨ c = 79 then some fun c => 48 ≤ c && c ≤ 55
  else if c = 98 ∨ c = 66 then some fun c => c == 48 || c == 49
  else none

/-- The length of a number that begins with `0`, without the `0`. -/
def afterZero : List Nat → Nat
  | x :: r =>
    match base x with
    | some p => if (r.takeWhile p).isEmpty then 0 else 1 + (r.takeWhile p).length
    | none => 0
  | [] => 0

/-- Kind (0 word, 1 number, 2 other) and length of the token at the beginning of a text `c :: r`. -/
def first (c : Nat) (r : List Nat) : Nat × Nat :=
  if letter c then (0, 1 + (r.takeWhile word).length)
  else if c = 48 then (1, 1 + afterZero r)
  else if digit c then (1, 1 + (r.takeWhile digit).length)
  else (2, 1)

/-- The tokens of a text: kind, place, text.  (`n` at least the length of the text.) -/
def lexFrom : Nat → Nat → List Nat → List (Nat × Nat × List Nat)
  | 0, _, _ => []
  | _ + 1, _, [] => []
  | n + 1, i, c :: r =>
    let x := first c r
    (x.1, i, (c :: r).take x.2) :: lexFrom n (i + x.2) ((c :: r).drop x.2)

/-- The tokens of a text: kind, place, text. -/
def lex (text : List Nat) : List (Nat × Nat × List Nat) := lexFrom text.length 0 text

/-- The token of normal.rs. -/
def Token.of (x : Nat × Nat × List Nat) : Token :=
  match x.1 with
  | 0 => .a x.2.2
  | 1 => .b x.2.2
  | _ => .c x.2.2

/-- The token of with.rs: text, place of its first character, length. -/
def TokenAt.of (x : Nat × Nat × List Nat) : TokenAt :=
  match x.1 with
  | 0 => .a x.2.2 x.2.1 x.2.2.length
  | 1 => .b x.2.2 x.2.1 x.2.2.length
  | _ => .c x.2.2 x.2.1 x.2.2.length

/-- `01+0b2+0o8+0da+0xg` is `0`, `1`, `+`, `0`, `b2`, … -/
example : (lex ("01+0b2+0o8+0da+0xg".toList.map Char.toNat)).map (fun x => (x.1, String.ofList (x.2.2.map Char.ofNat))) =
    [(1, "0"), (1, "1"), (2, "+"), (1, "0"), (0, "b2"), (2, "+"), (1, "0"), (0, "o8"), (2, "+"), (1, "0"), (0, "da"), (2, "+"), (1, "0"), (0, "xg")] := by
  decide

end Verif.Tok.Words
