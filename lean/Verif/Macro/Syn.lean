import Verif.Par.Gen
import Verif.Tok.Gen

/-!
# Model of the parsing of macro inputs (parser_generator/src/lib.rs:14-299, tokenizer_generator/src/lib.rs:9-73)

A macro input is a list of token trees.  The library `syn` provides parsers for the syntax of Rust itself (visibilities, paths, types,
patterns, expressions, which identifiers are reserved); they are parameters of the model (`Rust`).  The primitives of `syn` for single
tokens and groups are modelled as far as the macros use them.  Error messages are not modelled: `none` is a compile error, also where the code panics.
Groups without delimiters (made by other macros) are not modelled.
-/

namespace Verif.Macro

open Verif.Par (TokenKey BnfSym BnfKey)

/-- `proc_macro2::Delimiter` -/
inductive Delim where
  | paren
  | bracket
  | brace
  deriving DecidableEq, Repr

/-- `proc_macro2::TokenTree`: identifiers and keywords, characters of punctuation (with the information whether the next one follows
without a gap), string literals (by their value), other literals, and groups. -/
inductive TT where
  | ident (s : String)
  | punct (c : Char) (joint : Bool)
  | str (value : String)
  | lit (text : String)
  | group (d : Delim) (inner : List TT)

/-- A `syn` parser: reads some tokens and leaves the others; `none` is an error. -/
def P (α : Type) := List TT → Option (α × List TT)

instance : Monad P where
  pure a := fun ts => some (a, ts)
  bind p f := fun ts => match p ts with
    | none => none
    | some (a, r) => f a r

/-- A parser of `syn` for a part of Rust's syntax.  It takes tokens from the front. -/
structure Piece (α : Type) where
  run : P α
  suffix : ∀ ts v r, run ts = some (v, r) → ∃ u, ts = u ++ r

/-- What is used of `syn`'s knowledge of Rust: `Visibility`, `Path`, `Type`, `Pat`, `Expr`, and the words that are no identifiers. -/
structure Rust (Vis Path Ty Pat Expr : Type) where
  vis : Piece Vis
  path : Piece Path
  ty : Piece Ty
  pat : Piece Pat
  expr : Piece Expr
  reserved : String → Bool

/-! ## Primitives of `syn` -/

/-- `input.is_empty()` -/
def isEmpty : P Bool := fun ts => some (ts.isEmpty, ts)

/-- `input.peek(LitStr)` -/
def peekStr : P Bool := fun ts => match ts with
  | .str _ :: _ => some (true, ts)
  | _ => some (false, ts)

/-- `input.peek(Token![c])` for punctuation of one character: the spacing is ignored. -/
def peekPunct (c : Char) : P Bool := fun ts => match ts with
  | .punct d _ :: _ => some (c == d, ts)
  | _ => some (false, ts)

/-- `input.peek(kw::k)` -/
def peekKw (k : String) : P Bool := fun ts => match ts with
  | .ident s :: _ => some (k == s, ts)
  | _ => some (false, ts)

/-- `input.peek(token::Bracket)` and alike. -/
def peekGroup (d : Delim) : P Bool := fun ts => match ts with
  | .group e _ :: _ => some (d == e, ts)
  | _ => some (false, ts)

/-- `let s: LitStr = input.parse()?; s.value()` -/
def str : P String := fun ts => match ts with
  | .str s :: r => some (s, r)
  | _ => none

/-- `let s: Ident = input.parse()?; s.to_string()` -/
def ident (reserved : String → Bool) : P String := fun ts => match ts with
  | .ident s :: r => if reserved s then none else some (s, r)
  | _ => none

/-- `input.parse()?` at a keyword type. -/
def kw (k : String) : P Unit := fun ts => match ts with
  | .ident s :: r => if k = s then some ((), r) else none
  | _ => none

/-- `input.parse()?` at punctuation of one character. -/
def punct (c : Char) : P Unit := fun ts => match ts with
  | .punct d _ :: r => if c = d then some ((), r) else none
  | _ => none

/-- `input.parse()?` at punctuation of two characters: no gap between them. -/
def punct2 (c c' : Char) : P Unit := fun ts => match ts with
  | .punct d true :: .punct d' _ :: r => if c = d ∧ c' = d' then some ((), r) else none
  | _ => none

/-- `braced!(content in input)` and alike, with what is parsed from `content`.  Tokens left in a group are an error in the end. -/
def inGroup {α : Type} (d : Delim) (p : P α) : P α := fun ts => match ts with
  | .group e inner :: r => if d = e then
      match p inner with
      | some (a, []) => some (a, r)
      | _ => none
    else none
  | _ => none

/-- The loop of `parse_terminated` for a separator of one character; the fuel is shown to be enough. -/
def terminatedGo {α : Type} (item : P α) (sep : Char) : Nat → P (List α)
  | 0 => fun _ => none
  | n + 1 => do
    if ← isEmpty then return []
    let x ← item
    if ← isEmpty then return [x]
    punct sep
    let xs ← terminatedGo item sep n
    return x :: xs

/-- `content.parse_terminated(item)` -/
def terminated {α : Type} (item : P α) (sep : Char) : P (List α) := fun ts => terminatedGo item sep (ts.length + 1) ts

/-- `parse_macro_input!(input as T)`: the whole input is parsed. -/
def whole {α : Type} (p : P α) (ts : List TT) : Option α :=
  match p ts with
  | some (a, []) => some a
  | _ => none

end Verif.Macro
