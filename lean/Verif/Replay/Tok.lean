import Verif.Tok.Words

/-!
# The unit tests of the tokenizer crate, replayed on the model

Expected values written down by the authors of the code, as a check of the model against the code.  None of this is a property:
the examples are tests.  The tests of `nfa.rs` are replayed at the end of `Verif.Tok.Nfa`.
-/

namespace Verif.Replay

open Verif.Tok

/-- A character as a one-character pattern. -/
def chr (c : Char) : Hir := .literalU c.toNat

/-- A character class; `regex_syntax` sorts the ranges. -/
def cls (l : List (Char × Char)) : Hir := .classU (l.map fun x => (x.1.toNat, x.2.toNat))

/-- `.`: everything except `\n`. -/
def dot : Hir := .classU [(0, 9), (11, 0x10FFFF)]

/-- A row in the notation of the tests: first and last character of each range. -/
def row (l : List ((Char × Char) × Nat)) : Row := l.map fun x => ((x.1.1.toNat, x.1.2.toNat + 1), x.2)

/-- `tokenizer_dfa_index_isomorphisms` with the renumbering given, dfa.rs:301-362: node `i` becomes `f[i]`.  The code compares ranges by
their start only; here the ends have to agree, too. -/
def sameUpTo (f : List Nat) (d : Option DFA) (rows : List Row) (b : Nat) (ends : List (Nat × Nat)) : Bool :=
  match d with
  | none => false
  | some d =>
    f.length == d.rows.length && f.length == rows.length && (List.range f.length).all (fun i => f.contains i) && f.getD d.b 0 == b &&
    (List.range f.length).all fun i =>
      (d.rows.getD i []).map (fun x => (x.1, f.getD x.2 0)) == rows.getD (f.getD i 0) [] &&
      d.ends.getD i none == (ends.find? fun x => x.1 == f.getD i 0).map Prod.snd

/-- `TokenizerNFA::try_from` and `into`: the tables before `minify`, and the warnings. -/
def tables (hs : List Hir) : Option (DFA × List (Nat × Nat)) :=
  match buildAll hs with
  | .ok t => fromNfa 60 id t
  | .error _ => none

def minified (hs : List Hir) : Option DFA := (tables hs).bind fun x => minify seeds0.min x.1

/-- dfa.rs:495-500 -/
def overlapping : List Hir := [cls [('a', 'a')], cls [('a', 'c')], cls [('c', 'f')]]

-- dfa.rs:501-515
example : sameUpTo [0, 1, 2, 3, 4] ((tables overlapping).map Prod.fst)
    [row [(('a', 'a'), 1), (('b', 'b'), 2), (('c', 'c'), 3), (('d', 'f'), 4)], [], [], [], []] 0 [(1, 0), (2, 1), (3, 1), (4, 2)] = true := by
  decide +kernel

-- dfa.rs:516
example : (tables overlapping).map Prod.snd = some [(1, 0), (2, 1)] := by decide +kernel

-- dfa.rs:517-520
example : sameUpTo [0, 1, 2, 3] (minified overlapping) [row [(('a', 'a'), 1), (('b', 'c'), 2), (('d', 'f'), 3)], [], [], []] 0
    [(1, 0), (2, 1), (3, 2)] = true := by decide +kernel

-- dfa.rs:522-532: `([a-zA-Z]{2})*`
example : sameUpTo [1, 0] (minified [.rep .zeroOrMore (.group (.rep (.exactly 2) (cls [('A', 'Z'), ('a', 'z')])))])
    [row [(('A', 'Z'), 1), (('a', 'z'), 1)], row [(('A', 'Z'), 0), (('a', 'z'), 0)]] 0 [(0, 0)] = true := by decide +kernel

-- dfa.rs:534-551: `(.|\n){2,5}`
example : sameUpTo [0, 1, 2, 3, 4, 5] (minified [.rep (.bounded 2 5) (.group (.alt [dot, chr '\n']))])
    [[((0, 0x110000), 1)], [((0, 0x110000), 2)], [((0, 0x110000), 3)], [((0, 0x110000), 4)], [((0, 0x110000), 5)], []] 0
    [(2, 0), (3, 0), (4, 0), (5, 0)] = true := by decide +kernel

-- dfa.rs:553-573: `みみ[た-ゎ]`, `てめた*`, `ぺ[ぼ-るゎ-わ]*ぅ`
example : sameUpTo [0, 4, 6, 1, 2, 3, 5, 7]
    (minified [.concat [chr 'み', chr 'み', cls [('た', 'ゎ')]], .concat [chr 'て', chr 'め', .rep .zeroOrMore (chr 'た')],
      .concat [chr 'ぺ', .rep .zeroOrMore (cls [('ぼ', 'る'), ('ゎ', 'わ')]), chr 'ぅ']])
    [row [(('て', 'て'), 4), (('ぺ', 'ぺ'), 6), (('み', 'み'), 1)], row [(('み', 'み'), 2)], row [(('た', 'ゎ'), 3)], [], row [(('め', 'め'), 5)],
      row [(('た', 'た'), 5)], row [(('ぅ', 'ぅ'), 7), (('ぼ', 'る'), 6), (('ゎ', 'わ'), 6)], []] 0 [(3, 0), (5, 1), (7, 2)] = true := by
  decide +kernel

-- dfa.rs:575-595: `int|long`, `[a-zA-Z][a-zA-Z0-9]*`
example : sameUpTo [0, 4, 1, 5, 2, 6, 3, 7]
    (minified [.alt [.concat [chr 'i', chr 'n', chr 't'], .concat [chr 'l', chr 'o', chr 'n', chr 'g']],
      .concat [cls [('A', 'Z'), ('a', 'z')], .rep .zeroOrMore (cls [('0', '9'), ('A', 'Z'), ('a', 'z')])]])
    [row [(('A', 'Z'), 1), (('a', 'h'), 1), (('i', 'i'), 2), (('j', 'k'), 1), (('l', 'l'), 5), (('m', 'z'), 1)],
      row [(('0', '9'), 1), (('A', 'Z'), 1), (('a', 'z'), 1)],
      row [(('0', '9'), 1), (('A', 'Z'), 1), (('a', 'm'), 1), (('n', 'n'), 3), (('o', 'z'), 1)],
      row [(('0', '9'), 1), (('A', 'Z'), 1), (('a', 's'), 1), (('t', 't'), 4), (('u', 'z'), 1)],
      row [(('0', '9'), 1), (('A', 'Z'), 1), (('a', 'z'), 1)],
      row [(('0', '9'), 1), (('A', 'Z'), 1), (('a', 'n'), 1), (('o', 'o'), 6), (('p', 'z'), 1)],
      row [(('0', '9'), 1), (('A', 'Z'), 1), (('a', 'm'), 1), (('n', 'n'), 7), (('o', 'z'), 1)],
      row [(('0', '9'), 1), (('A', 'Z'), 1), (('a', 'f'), 1), (('g', 'g'), 4), (('h', 'z'), 1)]] 0
    [(1, 1), (2, 1), (3, 1), (4, 0), (5, 1), (6, 1), (7, 1)] = true := by decide +kernel

/-! ## tokenizer/iter.rs:88-132, and tokenizer_generator/tests/normal.rs:21-47 -/

open Words in
/-- `text.chars().tokenize(tokenizer()).collect()` with the patterns of the test. -/
def tokens (text : String) : Option (List Token) :=
  match builderBuild 60 seeds0 parse0 normal with
  | some (.ok (t, _)) => (t.collect id 40 (It.start (text.toList.map Char.toNat))).map Prod.fst
  | _ => none

/-- The expected tokens in the notation of the tests. -/
def A (s : String) : Words.Token := .a (s.toList.map Char.toNat)
def B (s : String) : Words.Token := .b (s.toList.map Char.toNat)
def C (s : String) : Words.Token := .c (s.toList.map Char.toNat)

example : tokens "let mut test = 0xFF;" =
    some [A "let", C " ", A "mut", C " ", A "test", C " ", C "=", C " ", B "0xFF", C ";"] := by decide +kernel
example : tokens "1+0b10+0o7+0d9+0xf" = some [B "1", C "+", B "0b10", C "+", B "0o7", C "+", B "0d9", C "+", B "0xf"] := by decide +kernel
example : tokens "01+0b2+0o8+0da+0xg" =
    some [B "0", B "1", C "+", B "0", A "b2", C "+", B "0", A "o8", C "+", B "0", A "da", C "+", B "0", A "xg"] := by decide +kernel

/-! ## tokenizer/iter.rs:134-229, and tokenizer_generator/tests/with.rs:21-98 -/

open Words in
/-- `text.chars().scan(..).tokenize_with(tokenizer(), |(c, _)| *c).collect()`. -/
def tokensAt (text : String) : Option (List TokenAt) :=
  match builderBuild 60 seeds0 parse0 withIndex with
  | some (.ok (t, _)) => (t.collect Prod.fst 40 (It.start (text.toList.map Char.toNat).zipIdx)).map Prod.fst
  | _ => none

def A' (s : String) (i n : Nat) : Words.TokenAt := .a (s.toList.map Char.toNat) i n
def B' (s : String) (i n : Nat) : Words.TokenAt := .b (s.toList.map Char.toNat) i n
def C' (s : String) (i n : Nat) : Words.TokenAt := .c (s.toList.map Char.toNat) i n

example : tokensAt "let mut test = 0xFF;" = some [A' "let" 0 3, C' " " 3 1, A' "mut" 4 3, C' " " 7 1, A' "test" 8 4, C' " " 12 1,
    C' "=" 13 1, C' " " 14 1, B' "0xFF" 15 4, C' ";" 19 1] := by decide +kernel
example : tokensAt "1+0b10+0o7+0d9+0xf" = some [B' "1" 0 1, C' "+" 1 1, B' "0b10" 2 4, C' "+" 6 1, B' "0o7" 7 3, C' "+" 10 1,
    B' "0d9" 11 3, C' "+" 14 1, B' "0xf" 15 3] := by decide +kernel
example : tokensAt "01+0b2+0o8+0da+0xg" = some [B' "0" 0 1, B' "1" 1 1, C' "+" 2 1, B' "0" 3 1, A' "b2" 4 2, C' "+" 6 1, B' "0" 7 1,
    A' "o8" 8 2, C' "+" 10 1, B' "0" 11 1, A' "da" 12 2, C' "+" 14 1, B' "0" 15 1, A' "xg" 16 2] := by decide +kernel

end Verif.Replay
