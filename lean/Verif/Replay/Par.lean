import Verif.Par.Syntax
import Verif.Props.ParTables
import Verif.Par.TestMain

/-!
# The unit tests of the parser crates, replayed on the model

Expected values written down by the authors of the code, as a check of the model against the code.  None of this is a property:
the examples are tests.
-/

namespace Verif.Replay.Par

open Verif.Par

/-! ## parser/src/syntax.rs:207-256 -/

/-- `N` and `T` of the test, with the derived `EnumIndex`. -/
inductive L where
  | a
  | b
  | c
  deriving DecidableEq

def L.index : L → Nat
  | .a => 0
  | .b => 1
  | .c => 2

/-- syntax.rs:220-225 -/
def built : List (Rule L L Unit) × Nat :=
  syntaxBuild L.index
    ([((((ruleBuilder L.index .a).nonTerminal L.index .b).nonTerminal L.index .c).terminal L.index .a).build (fun _ => .ok .a),
      (((ruleBuilder L.index .a).nonTerminal L.index .c).terminal L.index .b).build (fun _ => .ok .a),
      ((ruleBuilder L.index .b).nonTerminal L.index .c).build (fun _ => .ok .b),
      ((ruleBuilder L.index .c).terminal L.index .c).build (fun _ => .ok .c)].foldl syntaxRule []) .a

example : built.2 = 0 ∧ built.1.map Rule.plain =
    [⟨0, [.nt 1, .nt 2, .tm (.sym 0)]⟩, ⟨0, [.nt 2, .tm (.sym 1)]⟩, ⟨1, [.nt 2]⟩, ⟨2, [.tm (.sym 2)]⟩] := by decide

/-- syntax.rs:238-243 -/
def builtErr : List (Rule L L Unit) × Nat :=
  syntaxBuild L.index
    ([((((ruleBuilder L.index .a).error).nonTerminal L.index .c).terminal L.index .a).build (fun _ => .ok .a),
      (((ruleBuilder L.index .a).nonTerminal L.index .c).error).build (fun _ => .ok .a),
      ((ruleBuilder L.index .b).nonTerminal L.index .c).build (fun _ => .ok .b),
      ((ruleBuilder L.index .c).terminal L.index .c).build (fun _ => .ok .c)].foldl syntaxRule []) .a

example : builtErr.2 = 0 ∧ builtErr.1.map Rule.plain =
    [⟨0, [.tm .err, .nt 2, .tm (.sym 0)]⟩, ⟨0, [.nt 2, .tm .err]⟩, ⟨1, [.nt 2]⟩, ⟨2, [.tm (.sym 2)]⟩] := by decide

/-! ## parser/src/parser.rs:411-461 -/

/-- parser.rs:424-430 -/
def nullable : List PRule := [⟨0, [.nt 1, .nt 2, .tm (.sym 0)]⟩, ⟨0, [.nt 2, .tm (.sym 1)]⟩, ⟨1, [.nt 2]⟩, ⟨1, [.nt 0]⟩, ⟨2, []⟩]

example : calcNull 10 nullable = .ok [.nt 1, .nt 2] := by decide

/-- `first[&symbol]` of the test. -/
def firstOf (R : List PRule) (X : Sym) : Option (List Term) :=
  match calcNull 10 R with
  | .ok null =>
    match calcFirst 10 null R with
    | .ok first => get X first
    | _ => none
  | _ => none

example : firstOf nullable (.nt 0) = some [.sym 0, .sym 1] := by decide
example : firstOf nullable (.nt 1) = some [.sym 0, .sym 1] := by decide
example : firstOf nullable (.nt 2) = some [] := by decide
example : firstOf nullable (.tm (.sym 0)) = some [.sym 0] := by decide
example : firstOf nullable (.tm (.sym 1)) = some [.sym 1] := by decide

/-! ## parser/src/parser.rs:463-660 -/

/-- `calc_closure` of one item. -/
def closureOf (R : List PRule) (i : Item) : Option State :=
  match calcNull 10 R with
  | .ok null =>
    match calcFirst 10 null R with
    | .ok first =>
      match closure R null first 10 [i] with
      | .ok s => some s
      | _ => none
    | _ => none
  | _ => none

/-- parser.rs:481-488: `E → E + T | T; T → T * F | F; F → ( E ) | i`, with `+`, `*`, `(`, `)`, `i` in this order. -/
def expr : List PRule :=
  [⟨0, [.nt 0, .tm (.sym 0), .nt 1]⟩, ⟨0, [.nt 1]⟩, ⟨1, [.nt 1, .tm (.sym 1), .nt 2]⟩, ⟨1, [.nt 2]⟩,
   ⟨2, [.tm (.sym 2), .nt 0, .tm (.sym 3)]⟩, ⟨2, [.tm (.sym 4)]⟩]

-- parser.rs:489-560
example : closureOf (expr ++ [⟨3, [.nt 0]⟩]) ⟨6, 0, .eoi⟩ =
    some [⟨0, 0, .sym 0⟩, ⟨0, 0, .eoi⟩, ⟨1, 0, .sym 0⟩, ⟨1, 0, .eoi⟩, ⟨2, 0, .sym 0⟩, ⟨2, 0, .sym 1⟩, ⟨2, 0, .eoi⟩,
      ⟨3, 0, .sym 0⟩, ⟨3, 0, .sym 1⟩, ⟨3, 0, .eoi⟩, ⟨4, 0, .sym 0⟩, ⟨4, 0, .sym 1⟩, ⟨4, 0, .eoi⟩, ⟨5, 0, .sym 0⟩, ⟨5, 0, .sym 1⟩,
      ⟨5, 0, .eoi⟩, ⟨6, 0, .eoi⟩] := by decide +kernel

/-- parser.rs:573-580 -/
def empties : List PRule :=
  [⟨0, [.nt 1, .nt 2, .tm (.sym 0)]⟩, ⟨0, [.nt 2, .tm (.sym 1)]⟩, ⟨1, [.nt 2]⟩, ⟨1, [.nt 0]⟩, ⟨2, [.tm (.sym 2)]⟩, ⟨2, []⟩]

-- parser.rs:581-659
example : closureOf empties ⟨0, 0, .eoi⟩ =
    some [⟨0, 0, .sym 0⟩, ⟨0, 0, .sym 2⟩, ⟨0, 0, .eoi⟩, ⟨1, 0, .sym 0⟩, ⟨1, 0, .sym 2⟩, ⟨2, 0, .sym 0⟩, ⟨2, 0, .sym 2⟩,
      ⟨3, 0, .sym 0⟩, ⟨3, 0, .sym 2⟩, ⟨4, 0, .sym 0⟩, ⟨4, 0, .sym 1⟩, ⟨4, 0, .sym 2⟩, ⟨5, 0, .sym 0⟩, ⟨5, 0, .sym 1⟩,
      ⟨5, 0, .sym 2⟩] := by decide +kernel

/-! ## parser/src/parser.rs:662-792 -/

/-- `calc_goto` of the closure of one item. -/
def gotoOf (R : List PRule) (i : Item) (X : Sym) : Option (Nat × Option State) :=
  match calcNull 10 R with
  | .ok null =>
    match calcFirst 10 null R with
    | .ok first =>
      match closure R null first 10 [i] with
      | .ok s =>
        match calcGoto R null first 10 s with
        | .ok g => some (g.length, get X g)
        | _ => none
      | _ => none
    | _ => none
  | _ => none

-- four entries
example : gotoOf empties ⟨0, 0, .eoi⟩ (.tm (.sym 2)) = some (4, some [⟨4, 1, .sym 0⟩, ⟨4, 1, .sym 1⟩, ⟨4, 1, .sym 2⟩]) := by decide +kernel
example : gotoOf empties ⟨0, 0, .eoi⟩ (.nt 0) = some (4, some [⟨3, 1, .sym 0⟩, ⟨3, 1, .sym 2⟩]) := by decide +kernel
example : gotoOf empties ⟨0, 0, .eoi⟩ (.nt 1) =
    some (4, some [⟨0, 1, .sym 0⟩, ⟨0, 1, .sym 2⟩, ⟨0, 1, .eoi⟩, ⟨4, 0, .sym 0⟩, ⟨5, 0, .sym 0⟩]) := by decide +kernel
example : gotoOf empties ⟨0, 0, .eoi⟩ (.nt 2) =
    some (4, some [⟨1, 1, .sym 0⟩, ⟨1, 1, .sym 2⟩, ⟨2, 1, .sym 0⟩, ⟨2, 1, .sym 2⟩]) := by decide +kernel

/-! ## parser/src/parser.rs:794-1116 -/

/-- Two hash maps with the same entries. -/
def sameMap {κ β : Type} [DecidableEq κ] [DecidableEq β] (m m' : List (κ × β)) : Bool :=
  m.length == m'.length && m.all (fun x => m'.contains x) && (m.map Prod.fst).all fun k => (m.filter fun x => x.1 = k).length == 1

/-- `parser_isomorphisms` with the renumbering given, parser.rs:794-882: state `i` becomes `f[i]`.  The code only checks that the actions
of the one parser are among those of the other and ignores the error rules; here everything has to agree. -/
def sameUpTo (f : List Nat) (t : Res (Tables × List Warning)) (e : Tables) : Bool :=
  match t with
  | .ok (t, ws) =>
    let act : Action Nat → Action Nat
      | .shift s => .shift (f.getD s 0)
      | .reduce r => .reduce r
      | .accept => .accept
    ws.isEmpty && (List.range f.length).all (fun i => f.contains i) && f.getD t.start 0 == e.start &&
    t.action.length == e.action.length && t.action.length == f.length && t.goto.length == e.goto.length &&
    t.action.all (fun x => match get (f.getD x.1 0) e.action with
      | some l => sameMap (x.2.map fun y => (y.1, act y.2)) l
      | none => false) &&
    t.goto.all (fun x => match get (f.getD x.1 0) e.goto with
      | some l => sameMap (x.2.map fun y => (y.1, f.getD y.2 0)) l
      | none => false) &&
    sameMap (t.errors.map fun x => (f.getD x.1 0, x.2.eraseDups)) e.errors -- sets in the code
  | _ => false

/-- parser.rs:912-1002 -/
def exprTables : Tables where
  action :=
  [(0, [(.sym 2, .shift 4), (.sym 4, .shift 5)]),
    (1, [(.sym 0, .shift 6), (.eoi, .accept)]),
    (2, [(.sym 1, .shift 7), (.eoi, .reduce 1), (.sym 0, .reduce 1)]),
    (3, [(.eoi, .reduce 3), (.sym 0, .reduce 3), (.sym 1, .reduce 3)]),
    (4, [(.sym 2, .shift 12), (.sym 4, .shift 13)]),
    (5, [(.eoi, .reduce 5), (.sym 0, .reduce 5), (.sym 1, .reduce 5)]),
    (6, [(.sym 2, .shift 4), (.sym 4, .shift 5)]),
    (7, [(.sym 2, .shift 4), (.sym 4, .shift 5)]),
    (8, [(.sym 3, .shift 16), (.sym 0, .shift 11)]),
    (9, [(.sym 3, .reduce 1), (.sym 0, .reduce 1), (.sym 1, .shift 17)]),
    (10, [(.sym 3, .reduce 3), (.sym 0, .reduce 3), (.sym 1, .reduce 3)]),
    (11, [(.sym 2, .shift 12), (.sym 4, .shift 13)]),
    (12, [(.sym 2, .shift 12), (.sym 4, .shift 13)]),
    (13, [(.sym 3, .reduce 5), (.sym 0, .reduce 5), (.sym 1, .reduce 5)]),
    (14, [(.eoi, .reduce 0), (.sym 0, .reduce 0), (.sym 1, .shift 7)]),
    (15, [(.eoi, .reduce 2), (.sym 0, .reduce 2), (.sym 1, .reduce 2)]),
    (16, [(.eoi, .reduce 4), (.sym 0, .reduce 4), (.sym 1, .reduce 4)]),
    (17, [(.sym 2, .shift 12), (.sym 4, .shift 13)]),
    (18, [(.sym 3, .reduce 0), (.sym 0, .reduce 0), (.sym 1, .shift 17)]),
    (19, [(.sym 3, .shift 21), (.sym 0, .shift 11)]),
    (20, [(.sym 3, .reduce 2), (.sym 0, .reduce 2), (.sym 1, .reduce 2)]),
    (21, [(.sym 3, .reduce 4), (.sym 0, .reduce 4), (.sym 1, .reduce 4)])]
  goto :=
  [(0, [(0, 1), (1, 2), (2, 3)]), (4, [(0, 8), (1, 9), (2, 10)]), (6, [(1, 14), (2, 3)]), (7, [(2, 15)]), (11, [(1, 18), (2, 10)]), (12, [(0, 19), (1, 9), (2, 10)]), (17, [(2, 20)])]
  errors := []
  start := 0

example : sameUpTo [0, 1, 2, 3, 4, 5, 6, 7, 8, 9, 10, 12, 13, 14, 15, 11, 16, 17, 19, 18, 20, 21] (newTables 60 idSeeds ⟨expr, 0⟩) exprTables = true := by
  decide +kernel

/-- parser.rs:1016-1023: `E → E + T | T; T → i | ( E ) | ( error )` -/
def errExpr : List PRule :=
  [⟨0, [.nt 0, .tm (.sym 0), .nt 1]⟩, ⟨0, [.nt 1]⟩, ⟨1, [.tm (.sym 4)]⟩, ⟨1, [.tm (.sym 2), .nt 0, .tm (.sym 3)]⟩,
   ⟨1, [.tm (.sym 2), .tm .err, .tm (.sym 3)]⟩]

/-- parser.rs:1025-1105 -/
def errTables : Tables where
  action :=
  [(0, [(.sym 2, .shift 1), (.sym 4, .shift 2)]),
    (1, [(.sym 2, .shift 5), (.sym 4, .shift 6), (.err, .shift 7)]),
    (2, [(.sym 0, .reduce 2), (.eoi, .reduce 2)]),
    (3, [(.sym 0, .shift 10), (.eoi, .accept)]),
    (4, [(.sym 0, .reduce 1), (.eoi, .reduce 1)]),
    (5, [(.sym 2, .shift 5), (.sym 4, .shift 6), (.err, .shift 11)]),
    (6, [(.sym 3, .reduce 2), (.sym 0, .reduce 2)]),
    (7, [(.sym 3, .shift 13)]),
    (8, [(.sym 3, .shift 14), (.sym 0, .shift 15)]),
    (9, [(.sym 3, .reduce 1), (.sym 0, .reduce 1)]),
    (10, [(.sym 2, .shift 1), (.sym 4, .shift 2)]),
    (11, [(.sym 3, .shift 17)]),
    (12, [(.sym 3, .shift 18), (.sym 0, .shift 15)]),
    (13, [(.sym 0, .reduce 4), (.eoi, .reduce 4)]),
    (14, [(.sym 0, .reduce 3), (.eoi, .reduce 3)]),
    (15, [(.sym 2, .shift 5), (.sym 4, .shift 6)]),
    (16, [(.sym 0, .reduce 0), (.eoi, .reduce 0)]),
    (17, [(.sym 3, .reduce 4), (.sym 0, .reduce 4)]),
    (18, [(.sym 3, .reduce 3), (.sym 0, .reduce 3)]),
    (19, [(.sym 3, .reduce 0), (.sym 0, .reduce 0)])]
  goto :=
  [(0, [(0, 3), (1, 4)]), (1, [(0, 8), (1, 9)]), (5, [(0, 12), (1, 9)]), (10, [(1, 16)]), (15, [(1, 19)])]
  errors := [(1, [4]), (5, [4])]
  start := 0

example : sameUpTo [0, 3, 4, 2, 1, 10, 8, 9, 6, 5, 7, 16, 15, 14, 12, 11, 13, 19, 18, 17] (newTables 60 idSeeds ⟨errExpr, 0⟩) errTables = true := by
  decide +kernel

/-! ## parser/src/iter.rs:183-228, and parser_generator/tests/main.rs:53-60 -/

/-- `input.into_iter().parse(&parser)` with `LR1Parser::new` of the rules. -/
def parse {N T E : Type} (idx : T → Nat) (rules : List (Rule N T E)) (start : Nat) (dummy : List (Arg N T) → Except E N) (input : List T) :
    Option (Except (PErr E) N) :=
  match newTables 100 idSeeds (gram rules start) with
  | .ok (t, _) =>
    let p : Parser N T E := ⟨rules ++ [⟨freshSym (rules.map Rule.plain), [.nt start], dummy⟩], t⟩
    match run idx p 100 (Cfg.init p input) with
    | .done r _ => some r
    | _ => none
  | _ => none

open TestMain in
/-- The rules of iter.rs:205-226 are those of `main.rs` without the last one. -/
def sumRules : List (Rule Nt Tok (List Tok)) := rules.take 5

open TestMain in
example : parse Tok.index sumRules 0 (fun _ => .error []) [.num 1, .plus, .num 2, .star, .num 3, .plus, .num 4] =
    some (.ok (.e [.t [.f (.num 1)], .t [.f (.num 2), .f (.num 3)], .t [.f (.num 4)]])) := by rfl

open TestMain in
example : parse Tok.index rules 0 (fun _ => .error []) [.num 1, .plus, .num 2, .star, .num 3, .plus, .num 4] =
    some (.ok (.e [.t [.f (.num 1)], .t [.f (.num 2), .f (.num 3)], .t [.f (.num 4)]])) := by rfl

open TestMain in
example : parse Tok.index rules 0 (fun _ => .error []) [.num 1, .plus, .plus, .star, .num 3, .plus, .num 4] =
    some (.error (.reducer [.plus])) := by rfl

/-! ## parser/src/iter.rs:230-321 -/

/-- `Terminal` of the test. -/
inductive Tm where
  | plus
  | star
  | bracket
  | closeBracket
  | i (n : Nat)

def Tm.index : Tm → Nat
  | .plus => 0
  | .star => 1
  | .bracket => 2
  | .closeBracket => 3
  | .i _ => 4

/-- `NonTerminal` and `Union` of the test in one: `Item(Number n)`, `Item(NonTerminal x)`, `Item(Error l)` are `number`, `inner`, `bad`. -/
inductive Nn where
  | add (l : List Nn)
  | prod (l : List Nn)
  | number (n : Nat)
  | inner (x : Nn)
  | bad (l : List Tm)

/-- iter.rs:253-306; `unreachable!()` is `Err`. -/
def errRules : List (Rule Nn Tm Unit) :=
  [⟨0, [.nt 0, .tm (.sym 0), .nt 1], fun
      | [.nt (.add l), _, .nt t] => .ok (.add (l ++ [t]))
      | _ => .error ()⟩,
   ⟨0, [.tm .err, .tm (.sym 0), .nt 1], fun
      | [.err e, _, .nt t] => .ok (.add [.bad e, t])
      | _ => .error ()⟩,
   ⟨0, [.tm .err, .tm (.sym 0), .tm .err], fun
      | [.err e, _, .err e'] => .ok (.add [.bad (e ++ e')])
      | _ => .error ()⟩,
   ⟨0, [.nt 1], fun
      | [.nt t] => .ok (.add [t])
      | _ => .error ()⟩,
   ⟨1, [.nt 1, .tm (.sym 1), .nt 2], fun
      | [.nt (.prod l), _, .nt f] => .ok (.prod (l ++ [f]))
      | _ => .error ()⟩,
   ⟨1, [.nt 2], fun
      | [.nt f] => .ok (.prod [f])
      | _ => .error ()⟩,
   ⟨2, [.tm (.sym 2), .nt 0, .tm (.sym 3)], fun
      | [_, .nt e, _] => .ok (.inner e)
      | _ => .error ()⟩,
   ⟨2, [.tm (.sym 2), .tm .err, .tm (.sym 3)], fun
      | [_, .err e, _] => .ok (.bad e)
      | _ => .error ()⟩,
   ⟨2, [.tm (.sym 4)], fun
      | [.tok (.i n)] => .ok (.number n)
      | _ => .error ()⟩]

def parseErr (input : List Tm) : Option (Except (PErr Unit) Nn) := parse Tm.index errRules 0 (fun _ => .error ()) input

example : parseErr [.i 1, .plus, .i 2, .star, .bracket, .i 3, .plus, .i 4, .closeBracket] =
    some (.ok (.add [.prod [.number 1], .prod [.number 2, .inner (.add [.prod [.number 3], .prod [.number 4]])]])) := by rfl
example : parseErr [.i 1, .plus, .i 2, .star, .bracket, .i 3, .closeBracket] =
    some (.ok (.add [.prod [.number 1], .prod [.number 2, .inner (.add [.prod [.number 3]])]])) := by rfl
example : parseErr [.i 1, .plus, .i 2, .star, .bracket, .i 3, .i 4, .closeBracket] =
    some (.ok (.add [.prod [.number 1], .prod [.number 2, .bad [.i 3, .i 4]]])) := by rfl
example : parseErr [.i 1, .plus, .bracket, .i 2, .i 3, .closeBracket, .star, .i 4] =
    some (.ok (.add [.prod [.number 1], .prod [.bad [.i 2, .i 3], .number 4]])) := by rfl
example : parseErr [.plus, .i 2, .star, .bracket, .i 3, .closeBracket] =
    some (.ok (.add [.bad [.plus], .prod [.number 2, .inner (.add [.prod [.number 3]])]])) := by rfl
example : parseErr [.i 1, .plus, .i 2, .star, .bracket, .i 3] = some (.error .noRecovery) := by rfl

end Verif.Replay.Par
