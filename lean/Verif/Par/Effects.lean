import Verif.Par.Trees
import Verif.Par.Contract

/-!
# Model of `parser/src/iter.rs` with callbacks that have effects

A callback is an `Fn`, but it can still read and write something outside (a `Cell`, a counter, a file, the clock) and it can panic.  Here the
world outside is a state `S` that is handed from call to call.  Everything but the call of the callback is the same as in `Par/Parse.lean`.
-/

namespace Verif.Par

/-- What a computation does that begins with some world outside: a value, an error or a panic, and the new world outside. -/
inductive Did (S A E : Type) where
  | ok (a : A) (s : S)
  | error (e : E) (s : S)
  | panic (s : S)
  deriving DecidableEq, Repr

/-- `Rule`, syntax.rs:61-66. -/
structure ERule (S N T E : Type) where
  lhs : Nat
  rhs : List Sym
  act : S → List (Arg N T) → Did S N E

/-- The part of a rule that the tables depend on. -/
def ERule.plain {S N T E : Type} (r : ERule S N T E) : PRule := ⟨r.lhs, r.rhs⟩

/-- `LR1Parser`, parser.rs:311-318. -/
structure EParser (S N T E : Type) where
  rules : List (ERule S N T E)
  tab : Tables

/-- Result of one round of the loop iter.rs:51-170, with the world outside.  `unwind` is a panic in a callback, `panic` one of `parse`
itself. -/
inductive EStep (S N T E : Type) where
  | more (c : Cfg N T) (s : S)
  | done (r : Except (PErr E) N) (c : Cfg N T) (s : S)
  | unwind (c : Cfg N T) (s : S)
  | panic

variable {S N T E : Type}

/-- A round without a callback leaves the world outside as it is. -/
def Step.still (s : S) : Step N T E → EStep S N T E
  | .more c => .more c s
  | .done r c => .done r c s
  | .panic => .panic

/-- iter.rs:73-113: reduce by rule number `r`. -/
def onReduceE (p : EParser S N T E) (c : Cfg N T) (s : S) (r : Nat) : EStep S N T E :=
  match p.rules[r]? with
  | none => .panic
  | some rule =>
    if c.stack.length < rule.rhs.length then .panic
    else
      let popped := (c.stack.take rule.rhs.length).reverse
      let stack := c.stack.drop rule.rhs.length
      let syms := popped.map Prod.snd
      match mkArgs c.read 0 syms with
      | none => .panic
      | some args =>
        let state := (popped.head?.map Prod.fst).getD c.state
        let c := { c with log := (r, args) :: c.log }
        match rule.act s args with
        | .panic s => .unwind c s
        | .error e s => .done (.error (.reducer e)) c s
        | .ok v s =>
          match (get state p.tab.goto).bind (get rule.lhs) with
          | none => .panic
          | some q =>
            .more { c with
              state := q
              stack := (state, .nt v (firstIndex c.read.length syms)) :: stack
              recov := if c.recov.contains r then [] else c.recov } s

/-- One round of the loop, iter.rs:51-170.  `onError` calls no callbacks, it only needs the tables. -/
def stepE (idx : T → Nat) (p : EParser S N T E) (c : Cfg N T) (s : S) : EStep S N T E :=
  let c := fill idx c
  match c.buffer with
  | [] => .panic
  | (a, i) :: buffer =>
    match get c.state p.tab.action with
    | none => .panic
    | some acts =>
      match get a acts with
      | some (.shift q) =>
        match a with
        | .sym t => .more { c with state := q, stack := (c.state, .tok t i) :: c.stack, buffer := buffer } s
        | .err => .panic
        | .eoi => .more { c with state := q, stack := (c.state, .eoi i) :: c.stack, buffer := buffer } s
      | some (.reduce r) => onReduceE p c s r
      | some .accept =>
        match c.stack with
        | (_, .nt v _) :: _ => .done (.ok v) c s
        | _ => .panic
      | none => (onError idx (⟨[], p.tab⟩ : Parser N T E) c a i).still s

/-- iter.rs:45-50 -/
def EParser.init (p : EParser S N T E) (input : List T) : Cfg N T := Cfg.init (⟨[], p.tab⟩ : Parser N T E) input

/-- `n` rounds of the loop (fewer if it ends). -/
def runE (idx : T → Nat) (p : EParser S N T E) : Nat → Cfg N T → S → EStep S N T E
  | 0, c, s => .more c s
  | n + 1, c, s =>
    match stepE idx p c s with
    | .more c s => runE idx p n c s
    | r => r

/-- `parse`, begun with the world outside in state `s`, returns `x` and leaves it in state `s'`; `c` is the final configuration. -/
def ParsesE (idx : T → Nat) (p : EParser S N T E) (input : List T) (s : S) (x : Except (PErr E) N) (c : Cfg N T) (s' : S) : Prop :=
  ∃ n, runE idx p n (p.init input) s = .done x c s'

/-- A panic in a callback goes through `parse`. -/
def UnwindsE (idx : T → Nat) (p : EParser S N T E) (input : List T) (s : S) (c : Cfg N T) (s' : S) : Prop :=
  ∃ n, runE idx p n (p.init input) s = .unwind c s'

/-- `parse` itself panics. -/
def PanicsE (idx : T → Nat) (p : EParser S N T E) (input : List T) (s : S) : Prop := ∃ n, runE idx p n (p.init input) s = .panic

/-- The configuration and the world outside at some moment: after `n` rounds, or at the end. -/
def MomentE (idx : T → Nat) (p : EParser S N T E) (input : List T) (s : S) (c : Cfg N T) (s' : S) : Prop :=
  ∃ n, runE idx p n (p.init input) s = .more c s' ∨ (∃ x, runE idx p n (p.init input) s = .done x c s') ∨
    runE idx p n (p.init input) s = .unwind c s'

/-- The plain grammar of rules and a start symbol. -/
def gramE (rules : List (ERule S N T E)) (start : Nat) : Gram := ⟨rules.map ERule.plain, start⟩

/-- `LR1Parser::new`, parser.rs:321-390, with the rules, as `MakesParser`. -/
def MakesE (o : Seeds) (rules : List (ERule S N T E)) (start : Nat) (p : EParser S N T E) (ws : List Warning) : Prop :=
  NewGives o (gramE rules start) (.ok (p.tab, ws)) ∧
  ∃ dummy, p.rules = rules ++ [⟨freshSym (rules.map ERule.plain), [.nt start], dummy⟩]

/-! ## Specification -/

mutual
/-- Going through a tree bottom-up and from left to right, with callbacks that have effects: the calls made, and what comes of it. -/
def Tree.play (rules : List (ERule S N T E)) : Tree T → S → List (Call N T) × Did S (Arg N T) E
  | .leaf _ t, s => ([], .ok (.tok t) s)
  | .err _ l, s => ([], .ok (.err l) s)
  | .node r cs, s =>
    match plays rules cs s with
    | (lg, .error e s) => (lg, .error e s)
    | (lg, .panic s) => (lg, .panic s)
    | (lg, .ok args s) =>
      match rules[r]? with
      | none => (lg, .panic s)
      | some rule =>
        (lg ++ [(r, args)], match rule.act s args with
          | .error e s => .error e s
          | .panic s => .panic s
          | .ok v s => .ok (.nt v) s)
def plays (rules : List (ERule S N T E)) : List (Tree T) → S → List (Call N T) × Did S (List (Arg N T)) E
  | [], s => ([], .ok [] s)
  | f :: fs, s =>
    match f.play rules s with
    | (lg, .error e s) => (lg, .error e s)
    | (lg, .panic s) => (lg, .panic s)
    | (lg, .ok a s) =>
      match plays rules fs s with
      | (lg', .error e s) => (lg ++ lg', .error e s)
      | (lg', .panic s) => (lg ++ lg', .panic s)
      | (lg', .ok as s) => (lg ++ lg', .ok (a :: as) s)
end

/-- `Yields rules fs as`: the trees `fs` can have the values `as`, if each callback may find any world outside. -/
inductive Yields (rules : List (ERule S N T E)) : List (Tree T) → List (Arg N T) → Prop
  | nil : Yields rules [] []
  | leaf (i t fs as) : Yields rules fs as → Yields rules (.leaf i t :: fs) (.tok t :: as)
  | err (lo l fs as) : Yields rules fs as → Yields rules (.err lo l :: fs) (.err l :: as)
  | node (r rule cs args s v s' fs as) : rules[r]? = some rule → Yields rules cs args → rule.act s args = .ok v s' →
      Yields rules fs as → Yields rules (.node r cs :: fs) (.nt v :: as)

/-- The calls `calls`, one after the other from the world `s` on, all return a value, and leave the world outside in state `s'`. -/
inductive Returns (rules : List (ERule S N T E)) : List (Call N T) → S → S → Prop
  | nil (s) : Returns rules [] s s
  | call (r rule args v l s s1 s2) : rules[r]? = some rule → rule.act s args = .ok v s1 → Returns rules l s1 s2 →
      Returns rules ((r, args) :: l) s s2

/-- The callbacks keep the promise `Q` (see `Par/Contract.lean`) in every world, if they get arguments that fit. -/
def KeepsE (idx : T → Nat) (Q : Nat → N → Prop) (rules : List (ERule S N T E)) : Prop :=
  ∀ rule ∈ rules, ∀ s args v s', ArgsFit idx Q rule.rhs args → rule.act s args = .ok v s' → Q rule.lhs v

end Verif.Par
