import Verif.Par.Effects
import Verif.Par.Source

/-!
# Model of `parse` with a source and callbacks that share a world (parser/src/iter.rs:36-172)

The iterator and the callbacks can refer to the same thing outside, say a table of names that the callbacks fill and that the tokenizer looks
into (both through a `RefCell`).  Then the calls of `next` and of the callbacks are interleaved, and each finds the world as the one before
left it, whichever it was.
-/

namespace Verif.Par

variable {S N T E : Type}

/-- `n` rounds of the loop iter.rs:51-170; the source (iter.rs:52-59, as in `Par/Source.lean`) and the callbacks (iter.rs:100, as in
`Par/Effects.lean`) share the world.  After `pull` the buffer has a front, so that `stepE` does not use its own source, which stays empty. -/
def runX (idx : T → Nat) (nxt : Source S T) (p : EParser S N T E) : Nat → Cfg N T → S → EStep S N T E
  | 0, c, s => .more c s
  | n + 1, c, s =>
    let (c, s) := pull idx nxt c s
    match stepE idx p c s with
    | .more c s => runX idx nxt p n c s
    | r => r

/-- `source.parse(&parser)`, begun in world `s`, returns `x` and leaves the world as `s'`; `c` is the final configuration. -/
def ParsesX (idx : T → Nat) (nxt : Source S T) (p : EParser S N T E) (s : S) (x : Except (PErr E) N) (c : Cfg N T) (s' : S) : Prop :=
  ∃ n, runX idx nxt p n (p.init []) s = .done x c s'

/-- A panic in a callback goes through `parse`. -/
def UnwindsX (idx : T → Nat) (nxt : Source S T) (p : EParser S N T E) (s : S) (c : Cfg N T) (s' : S) : Prop :=
  ∃ n, runX idx nxt p n (p.init []) s = .unwind c s'

/-- `parse` itself panics. -/
def PanicsX (idx : T → Nat) (nxt : Source S T) (p : EParser S N T E) (s : S) : Prop :=
  ∃ n, runX idx nxt p n (p.init []) s = .panic

/-! ## Specification

A derivation tree over the symbols `w` says what to do: going through it bottom-up and from left to right, at a leaf the next item is asked of
the source, at a node the callback is called.  One item has been asked for in advance. -/

/-- In the midst of it: the world, the item asked for in advance, and the symbols the source is expected to answer after it. -/
structure Mid (S T : Type) where
  world : S
  look : Option T
  rest : List Nat

/-- What comes of it: a value, an error, a panic; or the source has answered something that does not fit the tree. -/
inductive Went (S T A E : Type) where
  | ok (a : A) (m : Mid S T)
  | error (e : E) (s : S)
  | panic (s : S)
  | strays

/-- The source is asked for an item, and is expected to answer one with the first of the symbols `w`, or `None` if there is none. -/
def draw (idx : T → Nat) (nxt : Source S T) (s : S) (w : List Nat) : Option (Mid S T) :=
  if (nxt s).1.map idx = w.head? then some ⟨(nxt s).2, (nxt s).1, w.tail⟩ else none

mutual
/-- Going through a tree. -/
def Tree.playX (idx : T → Nat) (nxt : Source S T) (rules : List (ERule S N T E)) : Tree Nat → Mid S T → Went S T (Arg N T) E
  | .leaf _ k, m =>
    match m.look with
    | none => .strays
    | some t =>
      if idx t = k then
        match draw idx nxt m.world m.rest with
        | none => .strays
        | some m => .ok (.tok t) m
      else .strays
  | .err _ _, _ => .strays
  | .node r cs, m =>
    match playsX idx nxt rules cs m with
    | .strays => .strays
    | .error e s => .error e s
    | .panic s => .panic s
    | .ok args m =>
      match rules[r]? with
      | none => .panic m.world
      | some rule =>
        match rule.act m.world args with
        | .error e s => .error e s
        | .panic s => .panic s
        | .ok v s => .ok (.nt v) { m with world := s }
def playsX (idx : T → Nat) (nxt : Source S T) (rules : List (ERule S N T E)) : List (Tree Nat) → Mid S T → Went S T (List (Arg N T)) E
  | [], m => .ok [] m
  | f :: fs, m =>
    match f.playX idx nxt rules m with
    | .strays => .strays
    | .error e s => .error e s
    | .panic s => .panic s
    | .ok a m =>
      match playsX idx nxt rules fs m with
      | .strays => .strays
      | .error e s => .error e s
      | .panic s => .panic s
      | .ok as m => .ok (a :: as) m
end

/-- The whole of it, for a tree over the symbols `w`, begun in world `s`. -/
def Tree.performs (idx : T → Nat) (nxt : Source S T) (rules : List (ERule S N T E)) (w : List Nat) (f : Tree Nat) (s : S) :
    Went S T (Arg N T) E :=
  match draw idx nxt s w with
  | none => .strays
  | some m => f.playX idx nxt rules m

/-- The items read so far begin the symbols `w`, and if the source has answered `None`, they are all of `w`. -/
def Begun (idx : T → Nat) (c : Cfg N T) (w : List Nat) : Prop :=
  c.read.map idx <+: w ∧ (c.pulls = c.read.length + 1 → c.read.map idx = w)

end Verif.Par
