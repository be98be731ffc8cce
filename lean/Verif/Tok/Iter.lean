import Verif.Tok.Dfa

/-!
# Model of `tokenizer/src/tokenizer/iter.rs`

Items have an arbitrary type `α`; the closure `map` is a pure function from items to code points (the code allows an
`FnMut`, and calls it again for items that were put back).  The source iterator is a finite list: `iter.next()` takes
the head, and keeps returning `None` at the end.  `Tok/Source` models arbitrary source iterators, `Tok/MapState` stateful closures.
-/

namespace Verif.Tok

/-- A built tokenizer, tokenizer.rs:12-17: the tables and the callbacks `enum_maker`.  A callback gets the matched
string and the matched items. -/
structure Tokenizer (α E : Type) where
  dfa : DFA
  maker : List (List Nat → List α → E)

/-- The mutable part of `TokenizeIterator`, iter.rs:18-19. -/
structure It (α : Type) where
  queue : List α
  src : List α
  deriving DecidableEq, Repr

/-- `tokenize` / `tokenize_with`, iter.rs:31-42. -/
def It.start {α : Type} (input : List α) : It α := { queue := [], src := input }

/-- Local variables of the loop, iter.rs:49-54. -/
structure Scan (α : Type) where
  node : Nat
  pat : Option Nat
  len : Nat
  i : Nat
  items : List α
  chars : List Nat

/-- Body of the loop for one item, iter.rs:56-68; the flag says whether the loop goes on; `none` is the index panic of
`self.goto[node]` (tokenizer.rs:68). -/
def scanItem {α : Type} (d : DFA) (map : α → Nat) (s : Scan α) (x : α) : Option (Bool × Scan α) :=
  let c := map x
  let s := { s with i := s.i + 1, items := s.items ++ [x], chars := s.chars ++ [c] }
  match d.rows[s.node]? with
  | none => none
  | some r =>
    match nextInRow r c with
    | none => some (false, s)
    | some n =>
      match d.accept n with
      | some k => some (true, { s with pat := some k, len := s.i, node := n })
      | none => some (true, { s with node := n })

/-- The loop iter.rs:55-69 once the queue is empty: items come from the source. -/
def scanSrc {α : Type} (d : DFA) (map : α → Nat) (s : Scan α) : List α → Option (Scan α × It α)
  | [] => some (s, ⟨[], []⟩)
  | x :: t =>
    match scanItem d map s x with
    | none => none
    | some (false, s) => some (s, ⟨[], t⟩)
    | some (true, s) => scanSrc d map s t

/-- The loop iter.rs:55-69: `queue.pop_front().or_else(|| iter.next())`. -/
def scan {α : Type} (d : DFA) (map : α → Nat) (s : Scan α) : List α → List α → Option (Scan α × It α)
  | [], src => scanSrc d map s src
  | x :: q, src =>
    match scanItem d map s x with
    | none => none
    | some (false, s) => some (s, ⟨q, src⟩)
    | some (true, s) => scan d map s q src

/-- The loop iter.rs:71-73; the items are given in reverse order (`pop` takes the last one). -/
def putBack {α : Type} (len : Nat) : List α → List α → List α × List α
  | [], q => ([], q)
  | x :: r, q => if len < (x :: r).length then putBack len r (x :: q) else ((x :: r).reverse, q)

/-- Outcome of one call of `next`. -/
inductive Out (E : Type) where
  | token (e : E)
  | none
  | panic
  deriving DecidableEq, Repr

/-- `TokenizeIterator::next`, iter.rs:47-79. -/
def Tokenizer.next {α E : Type} (t : Tokenizer α E) (map : α → Nat) (it : It α) : Out E × It α :=
  let d := t.dfa
  match scan d map { node := d.b, pat := d.accept d.b, len := 0, i := 0, items := [], chars := [] } it.queue it.src with
  | none => (.panic, it)
  | some (s, it) =>
    match s.pat with
    | none => (.none, it)
    | some k =>
      let (items, q) := putBack s.len s.items.reverse it.queue
      match t.maker[k]? with
      | none => (.panic, { it with queue := q })
      | some f => (.token (f (s.chars.take s.len) items), { it with queue := q })

/-- `n` calls of `next`, with their outcomes. -/
def Tokenizer.calls {α E : Type} (t : Tokenizer α E) (map : α → Nat) : Nat → It α → List (Out E) × It α
  | 0, it => ([], it)
  | n + 1, it =>
    let (o, it) := t.next map it
    let (os, it) := t.calls map n it
    (o :: os, it)

/-- `collect`: calls of `next` until it returns `None` (or panics); `none` if the fuel runs out. -/
def Tokenizer.collect {α E : Type} (t : Tokenizer α E) (map : α → Nat) : Nat → It α → Option (List E × It α)
  | 0, _ => none
  | n + 1, it =>
    match t.next map it with
    | (.token e, it) => (t.collect map n it).map fun (es, it) => (e :: es, it)
    | (_, it) => some ([], it)

end Verif.Tok
