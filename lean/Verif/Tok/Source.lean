import Verif.Tok.Iter
import Verif.Par.Source

/-!
# Model of the tokenizer on an arbitrary iterator (tokenizer/src/tokenizer/iter.rs:24-80)

`Tokenize` is implemented for every `Iterator` (iter.rs:30), so the source need not be a list: it may never end, and it may go on after
`None`.  The fuel of the loop is the number of calls of the source's `next`; `none` means that a call has not returned yet.
-/

namespace Verif.Tok

open Verif.Par (Source)

variable {α E σ : Type}

/-- The mutable part of `TokenizeIterator`, iter.rs:18-19. -/
structure ItFrom (σ α : Type) where
  queue : List α
  src : σ

/-- Outcome of the loop iter.rs:55-69. -/
inductive Ran (σ α : Type) where
  | wait
  | panic
  | done (s : Scan α) (it : ItFrom σ α)

/-- The loop iter.rs:55-69 once the queue is empty. -/
def scanSrcFrom (d : DFA) (map : α → Nat) (nxt : Source σ α) : Nat → Scan α → σ → Ran σ α
  | 0, _, _ => .wait
  | n + 1, sc, s =>
    match nxt s with
    | (none, s) => .done sc ⟨[], s⟩
    | (some x, s) =>
      match scanItem d map sc x with
      | none => .panic
      | some (false, sc) => .done sc ⟨[], s⟩
      | some (true, sc) => scanSrcFrom d map nxt n sc s

/-- The loop iter.rs:55-69. -/
def scanFrom (d : DFA) (map : α → Nat) (nxt : Source σ α) (fuel : Nat) : Scan α → List α → σ → Ran σ α
  | sc, [], s => scanSrcFrom d map nxt fuel sc s
  | sc, x :: q, s =>
    match scanItem d map sc x with
    | none => .panic
    | some (false, sc) => .done sc ⟨q, s⟩
    | some (true, sc) => scanFrom d map nxt fuel sc q s

/-- `TokenizeIterator::next`, iter.rs:47-79. -/
def Tokenizer.nextFrom (t : Tokenizer α E) (map : α → Nat) (nxt : Source σ α) (fuel : Nat) (it : ItFrom σ α) : Option (Out E × ItFrom σ α) :=
  let d := t.dfa
  match scanFrom d map nxt fuel { node := d.b, pat := d.accept d.b, len := 0, i := 0, items := [], chars := [] } it.queue it.src with
  | .wait => none
  | .panic => some (.panic, it)
  | .done s it =>
    match s.pat with
    | none => some (.none, it)
    | some k =>
      let (items, q) := putBack s.len s.items.reverse it.queue
      match t.maker[k]? with
      | none => some (.panic, { it with queue := q })
      | some f => some (.token (f (s.chars.take s.len) items), { it with queue := q })

/-- A call of `next` returns. -/
def Tokenizer.Returns (t : Tokenizer α E) (map : α → Nat) (nxt : Source σ α) (it : ItFrom σ α) (o : Out E) (it' : ItFrom σ α) : Prop :=
  ∃ fuel, t.nextFrom map nxt fuel it = some (o, it')

/-- A call of `next` never returns. -/
def Tokenizer.Hangs (t : Tokenizer α E) (map : α → Nat) (nxt : Source σ α) (it : ItFrom σ α) : Prop :=
  ∀ fuel, t.nextFrom map nxt fuel it = none

/-- A row of calls of `next` returns these outcomes. -/
inductive Tokenizer.ReturnsAll (t : Tokenizer α E) (map : α → Nat) (nxt : Source σ α) : ItFrom σ α → List (Out E) → ItFrom σ α → Prop
  | nil (it) : ReturnsAll t map nxt it [] it
  | cons (it o it' os it'') : t.Returns map nxt it o it' → ReturnsAll t map nxt it' os it'' → ReturnsAll t map nxt it (o :: os) it''

/-! ## Specification -/

/-- The source gives the items `l` and then answers `None` for ever. -/
def GivesFused (nxt : Source σ α) (s : σ) (l : List α) : Prop := ∀ k, Par.answer nxt k s = l[k]?

end Verif.Tok
