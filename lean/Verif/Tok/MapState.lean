import Verif.Tok.Iter

/-!
# Model of `tokenize_with` with a closure that has a state (tokenizer/src/tokenizer/iter.rs:13-80)

`tokenize_with` takes an `FnMut(&I::Item) -> char` (iter.rs:27): its answer may depend on earlier calls, and it may do something else
besides (count, log, …).  `μ` is everything the closure can change.
-/

namespace Verif.Tok

variable {α E μ : Type}

/-- The closure, iter.rs:27: a call answers with a character and changes the memory. -/
abbrev Closure (μ α : Type) := μ → α → Nat × μ

/-- The mutable part of `TokenizeIterator`, iter.rs:18-20. -/
structure ItM (μ α : Type) where
  queue : List α
  src : List α
  mem : μ
  deriving DecidableEq, Repr

/-- `tokenize_with`, iter.rs:39-41. -/
def ItM.start (input : List α) (mem : μ) : ItM μ α := { queue := [], src := input, mem := mem }

/-- Body of the loop for one item, iter.rs:56-68: the closure is called once, its answer goes into `chars` and into the tables. -/
def scanItemM (d : DFA) (m : Closure μ α) (s : Scan α) (mem : μ) (x : α) : Option (Bool × Scan α × μ) :=
  let (c, mem) := m mem x
  (scanItem d (fun _ => c) s x).map fun (b, s) => (b, s, mem)

/-- The loop iter.rs:55-69 once the queue is empty. -/
def scanSrcM (d : DFA) (m : Closure μ α) (s : Scan α) (mem : μ) : List α → Option (Scan α × ItM μ α)
  | [] => some (s, ⟨[], [], mem⟩)
  | x :: t =>
    match scanItemM d m s mem x with
    | none => none
    | some (false, s, mem) => some (s, ⟨[], t, mem⟩)
    | some (true, s, mem) => scanSrcM d m s mem t

/-- The loop iter.rs:55-69. -/
def scanM (d : DFA) (m : Closure μ α) (s : Scan α) (mem : μ) : List α → List α → Option (Scan α × ItM μ α)
  | [], src => scanSrcM d m s mem src
  | x :: q, src =>
    match scanItemM d m s mem x with
    | none => none
    | some (false, s, mem) => some (s, ⟨q, src, mem⟩)
    | some (true, s, mem) => scanM d m s mem q src

/-- `TokenizeIterator::next`, iter.rs:47-79. -/
def Tokenizer.nextM (t : Tokenizer α E) (m : Closure μ α) (it : ItM μ α) : Out E × ItM μ α :=
  let d := t.dfa
  match scanM d m { node := d.b, pat := d.accept d.b, len := 0, i := 0, items := [], chars := [] } it.mem it.queue it.src with
  | none => (.panic, it)
  | some (s, it) =>
    match s.pat with
    | none => (.none, it)
    | some k =>
      let (items, q) := putBack s.len s.items.reverse it.queue
      match t.maker[k]? with
      | none => (.panic, { it with queue := q })
      | some f => (.token (f (s.chars.take s.len) items), { it with queue := q })

/-- `n` calls of `next`, with their outcomes. -/
def Tokenizer.callsM (t : Tokenizer α E) (m : Closure μ α) : Nat → ItM μ α → List (Out E) × ItM μ α
  | 0, it => ([], it)
  | n + 1, it =>
    let (o, it) := t.nextM m it
    let (os, it) := t.callsM m n it
    (o :: os, it)

/-- `collect`: calls of `next` until it returns `None` (or panics); `none` if the fuel runs out. -/
def Tokenizer.collectM (t : Tokenizer α E) (m : Closure μ α) : Nat → ItM μ α → Option (List E × ItM μ α)
  | 0, _ => none
  | n + 1, it =>
    match t.nextM m it with
    | (.token e, it) => (t.collectM m n it).map fun (es, it) => (e :: es, it)
    | (_, it) => some ([], it)

/-! ## Specification -/

/-- The answers of the closure if it is called for these items one after another. -/
def letters (m : Closure μ α) (mem : μ) : List α → List Nat
  | [] => []
  | x :: l => (m mem x).1 :: letters m (m mem x).2 l

/-- Its memory afterwards. -/
def memory (m : Closure μ α) (mem : μ) : List α → μ
  | [] => mem
  | x :: l => memory m (m mem x).2 l

/-- A closure that counts its calls. -/
def counting (f : α → Nat) : Closure Nat α := fun k x => (f x, k + 1)

end Verif.Tok
