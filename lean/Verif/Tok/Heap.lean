import Verif.Tok.Builder

/-!
# Model of `tokenizer/src/nfa.rs` with memory addresses

`Tok/Nfa.lean` addresses nodes by their position in the node vector.  The code uses pointers: `Arc` and `Weak` in `NFA`
(nfa.rs:176-209), raw pointers that are dereferenced with `unsafe` in `TokenizerNFA` (nfa.rs:24-104), and locks around
the nodes of `NFA`.  Here the nodes live at addresses chosen by an allocator that may do what it likes, as long as it
gives out no address that is in use; addresses that were freed may be given out again.
-/

namespace Verif.Tok

abbrev Addr := Nat

/-- The memory, as far as nodes are concerned.  A cell holds a node whose edges are addresses; what is in a cell that is
not live is garbage. -/
structure Heap where
  live : List Addr
  cell : Addr → Node
  /-- nodes whose `RwLock` is held for writing -/
  locked : List Addr
  clock : Nat

/-- What must not happen: use of memory that is not live, waiting for a lock this thread holds itself, a missing key in
an indexed map (a panic). -/
inductive Bad where
  | dangling
  | deadlock
  | badKey
  deriving DecidableEq, Repr

/-- Outcome of a computation: a value and the memory, an error, or something bad. -/
inductive HRes (α : Type) where
  | ok (a : α) (h : Heap)
  | err (e : NfaError)
  | bad (b : Bad)

/-- Computations on the memory. -/
def Mem (α : Type) := Heap → HRes α

instance : Monad Mem where
  pure a := fun h => .ok a h
  bind m f := fun h => match m h with
    | .ok a h => f a h
    | .err e => .err e
    | .bad b => .bad b

def fail {α : Type} (e : NfaError) : Mem α := fun _ => .err e

/-- The allocator: depends on anything, that is on a counter and on the addresses in use. -/
abbrev Alloc := Nat → List Addr → Addr

/-- It gives out only addresses that are not in use. -/
def Alloc.Fair (al : Alloc) : Prop := ∀ k l, al k l ∉ l

/-- The cell at `a` is changed. -/
def Heap.set (h : Heap) (a : Addr) (n : Node) : Heap := { h with cell := fun b => if b = a then n else h.cell b }

/-- `Arc::new(RwLock::new(n))`, `Box::pin(n)`. -/
def alloc (al : Alloc) (n : Node) : Mem Addr := fun h =>
  let a := al h.clock h.live
  .ok a { (h.set a n) with live := a :: h.live, clock := h.clock + 1 }

/-- `for _ in 0..n`, allocating empty nodes. -/
def allocMany (al : Alloc) : Nat → Mem (List Addr)
  | 0 => pure []
  | n + 1 => do
    let a ← alloc al {}
    let l ← allocMany al n
    pure (a :: l)

/-- The nodes are dropped.  (Edges are `Weak`, so they keep no node alive.) -/
def free (l : List Addr) : Mem Unit := fun h => .ok () { h with live := h.live.filter fun a => !l.contains a }

/-- `p.write().unwrap()` for the time of one change. -/
def modify (a : Addr) (f : Node → Node) : Mem Unit := fun h =>
  if a ∉ h.live then .bad .dangling
  else if a ∈ h.locked then .bad .deadlock
  else .ok () (h.set a (f (h.cell a)))

/-- `let guard = p.write().unwrap()`. -/
def lock (a : Addr) : Mem Unit := fun h =>
  if a ∉ h.live then .bad .dangling
  else if a ∈ h.locked then .bad .deadlock
  else .ok () { h with locked := a :: h.locked }

/-- A change through a guard, or through a `&mut` to a box. -/
def change (a : Addr) (f : Node → Node) : Mem Unit := fun h =>
  if a ∉ h.live then .bad .dangling else .ok () (h.set a (f (h.cell a)))

/-- `drop(guard)`. -/
def unlock (a : Addr) : Mem Unit := fun h => .ok () { h with locked := h.locked.erase a }

/-- `p.read().unwrap()` for the time of one look at the node. -/
def readNode (a : Addr) : Mem Node := fun h =>
  if a ∉ h.live then .bad .dangling
  else if a ∈ h.locked then .bad .deadlock
  else .ok (h.cell a) h

/-- `epsilon.insert(q)`. -/
def Node.addE (q : Addr) (n : Node) : Node := { n with eps := OSet.insert q n.eps }

/-- `next.insert(range, HashSet::from_iter(vec![q]))`. -/
def Node.addN (r : Nat × Nat) (q : Addr) (n : Node) : Node := { n with next := insertRange r [q] n.next }

/-- `NFA`, nfa.rs:205-209. -/
structure HNFA where
  node : List Addr
  b : Addr
  e : Addr

/-- `new[map[&p]]`, where `map` is the position of each address in `old` (nfa.rs:213 and 218-222,
147-149 and 151-163). -/
def mapped (old new : List Addr) (p : Addr) : Option Addr := if p ∈ old then new[old.idxOf p]? else none

/-- All or nothing. -/
def collect {α β : Type} (f : α → Option β) : List α → Option (List β)
  | [] => some []
  | a :: l =>
    match f a, collect f l with
    | some b, some bs => some (b :: bs)
    | _, _ => none

/-- The edges of a node translated one by one (nfa.rs:218-219, 156-167). -/
def Node.rename? (f : Addr → Option Addr) (n : Node) : Option Node :=
  match collect f n.eps, collect (fun x => (collect f x.2).map fun t => (x.1, OSet.ofList t)) n.next with
  | some eps, some next => some { eps := OSet.ofList eps, next := next }
  | _, _ => none

/-- A missing key is a panic. -/
def orBad {α : Type} : Option α → Mem α
  | some a => pure a
  | none => fun _ => .bad .badKey

/-- nfa.rs:215-220: the copies of the nodes get their edges; the lock of the copy is held while the original is read. -/
def copyEdges (old new : List Addr) : List (Addr × Addr) → Mem Unit
  | [] => pure ()
  | (o, n) :: l => do
    lock n
    let x ← readNode o
    let y ← orBad (x.rename? (mapped old new))
    change n fun _ => y
    unlock n
    copyEdges old new l

/-- `Clone for NFA`, nfa.rs:211-225. -/
def cloneH (al : Alloc) (x : HNFA) : Mem HNFA := do
  let node ← allocMany al x.node.length
  copyEdges x.node node (x.node.zip node)
  let b ← orBad (mapped x.node node x.b)
  let e ← orBad (mapped x.node node x.e)
  pure ⟨node, b, e⟩

/-- nfa.rs:308-313 (also 328-333, 374-379, 387-392), `k` times: a further copy behind the others. -/
def linkCopiesH (al : Alloc) (x : HNFA) : Nat → HNFA → Mem HNFA
  | 0, acc => pure acc
  | k + 1, acc => do
    let c ← cloneH al x
    modify acc.e (Node.addE c.b)
    linkCopiesH al x k ⟨acc.node ++ c.node, acc.b, c.e⟩

/-- nfa.rs:353-361 (also 393-401), `k` times: the same, with an edge to the end of the last copy. -/
def linkExitsH (al : Alloc) (x : HNFA) : Nat → HNFA → Mem HNFA
  | 0, acc => pure acc
  | k + 1, acc => do
    let c ← cloneH al x
    lock acc.e
    change acc.e (Node.addE c.b)
    change acc.e (Node.addE x.e)
    unlock acc.e
    linkExitsH al x k ⟨acc.node ++ c.node, acc.b, c.e⟩

/-- nfa.rs:306-318, 372-384: `n ≥ 2` copies. -/
def chainH (al : Alloc) (x : HNFA) (n : Nat) : Mem HNFA := do
  let c ← cloneH al x
  let acc ← linkCopiesH al x (n - 2) c
  modify acc.e (Node.addE x.b)
  pure ⟨acc.node ++ x.node, acc.b, x.e⟩

/-- nfa.rs:326-340: `n ≥ 1` copies, then a starred one. -/
def atLeastH (al : Alloc) (x : HNFA) (n : Nat) : Mem HNFA := do
  let c ← cloneH al x
  let acc ← linkCopiesH al x (n - 1) c
  modify acc.e (Node.addE x.b)
  modify x.e (Node.addE x.b)
  pure ⟨acc.node ++ x.node, acc.b, x.b⟩

/-- nfa.rs:402-407 (also 362-367): the last copy, which is the original. -/
def lastExitH (x acc : HNFA) : Mem HNFA := do
  lock acc.e
  change acc.e (Node.addE x.b)
  change acc.e (Node.addE x.e)
  unlock acc.e
  pure ⟨acc.node ++ x.node, acc.b, x.e⟩

/-- nfa.rs:385-409: `1 ≤ n < m`. -/
def boundedH (al : Alloc) (x : HNFA) (n m : Nat) : Mem HNFA := do
  let c ← cloneH al x
  let acc ← linkCopiesH al x (n - 1) c
  let acc ← linkExitsH al x (m - n - 1) acc
  lastExitH x acc

/-- nfa.rs:351-370: `{0,m}` with `m ≥ 2`. -/
def upToH (al : Alloc) (x : HNFA) (m : Nat) : Mem HNFA := do
  let c ← cloneH al x
  let acc ← linkExitsH al x (m - 2) c
  let r ← lastExitH x acc
  modify r.b (Node.addE r.e)
  pure r

/-- nfa.rs:301-304, 343-346: `{0}` and `{0,0}`; the automaton of the body is dropped. -/
def bareH (al : Alloc) (x : HNFA) : Mem HNFA := do
  let a ← alloc al {}
  free x.node
  pure ⟨[a], a, a⟩

/-- nfa.rs:286-289, 347-350 -/
def optH (x : HNFA) : Mem HNFA := do
  modify x.b (Node.addE x.e)
  pure x

/-- nfa.rs:290-294, 321-325 -/
def starH (x : HNFA) : Mem HNFA := do
  modify x.e (Node.addE x.b)
  pure { x with e := x.b }

/-- nfa.rs:295-298 -/
def plusH (x : HNFA) : Mem HNFA := do
  modify x.e (Node.addE x.b)
  pure x

/-- The repetition part of `try_from`, nfa.rs:285-413. -/
def repH (al : Alloc) (x : HNFA) : RepKind → Mem HNFA
  | .zeroOrOne => optH x
  | .zeroOrMore => starH x
  | .oneOrMore => plusH x
  | .exactly 0 => bareH al x
  | .exactly 1 => pure x
  | .exactly n => chainH al x n
  | .atLeast 0 => starH x
  | .atLeast n => atLeastH al x n
  | .bounded 0 0 => bareH al x
  | .bounded 0 1 => optH x
  | .bounded 0 m => upToH al x m
  | .bounded 1 1 => pure x
  | .bounded n m => if n = m then chainH al x n else if n < m then boundedH al x n m else fail .panic

/-- nfa.rs:272-274 -/
def addRangesH (b e : Addr) : List (Nat × Nat) → Mem Unit
  | [] => pure ()
  | r :: rs => do
    change b (Node.addN (r.1, r.2 + 1) e)
    addRangesH b e rs

mutual
/-- `NFA::try_from(HirKind)`, nfa.rs:243-444. -/
def buildH (al : Alloc) : Hir → Mem HNFA
  | .empty => do
    let a ← alloc al {}
    lock a
    change a (Node.addE a)
    change a (Node.addN (0, 0x110000) a)
    unlock a
    pure ⟨[a], a, a⟩
  | .literalU c => do
    let b ← alloc al {}
    let e ← alloc al {}
    modify b (Node.addN (c, c + 1) e)
    pure ⟨[b, e], b, e⟩
  | .literalB _ => fail .byteLiteral
  | .classU rs => do
    let b ← alloc al {}
    let e ← alloc al {}
    lock b
    addRangesH b e rs
    unlock b
    pure ⟨[b, e], b, e⟩
  | .classB => fail .bytesClass
  | .anchor => fail .anchor
  | .wordBoundary => fail .wordBoundary
  | .rep k h => do
    let x ← buildH al h
    repH al x k
  | .group h => buildH al h
  | .concat hs => buildConcatH al hs
  | .alt hs => do
    let b ← alloc al {}
    let e ← alloc al {}
    lock b
    let node ← buildAltH al b e [b, e] hs
    unlock b
    pure ⟨node, b, e⟩
/-- nfa.rs:416-425 -/
def buildConcatH (al : Alloc) : List Hir → Mem HNFA
  | [] => fail .panic
  | [h] => buildH al h
  | h :: t => do
    let acc ← buildConcatH al t
    let x ← buildH al h
    modify x.e (Node.addE acc.b)
    pure ⟨acc.node ++ x.node, x.b, acc.e⟩
/-- nfa.rs:433-438; the lock of `b` is held by the caller. -/
def buildAltH (al : Alloc) (b e : Addr) (node : List Addr) : List Hir → Mem (List Addr)
  | [] => pure node
  | h :: t => do
    let x ← buildH al h
    change b (Node.addE x.b)
    modify x.e (Node.addE e)
    buildAltH al b e (node ++ x.node) t
end

/-- `TokenizerNFA`, nfa.rs:99-104, with raw pointers. -/
structure HTNFA where
  node : List Addr
  b : Addr
  ends : List Addr

/-- nfa.rs:154-168: the boxes get the edges of the nodes of `nfa`. -/
def fillBoxes (old new : List Addr) : List (Addr × Addr) → Mem Unit
  | [] => pure ()
  | (o, n) :: l => do
    let x ← readNode o
    let y ← orBad (x.rename? (mapped old new))
    change n fun _ => y
    fillBoxes old new l

/-- Loop of `TokenizerNFA::try_from(Vec<Hir>)`, nfa.rs:143-169; `b` is the box `begin`.  At the end of each round `nfa` is
dropped. -/
def buildAllLoopH (al : Alloc) (b : Addr) : List Hir → List Addr × List Addr → Mem (List Addr × List Addr)
  | [], st => pure st
  | h :: t, (node, ends) => do
    let x ← buildH al h
    let boxes ← allocMany al x.node.length
    let e ← orBad (mapped x.node boxes x.e)
    let xb ← orBad (mapped x.node boxes x.b)
    change b (Node.addE xb)
    fillBoxes x.node boxes (x.node.zip boxes)
    free x.node
    buildAllLoopH al b t (node ++ boxes, ends ++ [e])

/-- `TokenizerNFA::try_from(Vec<Hir>)`, nfa.rs:135-174. -/
def buildAllH (al : Alloc) (hs : List Hir) : Mem HTNFA := do
  let b ← alloc al {}
  let (node, ends) ← buildAllLoopH al b hs ([], [])
  pure ⟨node ++ [b], b, ends⟩

/-! ## `build` -/

/-- The memory as `From<TokenizerNFA>` (dfa.rs:72-130) sees it through raw pointers (`Deref`, nfa.rs:33-39): at the
addresses of the nodes it finds the nodes, at all others anything, there may be nothing readable as well. -/
def Heap.SeenAs (h : Heap) (node : List Addr) (mem : List Node) : Prop := ∀ a ∈ node, mem[a]? = some (h.cell a)

/-- `TokenizerBuilder::build`, tokenizer.rs:106-112, with the nodes of `TokenizerNFA` at the addresses where they are.
`view` is what the raw pointers show; sets of nodes are ordered by address (`Ord` of `TokenizerNFANodeRef`,
nfa.rs:55-65).  The outcome is an `Except Bad` because memory could be misused. -/
def builderBuildH {π ρ α E : Type} (al : Alloc) (h0 : Heap) (view : Heap → List Addr → List Node) (fuel : Nat) (s : Seeds)
    (parse : π → Except ρ Hir) (patterns : List (π × (List Nat → List α → E))) :
    Option (Except Bad (Except (BuildError ρ) (Tokenizer α E × List (Nat × Nat)))) :=
  match parseAll parse (patterns.map Prod.fst) with
  | .error e => some (.ok (.error (.regex e)))
  | .ok hs =>
    match buildAllH al hs h0 with
    | .bad b => some (.error b)
    | .err e => some (.ok (.error (.construct e)))
    | .ok T h => (buildTables fuel s.ord s.min ⟨view h T.node, T.b, T.ends⟩).map fun r =>
        .ok (.ok ({ dfa := r.1, maker := patterns.map Prod.snd }, r.2))

/-! ## Specification -/

/-- Following an edge, whatever its label. -/
def Heap.Edge (h : Heap) (a b : Addr) : Prop := b ∈ (h.cell a).eps ∨ ∃ r t, (r, t) ∈ (h.cell a).next ∧ b ∈ t

/-- Everything that can be reached by following edges. -/
inductive Heap.Reach (h : Heap) : Addr → Addr → Prop
  | refl (a) : Heap.Reach h a a
  | step {a b c} : Heap.Reach h a b → h.Edge b c → Heap.Reach h a c

/-- What the raw pointers show is the memory at the addresses of the nodes. -/
def ViewOk (view : Heap → List Addr → List Node) : Prop := ∀ (h : Heap) (node : List Addr), h.SeenAs node (view h node)

/-- Reading a word along the edges in memory. -/
inductive Heap.Walk (h : Heap) : Addr → List Nat → Addr → Prop
  | nil (a) : Heap.Walk h a [] a
  | eps {a b c w} : b ∈ (h.cell a).eps → Heap.Walk h b w c → Heap.Walk h a w c
  | step {a b c x w r t} : (r, t) ∈ (h.cell a).next → r.1 ≤ x → x < r.2 → b ∈ t → Heap.Walk h b w c →
      Heap.Walk h a (x :: w) c

end Verif.Tok
