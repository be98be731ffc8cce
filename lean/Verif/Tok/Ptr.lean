import Verif.Tok.Heap

/-!
# Model of `tokenizer/src/dfa.rs` and of `DFATokenizer::new` with memory addresses

`Tok/Dfa.lean` addresses the nodes of a `TokenizerDFA` by position.  In the code a node is a `Pin<Box<TokenizerDFANode>>`,
edges are raw pointers that are dereferenced with `unsafe` (dfa.rs:11-26), and the hash maps `end`, `group_map` and
`index_map` are keyed by these pointers.  Here the nodes are at addresses chosen by an allocator as in `Tok/Heap.lean`; the
nodes of the `TokenizerNFA` are in the same memory and are dropped on the way.
-/

namespace Verif.Tok

/-- The memory, as far as nodes of a `TokenizerDFA` are concerned: their addresses, the addresses that are in use for
anything else (among these the nodes of the `TokenizerNFA`), and the maps `next` (dfa.rs:43-46) whose values are
addresses. -/
structure DHeap where
  nodes : List Addr
  other : List Addr
  cell : Addr → Row
  clock : Nat

/-- What must not happen: following a pointer to something that is not a live node; a missing key in an indexed map; an
index out of range; `unwrap` of the first element of an empty set. -/
inductive DBad where
  | dangling
  | badKey
  | badIndex
  | emptySet
  deriving DecidableEq, Repr

/-- Outcome: a value and the memory, something bad, or too little fuel. -/
inductive DRes (α : Type) where
  | ok (a : α) (h : DHeap)
  | bad (b : DBad)
  | fuel

def DMem (α : Type) := DHeap → DRes α

instance : Monad DMem where
  pure a := fun h => .ok a h
  bind m f := fun h => match m h with
    | .ok a h => f a h
    | .bad b => .bad b
    | .fuel => .fuel

def DMem.bad {α : Type} (b : DBad) : DMem α := fun _ => .bad b
def DMem.noFuel {α : Type} : DMem α := fun _ => .fuel

/-- `Box::pin(TokenizerDFANode::new())`, dfa.rs:47-50, 80, 109, 171. -/
def newNode (al : Alloc) : DMem Addr := fun h =>
  let a := al h.clock (h.nodes ++ h.other)
  .ok a { h with nodes := a :: h.nodes, cell := fun b => if b = a then [] else h.cell b, clock := h.clock + 1 }

/-- `Deref for TokenizerDFANodeRef`, dfa.rs:20-26, or a look through a box, and `next` (dfa.rs:56-58). -/
def deref (a : Addr) : DMem Row := fun h => if a ∈ h.nodes then .ok (h.cell a) h else .bad .dangling

/-- A change of `next` through a box. -/
def assign (a : Addr) (f : Row → Row) : DMem Unit := fun h =>
  if a ∈ h.nodes then .ok () { h with cell := fun b => if b = a then f (h.cell a) else h.cell b } else .bad .dangling

/-- Boxes of nodes are dropped. -/
def dropNodes (l : List Addr) : DMem Unit := fun h => .ok () { h with nodes := h.nodes.filter fun a => !l.contains a }

/-- Other memory is given back. -/
def dropOther (l : List Addr) : DMem Unit := fun h => .ok () { h with other := h.other.filter fun a => !l.contains a }

/-- `v[i]` for a vector. -/
def nth {α : Type} (l : List α) (i : Nat) : DMem α :=
  match l[i]? with
  | some a => pure a
  | none => .bad .badIndex

/-- `m[&k]` for a map: the argument is the result of the look-up. -/
def key {α : Type} : Option α → DMem α
  | some a => pure a
  | none => .bad .badKey

/-- A `for` loop with a state. -/
def loopM {α β : Type} (f : β → α → DMem β) : β → List α → DMem β
  | b, [] => pure b
  | b, a :: l => do
    let b ← f b a
    loopM f b l

/-- A `map` that is executed for each element. -/
def mapD {α β : Type} (f : α → DMem β) : List α → DMem (List β)
  | [] => pure []
  | a :: l => do
    let b ← f a
    let bs ← mapD f l
    pure (b :: bs)

/-- `HashMap::insert`, the keys in order of first insertion. -/
def hinsert {β : Type} (k : Nat) (v : β) : List (Nat × β) → List (Nat × β)
  | [] => [(k, v)]
  | (j, x) :: t => if k = j then (k, v) :: t else (j, x) :: hinsert k v t

/-- `collect::<HashMap<_, _>>()`. -/
def hcollect {β : Type} (l : List (Nat × β)) : List (Nat × β) := l.foldl (fun m x => hinsert x.1 x.2 m) []

/-- Everything the hash seeds and the addresses decide: the orders in which `node_ref` (dfa.rs:119) and `end` (dfa.rs:178,
tokenizer.rs:58) are visited, and the orders and collisions of `minify`, now for sets of addresses.  A `HashSet` of
pointers is a list in the order of the node vector; the order in which it is visited is `min.visit`. -/
structure PSeeds where
  ord : List (List Nat × Nat) → List (List Nat × Nat)
  min : MinOracle
  endsMin : List (Addr × Nat) → List (Addr × Nat)
  endsNew : List (Addr × Nat) → List (Addr × Nat)

structure PSeeds.Fair (s : PSeeds) : Prop where
  ord : ∀ l, (s.ord l).Perm l
  min : s.min.Fair
  endsMin : ∀ l, (s.endsMin l).Perm l
  endsNew : ∀ l, (s.endsNew l).Perm l

/-! ## `From<TokenizerNFA>` -/

/-- State of the loop dfa.rs:91-118: the vector `node`, the map `node_ref`, `q` and `processed`. -/
structure PSub where
  node : List Addr
  refs : List (List Nat × Nat)
  queue : List (List Nat)
  processed : List Nat

/-- dfa.rs:105-117: one outgoing range of the set `cur`. -/
def subEdgeP (al : Alloc) (cur : List Nat) (st : PSub) (rn : (Nat × Nat) × List Nat) : DMem PSub := do
  let (st, next) ← (match st.refs.lookup rn.2 with
    | some i => do
      let a ← nth st.node i
      pure (st, a)
    | none => do
      let a ← newNode al
      pure ({ st with refs := st.refs ++ [(rn.2, st.node.length)], node := st.node ++ [a] }, a) : DMem (PSub × Addr))
  let i ← key (st.refs.lookup cur)
  let a ← nth st.node i
  assign a (insertRange rn.1 next)
  pure { st with queue := st.queue ++ [rn.2] }

/-- The loop dfa.rs:91-118. -/
def subLoopP (al : Alloc) (ns : List Node) : Nat → PSub → DMem PSub
  | 0, st => if st.queue.isEmpty then pure st else .noFuel
  | f + 1, st =>
    match st.queue with
    | [] => pure st
    | cur :: q => do
      let i ← key (st.refs.lookup cur)
      if i ∈ st.processed then subLoopP al ns f { st with queue := q }
      else do
        let st ← loopM (subEdgeP al cur) { st with queue := q, processed := i :: st.processed } (outRanges ns cur)
        subLoopP al ns f st

/-- `TokenizerDFA`, dfa.rs:61-65. -/
structure PDFA where
  node : List Addr
  b : Addr
  ends : List (Addr × Nat)

/-- dfa.rs:120-126: patterns in reverse order; `end` is keyed by the pointer to the node. -/
def markEndsP (ends : List Nat) (node : List Addr) (acc : List (Addr × Nat) × List (Nat × Nat)) (si : List Nat × Nat) :
    DMem (List (Addr × Nat) × List (Nat × Nat)) :=
  loopM (fun acc pi =>
    if pi.1 ∈ si.1 then do
      let a ← nth node si.2
      pure (hinsert a pi.2 acc.1, match acc.1.lookup a with
        | some old => acc.2 ++ [(old, pi.2)]
        | none => acc.2)
    else pure acc) acc ends.zipIdx.reverse

/-- `From<TokenizerNFA>`, dfa.rs:72-130; `nfa` is dropped at the end (in the caller, `tablesP`). -/
def fromNfaP (al : Alloc) (fuel : Nat) (s : PSeeds) (t : TNFA) : DMem (PDFA × List (Nat × Nat)) := do
  let b ← newNode al
  let s0 := closure t.node t.b
  let st ← subLoopP al t.node fuel { node := [b], refs := [(s0, 0)], queue := [s0], processed := [] }
  let (ends, ws) ← loopM (markEndsP t.ends st.node) ([], []) (s.ord st.refs)
  pure ({ node := st.node, b := b, ends := ends }, ws)

/-! ## `minify` -/

/-- `compress_next`, dfa.rs:193-214, where `group_map[next]` is a look-up by address. -/
def compressGoP (gm : List (Addr × Nat)) : Option ((Nat × Nat) × Nat) → Row → DMem Row
  | none, [] => pure []
  | some p, [] => pure [p]
  | none, (r, n) :: t => do
    let g ← key (gm.lookup n)
    compressGoP gm (some (r, g)) t
  | some ((b, e), g), ((s, e'), n) :: t => do
    let g' ← key (gm.lookup n)
    if g ≠ g' ∨ e ≠ s then do
      let l ← compressGoP gm (some ((s, e'), g')) t
      pure (((b, e), g) :: l)
    else compressGoP gm (some ((b, e'), g)) t

/-- `create_group_set`, dfa.rs:182-191. -/
def groupSetsP (gm : List (Addr × Nat)) : List (List Addr) :=
  (List.range (groupCount (gm.map Prod.snd))).map fun g => (gm.filter fun x => x.2 == g).map Prod.fst

/-- dfa.rs:149-154 -/
def splitSetP (col : Nat → Row → Row → Bool) (gm : List (Addr × Nat)) (nodes : List Addr) : DMem (List (Row × List Addr)) :=
  loopM (fun sg n => do
    let row ← deref n
    let c ← compressGoP gm none row
    pure (splitInsert col c n sg)) [] nodes

/-- State of one round: `new_group_map`, `max_index`, `updated`. -/
structure PRound where
  gm : List (Addr × Nat)
  maxIndex : Nat
  updated : Bool

/-- dfa.rs:156-161 -/
def numberClassP (st : PRound) (c : Row × List Addr) : PRound :=
  { st with gm := c.2.foldl (fun gm n => hinsert n st.maxIndex gm) st.gm, maxIndex := st.maxIndex + 1 }

/-- dfa.rs:148-162 for one set. -/
def roundSetP (o : MinOracle) (gm : List (Addr × Nat)) (round : Nat) (st : PRound) (sg : List Addr × Nat) : DMem PRound := do
  let classes ← splitSetP (o.collide round sg.2) gm (o.visit round sg.2 sg.1)
  pure ((o.order round sg.2 classes).foldl numberClassP { st with updated := st.updated || decide (classes.length > 1) })

/-- The loop dfa.rs:144-167. -/
def minLoopP (o : MinOracle) : Nat → Nat → List (Addr × Nat) → List (Addr × Nat) → DMem (List (Addr × Nat))
  | 0, _, _, _ => .noFuel
  | f + 1, round, gm, new => do
    let st ← loopM (roundSetP o gm round) { gm := new, maxIndex := 0, updated := false } (groupSetsP gm).zipIdx
    if st.updated then minLoopP o f (round + 1) st.gm gm else pure st.gm

/-- dfa.rs:170-172: `n` new nodes. -/
def newNodes (al : Alloc) : Nat → DMem (List Addr)
  | 0 => pure []
  | n + 1 => do
    let a ← newNode al
    let l ← newNodes al n
    pure (a :: l)

/-- dfa.rs:173-176 for one set: an element of the set is dereferenced, the numbers of the groups become pointers. -/
def fillNode (o : MinOracle) (gm : List (Addr × Nat)) (node : List Addr) (si : List Addr × Nat) : DMem Unit := do
  let r ← (if si.1 = [] then .bad .emptySet else deref (o.pick si.1) : DMem Row)
  let c ← compressGoP gm none r
  let c ← mapD (fun x => do
    let a ← nth node x.2
    pure (x.1, a)) c
  let a ← nth node si.2
  assign a fun _ => c

/-- dfa.rs:168-179 -/
def rebuildP (al : Alloc) (s : PSeeds) (d : PDFA) (gm : List (Addr × Nat)) : DMem PDFA := do
  let gs := groupSetsP gm
  let node ← newNodes al gs.length
  loopM (fun _ si => fillNode s.min gm node si) () gs.zipIdx
  let g ← key (gm.lookup d.b)
  let b ← nth node g
  let ends ← mapD (fun x => do
    let g ← key (gm.lookup x.1)
    let a ← nth node g
    pure (a, x.2)) (s.endsMin d.ends)
  pure { node := node, b := b, ends := hcollect ends }

/-- dfa.rs:134-142 -/
def initGroupsP (d : PDFA) : List (Addr × Nat) :=
  hcollect (d.node.map fun a => (a, match d.ends.lookup a with
    | some i => i + 1
    | none => 0))

/-- `minify`, dfa.rs:133-180.  `self` is dropped at the end. -/
def minifyP (al : Alloc) (s : PSeeds) (d : PDFA) : DMem PDFA := do
  let gm ← minLoopP s.min (d.node.length + 1) 0 (initGroupsP d) (initGroupsP d)
  let d' ← rebuildP al s d gm
  dropNodes d.node
  pure d'

/-! ## `DFATokenizer::new` -/

/-- `DFATokenizer::new`, tokenizer.rs:54-60.  `dfa` is dropped at the end.  (`ends[i]` of the result is the entry of the
hash map `end` for `i`.) -/
def newP (s : PSeeds) (d : PDFA) : DMem DFA := do
  let index := hcollect d.node.zipIdx
  let goto ← mapD (fun a => do
    let row ← deref a
    mapD (fun x => do
      let i ← key (index.lookup x.2)
      pure (x.1, i)) row) d.node
  let b ← key (index.lookup d.b)
  let ends ← mapD (fun x => do
    let i ← key (index.lookup x.1)
    pure (i, x.2)) (s.endsNew d.ends)
  dropNodes d.node
  pure { rows := goto, b := b, ends := (List.range d.node.length).map fun i => (hcollect ends).lookup i }

/-- `build` from the `TokenizerNFA` on, tokenizer.rs:109-111; its nodes are at the addresses `nfa`. -/
def tablesP (al : Alloc) (fuel : Nat) (s : PSeeds) (t : TNFA) (nfa : List Addr) : DMem (DFA × List (Nat × Nat)) := do
  let (d, ws) ← fromNfaP al fuel s t
  dropOther nfa
  let d ← minifyP al s d
  let r ← newP s d
  pure (r, ws)

/-- Misuse of memory in one of the two parts, or a panic. -/
inductive Misuse where
  | nfa (b : Bad)
  | dfa (b : DBad)
  deriving DecidableEq, Repr

/-- `TokenizerBuilder::build`, tokenizer.rs:106-112, all nodes at addresses. -/
def builderBuildP {π ρ α E : Type} (al : Alloc) (h0 : Heap) (view : Heap → List Addr → List Node) (fuel : Nat) (s : PSeeds)
    (parse : π → Except ρ Hir) (patterns : List (π × (List Nat → List α → E))) :
    Option (Except Misuse (Except (BuildError ρ) (Tokenizer α E × List (Nat × Nat)))) :=
  match parseAll parse (patterns.map Prod.fst) with
  | .error e => some (.ok (.error (.regex e)))
  | .ok hs =>
    match buildAllH al hs h0 with
    | .bad b => some (.error (.nfa b))
    | .err e => some (.ok (.error (.construct e)))
    | .ok T h =>
      match tablesP al fuel s ⟨view h T.node, T.b, T.ends⟩ T.node ⟨[], h.live, fun _ => [], h.clock⟩ with
      | .bad b => some (.error (.dfa b))
      | .fuel => none
      | .ok r _ => some (.ok (.ok ({ dfa := r.1, maker := patterns.map Prod.snd }, r.2)))

end Verif.Tok
