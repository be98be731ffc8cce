import Verif.Tok.Nfa

/-!
# Model of `tokenizer/src/dfa.rs` and of the table look-ups of `tokenizer/src/tokenizer.rs`

Sets of NFA nodes (`BTreeSet<TokenizerNFANodeRef>`, ordered by address in the code) are strictly sorted lists of
positions; only membership and equality of these sets is observed.  DFA nodes are addressed by position.
Iteration orders of hash maps that can influence the result are explicit parameters (oracles).
-/

namespace Verif.Tok

/-- One row of a transition table: `BTreeMap<CharRange, usize>` (tokenizer.rs:13; `TokenizerDFANode::next`, dfa.rs:43-45). -/
abbrev Row := List ((Nat × Nat) × Nat)

/-! ## Subset construction -/

/-- ε edges of a node. -/
def epsOf (ns : List Node) (p : Nat) : List Nat := (ns[p]?.map Node.eps).getD []

/-- Labelled edges of a node (`TokenizerNFANode::next`, nfa.rs:78-80). -/
def nextOf (ns : List Node) (p : Nat) : List ((Nat × Nat) × List Nat) := (ns[p]?.map Node.next).getD []

/-- The loop of `epsilon_recursive`, nfa.rs:86-94, with fuel; `none` only if the fuel runs out. -/
def closeLoop (ns : List Node) : Nat → List Nat → List Nat → Option (List Nat)
  | _, set, [] => some set
  | 0, _, _ :: _ => none
  | f + 1, set, p :: q => if p ∈ set then closeLoop ns f set q else closeLoop ns f (OSet.insert p set) (q ++ epsOf ns p)

/-- Enough fuel for `closeLoop` (`closeLoop_isSome`): every node is expanded at most once. -/
def closeFuel (ns : List Node) : Nat := 1 + (ns.map fun n => n.eps.length).sum

/-- `epsilon_recursive`, nfa.rs:82-96. -/
def closure (ns : List Node) (p : Nat) : List Nat := (closeLoop ns (closeFuel ns) [] [p]).getD []

/-- `map.entry(k).or_insert_with(dflt)` followed by an update, for a `BTreeMap<u32, _>`. -/
def entry {β : Type} (k : Nat) (dflt : β) (f : β → β) : List (Nat × β) → List (Nat × β)
  | [] => [(k, f dflt)]
  | (j, x) :: t => if k < j then (k, f dflt) :: (j, x) :: t else if j < k then (j, x) :: entry k dflt f t else (j, f x) :: t

/-- `BTreeMap<u32, BTreeSet<node>>`: range ends with target sets. -/
abbrev EndMap := List (Nat × List Nat)

/-- dfa.rs:95-100: all outgoing edges of a set of nodes, by begin and end of their ranges, ε-closed. -/
def collectNext (ns : List Node) (set : List Nat) : List (Nat × EndMap) :=
  set.foldl (fun m p => (nextOf ns p).foldl (fun m (r, t) =>
    entry r.1 [] (entry r.2 [] (fun s => OSet.union s (t.flatMap (closure ns)))) m) m) []

/-- `align_by_begin`, dfa.rs:218-239: edges that reach beyond the next begin are cut there. -/
def alignFrom (cur : Nat × EndMap) : List (Nat × EndMap) → List (Nat × EndMap)
  | [] => [cur]
  | (upper, m2) :: rest =>
    let greater := cur.2.filter fun kv => upper < kv.1
    if greater.isEmpty then cur :: alignFrom (upper, m2) rest
    else
      let limit := greater.foldl (fun s kv => OSet.union s kv.2) []
      let m1 := entry upper [] (fun s => OSet.union s limit) (cur.2.filter fun kv => !decide (upper < kv.1))
      let m2 := greater.foldl (fun m kv => entry kv.1 [] (fun s => OSet.union s kv.2) m) m2
      (cur.1, m1) :: alignFrom (upper, m2) rest

def align : List (Nat × EndMap) → List (Nat × EndMap)
  | [] => []
  | cur :: rest => alignFrom cur rest

/-- Inner part of `split_by_end`, dfa.rs:244-254: the ranges between successive ends; also returns `next_sum`. -/
def splitOne (begin : Nat) : EndMap → List ((Nat × Nat) × List Nat) × List Nat
  | [] => ([], [])
  | (e, t) :: m =>
    let (r, sum) := splitOne e m
    let sum := OSet.union sum t
    (((begin, e), OSet.union [] sum) :: r, sum)

/-- `split_by_end`, dfa.rs:241-258. -/
def split (l : List (Nat × EndMap)) : List ((Nat × Nat) × List Nat) := l.flatMap fun (b, m) => (splitOne b m).1

/-- The outgoing ranges of a set of nodes, dfa.rs:95-104. -/
def outRanges (ns : List Node) (set : List Nat) : List ((Nat × Nat) × List Nat) := split (align (collectNext ns set))

/-- State of the loop dfa.rs:91-118: `sets[i]` is the key of `node_ref` with value `i`. -/
structure Sub where
  rows : List Row
  sets : List (List Nat)
  queue : List (List Nat)
  processed : List Nat

/-- Position of a set in `node_ref`. -/
def Sub.find (st : Sub) (s : List Nat) : Nat := st.sets.idxOf s

/-- dfa.rs:105-117: one outgoing range of the node number `cur`. -/
def subEdge (cur : Nat) (st : Sub) (rn : (Nat × Nat) × List Nat) : Sub :=
  let (range, next) := rn
  let st := if next ∈ st.sets then st else { st with sets := st.sets ++ [next], rows := st.rows ++ [[]] }
  { st with queue := st.queue ++ [next], rows := st.rows.modify cur (insertRange range (st.find next)) }

/-- The loop dfa.rs:91-118; `none` only if the fuel runs out. -/
def subLoop (ns : List Node) : Nat → Sub → Option Sub
  | 0, st => if st.queue.isEmpty then some st else none
  | f + 1, st =>
    match st.queue with
    | [] => some st
    | cur :: q =>
      let i := st.find cur
      let st := { st with queue := q }
      if i ∈ st.processed then subLoop ns f st
      else subLoop ns f ((outRanges ns cur).foldl (subEdge i) { st with processed := i :: st.processed })

/-- `TokenizerDFA` (dfa.rs:61-65) and, after `DFATokenizer::new` (tokenizer.rs:54-60), the public tables
`goto`, `begin`, `end` of `DFATokenizer` (tokenizer.rs:12-17): nodes are already addressed by position.
`ends[i]` is the entry of the hash map `end` for node `i`. -/
structure DFA where
  rows : List Row
  b : Nat
  ends : List (Option Nat)
  deriving DecidableEq, Repr

/-- dfa.rs:120-126 for one set: patterns in reverse order; returns the last inserted index and the warnings
`EndConflict(old, new)`. -/
def markEnds (ends : List Nat) (set : List Nat) : Option Nat × List (Nat × Nat) :=
  ends.zipIdx.reverse.foldl (fun (acc : Option Nat × List (Nat × Nat)) (pi : Nat × Nat) =>
    if pi.1 ∈ set then
      (some pi.2, match acc.1 with
        | some old => acc.2 ++ [(old, pi.2)]
        | none => acc.2)
    else acc) (none, [])

/-- `From<TokenizerNFA>`, dfa.rs:72-130.  `ord` is the iteration order of the hash map `node_ref` (a permutation). -/
def fromNfa (fuel : Nat) (ord : List (List Nat) → List (List Nat)) (t : TNFA) : Option (DFA × List (Nat × Nat)) :=
  let s0 := closure t.node t.b
  match subLoop t.node fuel { rows := [[]], sets := [s0], queue := [s0], processed := [] } with
  | none => none
  | some st =>
    some ({ rows := st.rows, b := 0, ends := st.sets.map fun s => (markEnds t.ends s).1 },
      (ord st.sets).flatMap fun s => (markEnds t.ends s).2)

/-! ## Minimisation -/

/-- `compress_next`, dfa.rs:193-214: ranges with the same target group that touch are joined.  (The code inserts
the joined ranges into a `BTreeMap` in increasing order; here they are listed in that order.) -/
def compressGo (gm : List Nat) : Option ((Nat × Nat) × Nat) → Row → Row
  | none, [] => []
  | some p, [] => [p]
  | none, (r, n) :: t => compressGo gm (some (r, gm.getD n 0)) t
  | some ((b, e), g), ((s, e'), n) :: t =>
    if g ≠ gm.getD n 0 ∨ e ≠ s then ((b, e), g) :: compressGo gm (some ((s, e'), gm.getD n 0)) t
    else compressGo gm (some ((b, e'), g)) t

def compress (gm : List Nat) (r : Row) : Row := compressGo gm none r

/-- Iteration orders and hash collisions of the hash tables used by `minify`. -/
structure MinOracle where
  /-- order in which a `HashSet` of nodes is visited, by round and set number -/
  visit : Nat → Nat → List Nat → List Nat
  /-- order in which `split_group` is visited, by round and set number -/
  order : Nat → Nat → List (Row × List Nat) → List (Row × List Nat)
  /-- whether the table finds an entry for a key that is `Eq` but is not the same and so has another hash.  By round, set number
  and number of nodes entered so far: each table has its own random state, and what collides changes when a table grows. -/
  collide : Nat → Nat → Nat → Row → Row → Bool
  /-- the element `set.iter().next()` of a group -/
  pick : List Nat → Nat

/-- The oracle answers are possible ones: orders are permutations, a picked element is in the set. -/
structure MinOracle.Fair (o : MinOracle) : Prop where
  visit : ∀ r g l, (o.visit r g l).Perm l
  order : ∀ r g l, (o.order r g l).Perm l
  pick : ∀ l, l ≠ [] → o.pick l ∈ l

/-- `Eq` of `BTreeMap<CharRange, usize>`: `CharRange` compares its start only (lib.rs:40-44). -/
def rowEq : Row → Row → Bool
  | [], [] => true
  | ((s, _), g) :: t, ((s', _), g') :: t' => s == s' && g == g' && rowEq t t'
  | _, _ => false

/-- The node `n` is put into the entry of `split_group` that the table finds for `key`, or else into a new one. -/
def enter (hit : Row → Bool) (key : Row) (n : Nat) : List (Row × List Nat) → List (Row × List Nat)
  | [] => [(key, [n])]
  | (k, s) :: t => if hit k then (k, s ++ [n]) :: t else (k, s) :: enter hit key n t

/-- How many nodes have been entered. -/
def entered (sg : List (Row × List Nat)) : Nat := (sg.map fun c => c.2.length).sum

/-- `split_group.entry(key).or_insert_with(HashSet::new).insert(node)`, dfa.rs:153.  The table finds the same key, if it is there.
A key that is `Eq` but hashes differently is found only in the case of a collision (`Hash` of `CharRange` is derived and also
hashes the end, lib.rs:14), but then possibly before the same key. -/
def splitInsert (col : Nat → Row → Row → Bool) (key : Row) (n : Nat) (sg : List (Row × List Nat)) : List (Row × List Nat) :=
  if sg.any fun c => rowEq c.1 key && col (entered sg) c.1 key then
    enter (fun k => rowEq k key && col (entered sg) k key) key n sg
  else enter (fun k => k == key) key n sg

/-- dfa.rs:149-154 -/
def splitSet (col : Nat → Row → Row → Bool) (rows : List Row) (gm : List Nat) (nodes : List Nat) : List (Row × List Nat) :=
  nodes.foldl (fun sg n => splitInsert col (compress gm (rows.getD n [])) n sg) []

/-- `create_group_set`, dfa.rs:182-191. -/
def groupCount (gm : List Nat) : Nat := gm.foldl (fun m g => max m (g + 1)) 0
def groupSets (gm : List Nat) : List (List Nat) :=
  (List.range (groupCount gm)).map fun g => (List.range gm.length).filter fun n => gm.getD n 0 == g

/-- State of one round: `new_group_map`, `max_index`, `updated`. -/
structure Round where
  gm : List Nat
  maxIndex : Nat
  updated : Bool

/-- dfa.rs:156-161: one class gets the next number. -/
def numberClass (st : Round) (c : Row × List Nat) : Round :=
  { st with gm := c.2.foldl (fun gm n => gm.set n st.maxIndex) st.gm, maxIndex := st.maxIndex + 1 }

/-- dfa.rs:148-162 for one set. -/
def roundSet (o : MinOracle) (rows : List Row) (gm : List Nat) (round : Nat) (st : Round) (sg : List Nat × Nat) : Round :=
  let classes := splitSet (o.collide round sg.2) rows gm (o.visit round sg.2 sg.1)
  (o.order round sg.2 classes).foldl numberClass { st with updated := st.updated || decide (classes.length > 1) }

/-- dfa.rs:145-162 -/
def minRound (o : MinOracle) (rows : List Row) (gm new : List Nat) (round : Nat) : Round :=
  (groupSets gm).zipIdx.foldl (roundSet o rows gm round) { gm := new, maxIndex := 0, updated := false }

/-- The loop dfa.rs:144-167; `none` only if the fuel runs out. -/
def minLoop (o : MinOracle) (rows : List Row) : Nat → Nat → List Nat → List Nat → Option (List Nat)
  | 0, _, _, _ => none
  | f + 1, round, gm, new =>
    let st := minRound o rows gm new round
    if st.updated then minLoop o rows f (round + 1) st.gm gm else some st.gm

/-- dfa.rs:134-142: start from the accept index. -/
def initGroups (d : DFA) : List Nat :=
  (List.range d.rows.length).map fun i => match d.ends.getD i none with
    | some e => e + 1
    | none => 0

/-- dfa.rs:168-179.  Entries of `end` are transferred node by node; a later entry replaces an earlier one (the
code visits them in hash order; `minify_ends` shows the order does not matter). -/
def rebuild (o : MinOracle) (d : DFA) (gm : List Nat) : DFA :=
  let gs := groupSets gm
  { rows := gs.map fun s => compress gm (d.rows.getD (o.pick s) [])
    b := gm.getD d.b 0
    ends := (List.range d.rows.length).foldl (fun es i => match d.ends.getD i none with
      | some e => es.set (gm.getD i 0) (some e)
      | none => es) (List.replicate gs.length none) }

/-- `minify`, dfa.rs:133-180.  `rows.length + 1` rounds are enough (`minify_isSome`). -/
def minify (o : MinOracle) (d : DFA) : Option DFA :=
  let g := initGroups d
  (minLoop o d.rows (d.rows.length + 1) 0 g g).map (rebuild o d)

/-! ## Table look-ups -/

/-- `range(..=token).next_back()`, tokenizer.rs:68: the last entry that begins at or before `c`. -/
def lastLE (c : Nat) : Row → Option ((Nat × Nat) × Nat)
  | [] => none
  | x :: t => if x.1.1 ≤ c then (lastLE c t).or (some x) else none

/-- `get_next_node` for one row, tokenizer.rs:66-69. -/
def nextInRow (r : Row) (c : Nat) : Option Nat :=
  match lastLE c r with
  | some ((_, e), n) => if c < e then some n else none
  | none => none

/-- `get_next_node`, tokenizer.rs:66-69; a missing row is a panic in the code (excluded by the well-formedness
theorem), here it is `none`. -/
def DFA.next (d : DFA) (n c : Nat) : Option Nat := (d.rows[n]?).bind fun r => nextInRow r c

/-- `get_accept_index`, tokenizer.rs:62-64. -/
def DFA.accept (d : DFA) (n : Nat) : Option Nat := (d.ends[n]?).join

/-- Everything `TokenizerBuilder::build` does after parsing the regexes (tokenizer.rs:106-112): tables and warnings. -/
def buildTables (fuel : Nat) (ord : List (List Nat) → List (List Nat)) (o : MinOracle) (t : TNFA) :
    Option (DFA × List (Nat × Nat)) :=
  match fromNfa fuel ord t with
  | none => none
  | some (d, ws) => (minify o d).map fun d => (d, ws)

end Verif.Tok
