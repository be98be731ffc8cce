import Verif.Common.OSet
import Verif.Tok.Hir

/-!
# Model of `tokenizer/src/nfa.rs`

Nodes are addressed by their position in the node vector instead of by pointer.  `Clone for NFA` (nfa.rs:211-225)
keeps positions, so a clone is the same value here; `node.append(&mut nfa.node)` shifts the positions of the
appended automaton by the current length.  `HashSet<Edge>` is an ordered set of positions (only membership is
ever observed).
-/

namespace Verif.Tok

/-- `NFANode` (nfa.rs:199-203): epsilon edges and edges labelled by half-open ranges `lo..hi`.
`next` models a `BTreeMap<CharRange, _>`; `CharRange` is ordered by `lo` only (lib.rs:40-56). -/
structure Node where
  eps : List Nat := []
  next : List ((Nat × Nat) × List Nat) := []
  deriving DecidableEq, Repr

/-- `NFA` (nfa.rs:205-209). -/
structure NFA where
  node : List Node
  b : Nat
  e : Nat
  deriving DecidableEq, Repr

/-- `NFAConstructError` (nfa.rs:235-241) plus the panics of `try_from` (`unwrap` on an empty concatenation,
nfa.rs:417, and `unreachable!` for `{n,m}` with `n > m`, nfa.rs:410). -/
inductive NfaError where
  | byteLiteral
  | bytesClass
  | anchor
  | wordBoundary
  | panic
  deriving DecidableEq, Repr

/-- `BTreeMap<CharRange, _>::insert`: keys are compared by their lower end; an equal key is kept and its value
replaced. -/
def insertRange {β : Type} (r : Nat × Nat) (v : β) : List ((Nat × Nat) × β) → List ((Nat × Nat) × β)
  | [] => [(r, v)]
  | (k, x) :: t =>
    if r.1 < k.1 then (r, v) :: (k, x) :: t
    else if k.1 < r.1 then (k, x) :: insertRange r v t
    else (k, v) :: t

/-- Positions of an appended automaton move by `k` (`Vec::append`, or `map` of nfa.rs:147-149). -/
def Node.shift (k : Nat) (n : Node) : Node :=
  { eps := n.eps.map (· + k), next := n.next.map fun (r, t) => (r, t.map (· + k)) }

/-- `nodes[p].epsilon.insert(q)`. -/
def addEps (ns : List Node) (p q : Nat) : List Node :=
  ns.modify p fun n => { n with eps := OSet.insert q n.eps }

/-- `node.append(&mut other.node)`. -/
def appendNodes (ns other : List Node) : List Node := ns ++ other.map (Node.shift ns.length)

/-- nfa.rs:248-256 -/
def nfaEmpty : NFA := { node := [{ eps := [0], next := [((0, 0x110000), [0])] }], b := 0, e := 0 }

/-- nfa.rs:259-262 -/
def nfaLiteral (c : Nat) : NFA := { node := [{ next := [((c, c + 1), [1])] }, {}], b := 0, e := 1 }

/-- nfa.rs:269-276 -/
def nfaClass (rs : List (Nat × Nat)) : NFA :=
  { node := [{ next := rs.foldl (fun m r => insertRange (r.1, r.2 + 1) [1] m) [] }, {}], b := 0, e := 1 }

/-- The bare node of `{0}` and `{0,0}` (nfa.rs:301-304, 343-346). -/
def nfaBare : NFA := { node := [{}], b := 0, e := 0 }

/-- nfa.rs:286-289, 347-350 -/
def nfaOpt (x : NFA) : NFA := { x with node := addEps x.node x.b x.e }

/-- nfa.rs:290-294, 321-325 -/
def nfaStar (x : NFA) : NFA := { node := addEps x.node x.e x.b, b := x.b, e := x.b }

/-- nfa.rs:295-298 -/
def nfaPlus (x : NFA) : NFA := { x with node := addEps x.node x.e x.b }

/-- One turn of the loops that append a further copy: nfa.rs:308-313 (also 314-316, 328-333, 374-379, 380-382,
387-392). -/
def linkCopy (x acc : NFA) : NFA :=
  let off := acc.node.length
  { node := addEps (appendNodes acc.node x.node) acc.e (off + x.b), b := acc.b, e := off + x.e }

/-- The same with an additional edge from the old end to the end of the last copy `fin`: nfa.rs:353-361
(also 362-367, 393-401, 402-407). -/
def linkCopyExit (x : NFA) (fin : Nat) (acc : NFA) : NFA :=
  let off := acc.node.length
  { node := addEps (addEps (appendNodes acc.node x.node) acc.e (off + x.b)) acc.e fin, b := acc.b, e := off + x.e }

/-- `for _ in 0..n { .. }`. -/
def iter {α : Type} (f : α → α) : Nat → α → α
  | 0, a => a
  | n + 1, a => iter f n (f a)

/-- `n ≥ 1` plain copies in a row, nfa.rs:306-318 and 372-384. -/
def nfaChain (x : NFA) (n : Nat) : NFA := iter (linkCopy x) (n - 1) x

/-- nfa.rs:326-340: `n ≥ 1` plain copies, then a starred one. -/
def nfaAtLeast (x : NFA) (n : Nat) : NFA :=
  let acc := iter (linkCopy x) (n - 1) x
  let off := acc.node.length
  let ns := appendNodes acc.node x.node
  { node := addEps (addEps ns acc.e (off + x.b)) (off + x.e) (off + x.b), b := acc.b, e := off + x.b }

/-- nfa.rs:385-409: `1 ≤ n < m`.  The end of the last copy (`inner.end`, known before that copy is appended) is at
position `(m - 1) * len + e`. -/
def nfaBounded (x : NFA) (n m : Nat) : NFA :=
  let fin := (m - 1) * x.node.length + x.e
  iter (linkCopyExit x fin) (m - n) (iter (linkCopy x) (n - 1) x)

/-- nfa.rs:351-370: `{0,m}` with `m ≥ 2`. -/
def nfaUpTo (x : NFA) (m : Nat) : NFA :=
  let fin := (m - 1) * x.node.length + x.e
  let acc := iter (linkCopyExit x fin) (m - 1) x
  { acc with node := addEps acc.node acc.b acc.e }

/-- The repetition part of `try_from`, nfa.rs:285-413. -/
def nfaRep (x : NFA) : RepKind → Except NfaError NFA
  | .zeroOrOne => .ok (nfaOpt x)
  | .zeroOrMore => .ok (nfaStar x)
  | .oneOrMore => .ok (nfaPlus x)
  | .exactly 0 => .ok nfaBare
  | .exactly 1 => .ok x
  | .exactly n => .ok (nfaChain x n)
  | .atLeast 0 => .ok (nfaStar x)
  | .atLeast n => .ok (nfaAtLeast x n)
  | .bounded 0 0 => .ok nfaBare
  | .bounded 0 1 => .ok (nfaOpt x)
  | .bounded 0 m => .ok (nfaUpTo x m)
  | .bounded 1 1 => .ok x
  | .bounded n m =>
    if n = m then .ok (nfaChain x n) else if n < m then .ok (nfaBounded x n m) else .error .panic

/-- One turn of the concatenation loop, nfa.rs:418-423: `acc` is the automaton of the elements to the right. -/
def nfaCat (x acc : NFA) : NFA :=
  let off := acc.node.length
  { node := addEps (appendNodes acc.node x.node) (off + x.e) acc.b, b := off + x.b, e := acc.e }

/-- One turn of the alternation loop, nfa.rs:433-438. -/
def nfaAltStep (x : NFA) (ns : List Node) : List Node :=
  let off := ns.length
  addEps (addEps (appendNodes ns x.node) 0 (off + x.b)) (off + x.e) 1

mutual
/-- `NFA::try_from(HirKind)`, nfa.rs:243-444. -/
def build : Hir → Except NfaError NFA
  | .empty => .ok nfaEmpty
  | .literalU c => .ok (nfaLiteral c)
  | .literalB _ => .error .byteLiteral
  | .classU rs => .ok (nfaClass rs)
  | .classB => .error .bytesClass
  | .anchor => .error .anchor
  | .wordBoundary => .error .wordBoundary
  | .rep k h => do nfaRep (← build h) k
  | .group h => build h
  | .concat hs => buildConcat hs
  | .alt hs => do
    let ns ← buildAlt [{}, {}] hs
    .ok { node := ns, b := 0, e := 1 }
/-- nfa.rs:416-425.  The vector is consumed from the back, so the right neighbours are built first. -/
def buildConcat : List Hir → Except NfaError NFA
  | [] => .error .panic
  | [h] => build h
  | h :: t => do
    let acc ← buildConcat t
    .ok (nfaCat (← build h) acc)
/-- nfa.rs:426-441. -/
def buildAlt (ns : List Node) : List Hir → Except NfaError (List Node)
  | [] => .ok ns
  | h :: t => do buildAlt (nfaAltStep (← build h) ns) t
end

/-- `TokenizerNFA` (nfa.rs:99-104). -/
structure TNFA where
  node : List Node
  b : Nat
  ends : List Nat
  deriving DecidableEq, Repr

/-- Loop of `TokenizerNFA::try_from(Vec<Hir>)`, nfa.rs:143-169: state is (nodes, epsilon edges of the new begin
node, ends).  The indexing `map[&edge.0.as_ptr()]` finds every target because built automata are closed
(`build_wf`). -/
def buildAllLoop : List Hir → List Node × List Nat × List Nat → Except NfaError (List Node × List Nat × List Nat)
  | [], st => .ok st
  | h :: t, (ns, bs, es) => do
    let x ← build h
    let base := ns.length
    buildAllLoop t (appendNodes ns x.node, OSet.insert (base + x.b) bs, es ++ [base + x.e])

/-- `TokenizerNFA::try_from(Vec<Hir>)`, nfa.rs:135-174. -/
def buildAll (hs : List Hir) : Except NfaError TNFA := do
  let (ns, bs, es) ← buildAllLoop hs ([], [], [])
  .ok { node := ns ++ [{ eps := bs }], b := ns.length, ends := es }

/-! ## Replay of the unit tests of the crate (nfa.rs:474-726), as a check of the model against the code -/

instance : DecidableEq (Except NfaError NFA) := fun a b =>
  match a, b with
  | .ok a, .ok b => if h : a = b then isTrue (h ▸ rfl) else isFalse (fun e => h (by injection e))
  | .error a, .error b => if h : a = b then isTrue (h ▸ rfl) else isFalse (fun e => h (by injection e))
  | .ok _, .error _ => isFalse (fun e => by cases e)
  | .error _, .ok _ => isFalse (fun e => by cases e)

instance : DecidableEq (Except NfaError TNFA) := fun a b =>
  match a, b with
  | .ok a, .ok b => if h : a = b then isTrue (h ▸ rfl) else isFalse (fun e => h (by injection e))
  | .error a, .error b => if h : a = b then isTrue (h ▸ rfl) else isFalse (fun e => h (by injection e))
  | .ok _, .error _ => isFalse (fun e => by cases e)
  | .error _, .ok _ => isFalse (fun e => by cases e)

section tests
private abbrev a : Hir := .literalU 97
private abbrev bb : Hir := .literalU 98
private abbrev c : Hir := .literalU 99
example : buildAll [a, c, .literalU 101] = .ok ⟨[⟨[], [((97, 98), [1])]⟩, ⟨[], []⟩, ⟨[], [((99, 100), [3])]⟩, ⟨[], []⟩,
    ⟨[], [((101, 102), [5])]⟩, ⟨[], []⟩, ⟨[0, 2, 4], []⟩], 6, [1, 3, 5]⟩ := by decide
example : build .empty = .ok ⟨[⟨[0], [((0, 0x110000), [0])]⟩], 0, 0⟩ := by decide
example : build a = .ok ⟨[⟨[], [((97, 98), [1])]⟩, ⟨[], []⟩], 0, 1⟩ := by decide
example : build (.classU [(48, 51), (97, 99)]) =
    .ok ⟨[⟨[], [((48, 52), [1]), ((97, 100), [1])]⟩, ⟨[], []⟩], 0, 1⟩ := by decide
example : build (.concat [a, bb]) = .ok ⟨[⟨[], [((98, 99), [1])]⟩, ⟨[], []⟩, ⟨[], [((97, 98), [3])]⟩, ⟨[0], []⟩], 2, 1⟩ := by
  decide
example : build (.concat [a, bb, c]) = .ok ⟨[⟨[], [((99, 100), [1])]⟩, ⟨[], []⟩, ⟨[], [((98, 99), [3])]⟩, ⟨[0], []⟩,
    ⟨[], [((97, 98), [5])]⟩, ⟨[2], []⟩], 4, 1⟩ := by decide
example : build (.alt [a, bb]) = .ok ⟨[⟨[2, 4], []⟩, ⟨[], []⟩, ⟨[], [((97, 98), [3])]⟩, ⟨[1], []⟩,
    ⟨[], [((98, 99), [5])]⟩, ⟨[1], []⟩], 0, 1⟩ := by decide
example : build (.alt [a, bb, c]) = .ok ⟨[⟨[2, 4, 6], []⟩, ⟨[], []⟩, ⟨[], [((97, 98), [3])]⟩, ⟨[1], []⟩,
    ⟨[], [((98, 99), [5])]⟩, ⟨[1], []⟩, ⟨[], [((99, 100), [7])]⟩, ⟨[1], []⟩], 0, 1⟩ := by decide
example : build (.rep .zeroOrOne a) = .ok ⟨[⟨[1], [((97, 98), [1])]⟩, ⟨[], []⟩], 0, 1⟩ := by decide
example : build (.rep .zeroOrMore a) = .ok ⟨[⟨[], [((97, 98), [1])]⟩, ⟨[0], []⟩], 0, 0⟩ := by decide
example : build (.rep .oneOrMore a) = .ok ⟨[⟨[], [((97, 98), [1])]⟩, ⟨[0], []⟩], 0, 1⟩ := by decide
example : build (.rep (.exactly 0) a) = .ok ⟨[⟨[], []⟩], 0, 0⟩ := by decide
example : build (.rep (.exactly 1) a) = .ok ⟨[⟨[], [((97, 98), [1])]⟩, ⟨[], []⟩], 0, 1⟩ := by decide
example : build (.rep (.exactly 3) a) = .ok ⟨[⟨[], [((97, 98), [1])]⟩, ⟨[2], []⟩, ⟨[], [((97, 98), [3])]⟩, ⟨[4], []⟩,
    ⟨[], [((97, 98), [5])]⟩, ⟨[], []⟩], 0, 5⟩ := by decide
example : build (.rep (.atLeast 0) a) = .ok ⟨[⟨[], [((97, 98), [1])]⟩, ⟨[0], []⟩], 0, 0⟩ := by decide
example : build (.rep (.atLeast 1) a) = .ok ⟨[⟨[], [((97, 98), [1])]⟩, ⟨[2], []⟩, ⟨[], [((97, 98), [3])]⟩, ⟨[2], []⟩], 0, 2⟩ := by
  decide
example : build (.rep (.bounded 0 0) a) = .ok ⟨[⟨[], []⟩], 0, 0⟩ := by decide
example : build (.rep (.bounded 0 1) a) = .ok ⟨[⟨[1], [((97, 98), [1])]⟩, ⟨[], []⟩], 0, 1⟩ := by decide
example : build (.rep (.bounded 0 2) a) = .ok ⟨[⟨[3], [((97, 98), [1])]⟩, ⟨[2, 3], []⟩, ⟨[], [((97, 98), [3])]⟩, ⟨[], []⟩], 0, 3⟩ := by
  decide
example : build (.rep (.bounded 1 1) a) = .ok ⟨[⟨[], [((97, 98), [1])]⟩, ⟨[], []⟩], 0, 1⟩ := by decide
example : build (.rep (.bounded 2 2) a) = .ok ⟨[⟨[], [((97, 98), [1])]⟩, ⟨[2], []⟩, ⟨[], [((97, 98), [3])]⟩, ⟨[], []⟩], 0, 3⟩ := by
  decide
example : build (.rep (.bounded 1 2) a) = .ok ⟨[⟨[], [((97, 98), [1])]⟩, ⟨[2, 3], []⟩, ⟨[], [((97, 98), [3])]⟩, ⟨[], []⟩], 0, 3⟩ := by
  decide
end tests

end Verif.Tok
