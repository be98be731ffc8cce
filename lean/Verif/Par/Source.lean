import Verif.Par.Parse

/-!
# Model of `parse` on an arbitrary iterator (parser/src/iter.rs:36-172)

`Parse` is implemented for every `IntoIterator` (iter.rs:40), so the source need not be a list: it has a state of its own, may never end,
may go on after `None`, and its calls are interleaved with the work of the parser.
-/

namespace Verif.Par

variable {N T E σ : Type}

/-- `Iterator::next` as a function of the state of the iterator. -/
abbrev Source (σ T : Type) := σ → Option T × σ

/-- iter.rs:52-59, with any source. -/
def pull (idx : T → Nat) (nxt : Source σ T) (c : Cfg N T) (s : σ) : Cfg N T × σ :=
  match c.buffer with
  | _ :: _ => (c, s)
  | [] =>
    match nxt s with
    | (some t, s) => ({ c with buffer := [(.sym (idx t), c.read.length)], read := c.read ++ [t], pulls := c.pulls + 1 }, s)
    | (none, s) => ({ c with buffer := [(.eoi, 0)], pulls := c.pulls + 1 }, s)

/-- `n` rounds of the loop iter.rs:51-170 with any source.  After `pull` the buffer has a front, so that `step` does not use its own
source, which stays empty. -/
def runFrom (idx : T → Nat) (nxt : Source σ T) (p : Parser N T E) : Nat → Cfg N T → σ → Step N T E × σ
  | 0, c, s => (.more c, s)
  | n + 1, c, s =>
    let (c, s) := pull idx nxt c s
    match step idx p c with
    | .more c => runFrom idx nxt p n c s
    | r => (r, s)

/-- `source.parse(&parser)` ends with the result `r`; `c` is the final configuration, `s'` the final state of the source. -/
def ParsesFrom (idx : T → Nat) (nxt : Source σ T) (p : Parser N T E) (s : σ) (r : Except (PErr E) N) (c : Cfg N T) (s' : σ) : Prop :=
  ∃ n, runFrom idx nxt p n (Cfg.init p []) s = (.done r c, s')

/-- `source.parse(&parser)` panics. -/
def PanicsFrom (idx : T → Nat) (nxt : Source σ T) (p : Parser N T E) (s : σ) : Prop :=
  ∃ n s', runFrom idx nxt p n (Cfg.init p []) s = (.panic, s')

/-- `source.parse(&parser)` never ends. -/
def DivergesFrom (idx : T → Nat) (nxt : Source σ T) (p : Parser N T E) (s : σ) : Prop :=
  ∀ n, ∃ c s', runFrom idx nxt p n (Cfg.init p []) s = (.more c, s')

/-! ## Specification -/

/-- The state after `k` calls. -/
def after (nxt : Source σ T) : Nat → σ → σ
  | 0, s => s
  | k + 1, s => after nxt k (nxt s).2

/-- The answer of call number `k`. -/
def answer (nxt : Source σ T) (k : Nat) (s : σ) : Option T := (nxt (after nxt k s)).1

/-- The source gives the items `l` and then `None` (what it would do later is left open). -/
def Gives (nxt : Source σ T) (s : σ) (l : List T) : Prop := ∀ k, k ≤ l.length → answer nxt k s = l[k]?

/-- The source never answers `None`. -/
def Endless (nxt : Source σ T) (s : σ) : Prop := ∀ k, answer nxt k s ≠ none

/-- The first items of the source are `l`. -/
def Begins (nxt : Source σ T) (s : σ) (l : List T) : Prop := ∀ k, k < l.length → answer nxt k s = l[k]?

end Verif.Par
