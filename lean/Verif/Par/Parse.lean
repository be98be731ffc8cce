import Verif.Par.Tables

/-!
# Model of `parser/src/iter.rs`: the parse loop

The token source is a list.  `idx` is `EnumIndex::enum_index` of the token type.  Callbacks are pure functions of the
symbols they get (in the code they get `&mut` references to values that are dropped afterwards).
-/

namespace Verif.Par

/-- `Symbol<&mut N, &T, &[T]>` as given to callbacks. -/
inductive Arg (N T : Type) where
  | nt (n : N)
  | tok (t : T)
  | err (l : List T)
  deriving DecidableEq, Repr

/-- `Rule`, syntax.rs:61-66. -/
structure Rule (N T E : Type) where
  lhs : Nat
  rhs : List Sym
  gen : List (Arg N T) → Except E N

/-- The part of a rule that the tables depend on. -/
def Rule.plain {N T E : Type} (r : Rule N T E) : PRule := ⟨r.lhs, r.rhs⟩

/-- `LR1Parser`, parser.rs:311-318. -/
structure Parser (N T E : Type) where
  rules : List (Rule N T E)
  tab : Tables

/-- Symbols on the stack, iter.rs:68, 107, 163: the number is the index of the first token (`symbol_index`,
`first_index`). -/
inductive SSym (N : Type) where
  | nt (n : N) (i : Nat)
  | tok (a : Nat) (i : Nat)
  | err (lo hi : Nat)
  | eoi (i : Nat)
  deriving DecidableEq, Repr

/-- The local variables of `parse`, iter.rs:45-50.  `stack` has its top first; `read` is `symbols`, `src` the rest of
the source.  `log` (calls of callbacks, latest first) and `pulls` (number of `iter.next()` calls) are not in the code,
they record what can be observed from outside. -/
structure Cfg (N T : Type) where
  state : Nat
  read : List T
  src : List T
  buffer : List (Term × Nat)
  stack : List (Nat × SSym N)
  recov : List Nat
  log : List (Nat × List (Arg N T))
  pulls : Nat

/-- `ParseError`, iter.rs:12-16. -/
inductive PErr (E : Type) where
  | noRecovery
  | reducer (e : E)
  deriving DecidableEq, Repr

/-- Result of one round of the loop iter.rs:51-170. -/
inductive Step (N T E : Type) where
  | more (c : Cfg N T)
  | done (r : Except (PErr E) N) (c : Cfg N T)
  | panic

variable {N T E : Type}

/-- iter.rs:52-59: make sure the buffer has a front. -/
def fill (idx : T → Nat) (c : Cfg N T) : Cfg N T :=
  match c.buffer with
  | _ :: _ => c
  | [] =>
    match c.src with
    | t :: src => { c with buffer := [(.sym (idx t), c.read.length)], read := c.read ++ [t], src := src, pulls := c.pulls + 1 }
    | [] => { c with buffer := [(.eoi, 0)], pulls := c.pulls + 1 }

/-- `first_index`, iter.rs:75-82 (symbols in stack order, bottom first). -/
def firstIndex (dflt : Nat) : List (SSym N) → Nat
  | [] => dflt
  | .nt _ i :: _ => i
  | .tok _ i :: _ => i
  | _ :: l => firstIndex dflt l

/-- iter.rs:83-105: the arguments of the callback; `none` is a panic.  `from` is `symbols_index`; `symbols` is
`all_symbols[from..]`. -/
def mkArgs (read : List T) : Nat → List (SSym N) → Option (List (Arg N T))
  | _, [] => some []
  | k, .nt n _ :: l => (mkArgs read k l).map (.nt n :: ·)
  | k, .tok _ i :: l =>
    if i < k then none
    else
      match read[i]? with
      | none => none
      | some t => (mkArgs read (i + 1) l).map (.tok t :: ·)
  | k, .err lo hi :: l =>
    if lo ≤ hi + 1 ∧ hi < read.length then (mkArgs read k l).map (.err ((read.drop lo).take (hi + 1 - lo)) :: ·) else none
  | _, .eoi _ :: _ => none

/-- The new `error_recovery_state` if state `state` ends the search, iter.rs:128-139. -/
def recovRules (errors : List (Nat × List Nat)) (isEoi : Bool) (recov : List Nat) (state : Nat) (back : Bool) : Option (List Nat) :=
  if isEoi && back then none else
    match get state errors with
    | none => none
    | some rs =>
      if recov.isEmpty then some rs
      else if recov.any fun r => rs.contains r then some (recov.filter fun r => rs.contains r) else none

/-- The search loop of error recovery, iter.rs:127-155.  The result is the new state, rest of the stack, new
`error_recovery_state`, `head`, `error_head` and `backtracked`; `none` if the stack is used up. -/
def recover (errors : List (Nat × List Nat)) (isEoi : Bool) (recov : List Nat) :
    List (Nat × SSym N) → Nat → Nat → Nat → Bool → Option (Nat × List (Nat × SSym N) × List Nat × Nat × Nat × Bool)
  | [], state, head, errHead, back => (recovRules errors isEoi recov state back).map fun rs => (state, [], rs, head, errHead, back)
  | (s, y) :: st, state, head, errHead, back =>
    match recovRules errors isEoi recov state back with
    | some rs => some (state, (s, y) :: st, rs, head, errHead, back)
    | none =>
      match y with
      | .nt _ i => recover errors isEoi recov st s i errHead true
      | .tok _ i => recover errors isEoi recov st s i errHead true
      | .err lo _ => recover errors isEoi recov st s head lo true
      | .eoi _ => recover errors isEoi recov st s head errHead true

/-- iter.rs:156-158: the tokens `head..tail` in front of the buffer. -/
def repush (idx : T → Nat) (read : List T) (head tail : Nat) (buffer : List (Term × Nat)) : Option (List (Term × Nat)) :=
  (allSome (fun i => (read[i]?).map fun t => (Term.sym (idx t), i)) ((List.range tail).drop head)).map (· ++ buffer)

/-- iter.rs:121-168: no action; `none` is a panic. -/
def onError (idx : T → Nat) (p : Parser N T E) (c : Cfg N T) (a : Term) (i : Nat) : Step N T E :=
  match recover p.tab.errors (a == .eoi) c.recov c.stack c.state i i false with
  | none => .done (.error .noRecovery) { c with stack := [] }
  | some (state, stack, recov, head, errHead, back) =>
    match repush idx c.read head i c.buffer with
    | none => .panic
    | some buffer =>
      match get state p.tab.action with
      | none => .panic
      | some acts =>
        match get .err acts with
        | some (.shift s) =>
          .more { c with
            state := s
            stack := (state, .err (min head errHead) i) :: stack
            buffer := if back then buffer.drop 1 else buffer
            recov := recov }
        | _ => .panic

/-- iter.rs:73-113: reduce by rule number `r`. -/
def onReduce (p : Parser N T E) (c : Cfg N T) (r : Nat) : Step N T E :=
  match p.rules[r]? with
  | none => .panic
  | some rule =>
    if c.stack.length < rule.rhs.length then .panic
    else
      let popped := (c.stack.take rule.rhs.length).reverse
      let stack := c.stack.drop rule.rhs.length
      let syms := popped.map Prod.snd
      match mkArgs c.read 0 syms with
      | none => .panic
      | some args =>
        let state := (popped.head?.map Prod.fst).getD c.state
        let c := { c with log := (r, args) :: c.log }
        match rule.gen args with
        | .error e => .done (.error (.reducer e)) c
        | .ok v =>
          match (get state p.tab.goto).bind (get rule.lhs) with
          | none => .panic
          | some s =>
            .more { c with
              state := s
              stack := (state, .nt v (firstIndex c.read.length syms)) :: stack
              recov := if c.recov.contains r then [] else c.recov }

/-- One round of the loop, iter.rs:51-170. -/
def step (idx : T → Nat) (p : Parser N T E) (c : Cfg N T) : Step N T E :=
  let c := fill idx c
  match c.buffer with
  | [] => .panic
  | (a, i) :: buffer =>
    match get c.state p.tab.action with
    | none => .panic
    | some acts =>
      match get a acts with
      | some (.shift s) =>
        match a with
        | .sym t => .more { c with state := s, stack := (c.state, .tok t i) :: c.stack, buffer := buffer }
        | .err => .panic
        | .eoi => .more { c with state := s, stack := (c.state, .eoi i) :: c.stack, buffer := buffer }
      | some (.reduce r) => onReduce p c r
      | some .accept =>
        match c.stack with
        | (_, .nt v _) :: _ => .done (.ok v) c
        | _ => .panic
      | none => onError idx p c a i

/-- iter.rs:45-50 -/
def Cfg.init (p : Parser N T E) (input : List T) : Cfg N T :=
  { state := p.tab.start, read := [], src := input, buffer := [], stack := [], recov := [], log := [], pulls := 0 }

/-- `n` rounds of the loop (fewer if it ends). -/
def run (idx : T → Nat) (p : Parser N T E) : Nat → Cfg N T → Step N T E
  | 0, c => .more c
  | n + 1, c =>
    match step idx p c with
    | .more c => run idx p n c
    | r => r

/-- `parse` ends with the result `r`; `c` is the final configuration. -/
def ParsesTo (idx : T → Nat) (p : Parser N T E) (input : List T) (r : Except (PErr E) N) (c : Cfg N T) : Prop :=
  ∃ n, run idx p n (Cfg.init p input) = .done r c

/-- `parse` panics. -/
def ParsePanics (idx : T → Nat) (p : Parser N T E) (input : List T) : Prop := ∃ n, run idx p n (Cfg.init p input) = .panic

/-- `parse` never ends. -/
def ParseDiverges (idx : T → Nat) (p : Parser N T E) (input : List T) : Prop :=
  ∀ n, ∃ c, run idx p n (Cfg.init p input) = .more c

/-- The plain grammar of rules and a start symbol. -/
def gram (rules : List (Rule N T E)) (start : Nat) : Gram := ⟨rules.map Rule.plain, start⟩

/-- `LR1Parser::new`, parser.rs:321-390, with the rules: the start rule (whose callback is `unimplemented!()`) is
appended; its callback is modelled by `dummy`, which is never called (`start_rule_not_reduced`). -/
def MakesParser (o : Seeds) (rules : List (Rule N T E)) (start : Nat) (p : Parser N T E) (ws : List Warning) : Prop :=
  NewGives o (gram rules start) (.ok (p.tab, ws)) ∧
  ∃ dummy, p.rules = rules ++ [⟨freshSym (rules.map Rule.plain), [.nt start], dummy⟩]

end Verif.Par
