import Verif.Common.Ord
import Verif.Par.Grammar

/-!
# Model of `parser/src/parser.rs`

`BTreeSet`s are strictly sorted lists, `HashMap`s association lists with distinct keys.  Where the code iterates over a
`HashMap` and the order can matter, the order is an explicit parameter (`Seeds`).  Loops have fuel.
-/

namespace Verif.Par

/-- Outcome of code with loops: `fuel` means that the fuel ran out. -/
inductive Res (α : Type) where
  | ok (a : α)
  | panic
  | fuel
  deriving DecidableEq, Repr

/-- Derived order of `TerminalSymbol`, syntax.rs:116-121: `Symbol(_) < Error(_) < EOI`. -/
def Term.key : Term → Nat × Nat
  | .sym t => (0, t)
  | .err => (1, 0)
  | .eoi => (2, 0)

/-- Derived order of `SymbolInternal`, parser.rs:11. -/
def Sym.key : Sym → Nat × (Nat × Nat)
  | .nt n => (0, (n, 0))
  | .tm t => (1, t.key)

/-- Order of items, parser.rs:42-68: rule, position, look-ahead. -/
def Item.key (i : Item) : Nat × (Nat × (Nat × Nat)) := (i.rule, (i.pos, i.la.key))

theorem Term.key_inj (a b : Term) (h : a.key = b.key) : a = b := by
  cases a <;> cases b <;> simp_all [Term.key]

theorem Sym.key_inj (a b : Sym) (h : a.key = b.key) : a = b := by
  cases a <;> cases b <;> simp_all [Sym.key]
  exact Term.key_inj _ _ h

theorem Item.key_inj (a b : Item) (h : a.key = b.key) : a = b := by
  obtain ⟨a1, a2, a3⟩ := a
  obtain ⟨b1, b2, b3⟩ := b
  simp only [Item.key, Prod.mk.injEq] at h
  obtain ⟨rfl, rfl, h⟩ := h
  rw [Term.key_inj _ _ h]

instance : SLT Term := SLT.comap Term.key Term.key_inj
instance : SLT Sym := SLT.comap Sym.key Sym.key_inj
instance : SLT Item := SLT.comap Item.key Item.key_inj

/-- `StateInterop`, parser.rs:94. -/
abbrev State := List Item

/-- Look-up in a hash map. -/
def get {κ β : Type} [DecidableEq κ] (k : κ) : List (κ × β) → Option β
  | [] => none
  | (k', v) :: t => if k' = k then some v else get k t

/-- `entry(k).or_insert_with(dflt)` followed by an update, for a hash map. -/
def entry {κ β : Type} [DecidableEq κ] (k : κ) (dflt : β) (f : β → β) : List (κ × β) → List (κ × β)
  | [] => [(k, f dflt)]
  | (k', v) :: t => if k' = k then (k', f v) :: t else (k', v) :: entry k dflt f t

/-- `HashMap::insert`. -/
def put {κ β : Type} [DecidableEq κ] (k : κ) (v : β) (m : List (κ × β)) : List (κ × β) := entry k v (fun _ => v) m

/-! ## Nullable symbols and FIRST sets -/

/-- One pass of `calc_null` over the rules, parser.rs:171-180. -/
def nullPass (R : List PRule) (st : List Sym × Bool) : List Sym × Bool :=
  R.foldl (fun st r =>
    if Sym.nt r.lhs ∈ st.1 then st
    else if r.rhs.all fun X => decide (X ∈ st.1) then (OSet.insert (.nt r.lhs) st.1, true) else st) st

/-- The loop of `calc_null`, parser.rs:170-184. -/
def nullLoop (R : List PRule) : Nat → List Sym → Res (List Sym)
  | 0, _ => .fuel
  | f + 1, null =>
    let st := nullPass R (null, false)
    if st.2 then nullLoop R f st.1 else .ok st.1

/-- `calc_null`, parser.rs:168-186. -/
def calcNull (fuel : Nat) (R : List PRule) : Res (List Sym) := nullLoop R fuel []

/-- `FirstSetInterop`, parser.rs:99. -/
abbrev First := List (Sym × List Term)

/-- parser.rs:190-196 -/
def firstInit (R : List PRule) : First :=
  R.foldl (fun m r => r.rhs.foldl (fun m X => match X with
    | .tm t => entry X [] (OSet.insert t) m
    | .nt _ => m) m) []

/-- parser.rs:201-211: the terminals found from a right-hand side. -/
def firstOfRhs (null : List Sym) (first : First) : List Sym → List Term → List Term
  | [], upd => upd
  | X :: l, upd =>
    let upd := OSet.union upd ((get X first).getD [])
    if X ∈ null then firstOfRhs null first l upd else upd

/-- `updated |= set.insert(item)` for all items, parser.rs:213-215, 141-144. -/
def insertAll {α : Type} [SLT α] [DecidableEq α] (set upd : List α) : List α × Bool :=
  upd.foldl (fun st x => (OSet.insert x st.1, st.2 || decide (x ∉ st.1))) (set, false)

/-- One pass of `calc_first`, parser.rs:200-216. -/
def firstPass (null : List Sym) (R : List PRule) (st : First × Bool) : First × Bool :=
  R.foldl (fun st r =>
    let upd := firstOfRhs null st.1 r.rhs []
    let old := (get (.nt r.lhs) st.1).getD []
    (entry (.nt r.lhs) [] (fun s => (insertAll s upd).1) st.1, st.2 || (insertAll old upd).2)) st

/-- The loop of `calc_first`, parser.rs:198-220. -/
def firstLoop (null : List Sym) (R : List PRule) : Nat → First → Res First
  | 0, _ => .fuel
  | f + 1, m =>
    let st := firstPass null R (m, false)
    if st.2 then firstLoop null R f st.1 else .ok st.1

/-- `calc_first`, parser.rs:188-223. -/
def calcFirst (fuel : Nat) (null : List Sym) (R : List PRule) : Res First := firstLoop null R fuel (firstInit R)

/-- `get_first`, parser.rs:151-166. -/
def getFirst (null : List Sym) (first : First) : List Sym → List Term → List Term
  | [], res => res
  | X :: l, res =>
    let res := match X with
      | .tm t => OSet.insert t res
      | .nt _ => OSet.union res ((get X first).getD [])
    if X ∈ null then getFirst null first l res else res

/-! ## Closure and goto -/

/-- The index `rules`, parser.rs:121-124: numbers of the rules of a non-terminal. -/
def rulesOf (R : List PRule) (n : Nat) : List Nat :=
  (List.range R.length).filter fun j => (R[j]?.map PRule.lhs) == some n

/-- parser.rs:128-139 for one item; `none` is the panic of `rules[&non_terminal]` when there is no rule. -/
def closeItem (R : List PRule) (null : List Sym) (first : First) (i : Item) : Option (List Item) :=
  match R[i.rule]? with
  | none => none
  | some r =>
    match r.rhs[i.pos]? with
    | some (.nt n) =>
      let la := getFirst null first (r.rhs.drop (i.pos + 1) ++ [.tm i.la]) []
      match rulesOf R n with
      | [] => if la.isEmpty then some [] else none
      | js => some (la.flatMap fun a => js.map fun j => ⟨j, 0, a⟩)
    | _ => some []

/-- parser.rs:126-140 -/
def closeUpdate (R : List PRule) (null : List Sym) (first : First) : List Item → Option (List Item)
  | [] => some []
  | i :: s =>
    match closeItem R null first i with
    | none => none
    | some u =>
      match closeUpdate R null first s with
      | none => none
      | some v => some (u ++ v)

/-- `calc_closure`, parser.rs:120-149. -/
def closure (R : List PRule) (null : List Sym) (first : First) : Nat → State → Res State
  | 0, _ => .fuel
  | f + 1, set =>
    match closeUpdate R null first set with
    | none => .panic
    | some u =>
      let st := insertAll set (OSet.ofList u)
      if st.2 then closure R null first f st.1 else .ok st.1

/-- `GotoListInterop`, parser.rs:97. -/
abbrev Goto := List (Sym × State)

/-- parser.rs:104-113: the kernels; `none` is the index panic of `syntax.rules[item.rule]`. -/
def gotoKernels (R : List PRule) : List Item → Goto → Option Goto
  | [], m => some m
  | i :: s, m =>
    match R[i.rule]? with
    | none => none
    | some r =>
      match r.rhs[i.pos]? with
      | some X => gotoKernels R s (entry X [] (OSet.insert ⟨i.rule, i.pos + 1, i.la⟩) m)
      | none => gotoKernels R s m

/-- parser.rs:114-116 -/
def closeAll (R : List PRule) (null : List Sym) (first : First) (fuel : Nat) : Goto → Res Goto
  | [] => .ok []
  | (X, s) :: m =>
    match closure R null first fuel s with
    | .panic => .panic
    | .fuel => .fuel
    | .ok s =>
      match closeAll R null first fuel m with
      | .panic => .panic
      | .fuel => .fuel
      | .ok m => .ok ((X, s) :: m)

/-- `calc_goto`, parser.rs:103-118. -/
def calcGoto (R : List PRule) (null : List Sym) (first : First) (fuel : Nat) (s : State) : Res Goto :=
  match gotoKernels R s [] with
  | none => .panic
  | some m => closeAll R null first fuel m

/-- Iteration orders of the hash maps: of a goto list (parser.rs:286), of `state_list` when states are numbered
(parser.rs:343) and when the tables are made (parser.rs:235). -/
structure Seeds where
  gotoOrd : State → Goto → Goto
  keyOrd : List State → List State
  tableOrd : List (State × Goto) → List (State × Goto)

structure Seeds.Fair (o : Seeds) : Prop where
  gotoOrd : ∀ s l, (o.gotoOrd s l).Perm l
  keyOrd : ∀ l, (o.keyOrd l).Perm l
  tableOrd : ∀ l, (o.tableOrd l).Perm l

/-- The loop of `calc_all_goto`, parser.rs:280-291. -/
def allLoop (o : Seeds) (R : List PRule) (null : List Sym) (first : First) (fuel : Nat) :
    Nat → List State → List (State × Goto) → Res (List (State × Goto))
  | _, [], sl => .ok sl
  | 0, _ :: _, _ => .fuel
  | f + 1, s :: q, sl =>
    if (sl.map Prod.fst).contains s then allLoop o R null first fuel f q sl
    else
      match calcGoto R null first fuel s with
      | .panic => .panic
      | .fuel => .fuel
      | .ok g => allLoop o R null first fuel f (q ++ (o.gotoOrd s g).map Prod.snd) (sl ++ [(s, g)])

/-- `calc_all_goto`, parser.rs:277-292. -/
def allGoto (o : Seeds) (R : List PRule) (null : List Sym) (first : First) (fuel : Nat) (s : State) : Res (List (State × Goto)) :=
  allLoop o R null first fuel fuel [s] []

/-! ## Tables -/

/-- `Action`, parser.rs:85-90. -/
inductive Action (σ : Type) where
  | shift (s : σ)
  | reduce (r : Nat)
  | accept
  deriving DecidableEq, Repr

/-- `CalcTableWarning`, parser.rs:225-229. -/
inductive Warning where
  | shiftReduce (state shift : State) (reduce : Nat)
  | reduceReduce (state : State) (first second : Nat)
  deriving DecidableEq, Repr

/-- Actions of one state with the warnings so far. -/
abbrev Acts := List (Term × Action State) × List Warning

/-- parser.rs:238-247: the shifts (and gotos) of a state. -/
def shiftActs (g : Goto) : List (Term × Action State) :=
  g.foldl (fun m (X, s) => match X with
    | .tm t => put t (.shift s) m
    | .nt _ => m) []

/-- parser.rs:241-243 -/
def gotoActs (g : Goto) : List (Nat × State) :=
  g.foldl (fun m (X, s) => match X with
    | .nt n => put n s m
    | .tm _ => m) []

/-- parser.rs:249-268: the complete items in order; `none` is a panic (missing rule, or `unreachable!`). -/
def reduceActs (R : List PRule) (startRule : Nat) (state : State) : List Item → Acts → Option Acts
  | [], a => some a
  | i :: l, a =>
    match R[i.rule]? with
    | none => none
    | some r =>
      if i.pos = r.rhs.length then
        if i.rule = startRule then reduceActs R startRule state l (put .eoi .accept a.1, a.2)
        else
          match get i.la a.1 with
          | none => reduceActs R startRule state l (put i.la (.reduce i.rule) a.1, a.2)
          | some (.shift s) => reduceActs R startRule state l (a.1, a.2 ++ [.shiftReduce state s i.rule])
          | some (.reduce r') => reduceActs R startRule state l (a.1, a.2 ++ [.reduceReduce state r' i.rule])
          | some .accept => none
      else reduceActs R startRule state l a

/-- `calc_table`, parser.rs:231-275: actions, gotos (only non-empty ones) and warnings. -/
def calcTable (R : List PRule) (startRule : Nat) : List (State × Goto) →
    Option (List (State × List (Term × Action State)) × List (State × List (Nat × State)) × List Warning)
  | [] => some ([], [], [])
  | (s, g) :: l =>
    match reduceActs R startRule s s (shiftActs g, []) with
    | none => none
    | some (a, ws) =>
      match calcTable R startRule l with
      | none => none
      | some (at', gt, ws') =>
        some ((s, a) :: at', (if (gotoActs g).isEmpty then gt else (s, gotoActs g) :: gt), ws ++ ws')

/-- The tables of `LR1Parser`, parser.rs:311-318. -/
structure Tables where
  action : List (Nat × List (Term × Action Nat))
  goto : List (Nat × List (Nat × Nat))
  errors : List (Nat × List Nat)
  start : Nat
  deriving DecidableEq, Repr

/-- `state_index.get(&state).unwrap()`, parser.rs:342-345, 351, 358, 368, 386: `none` is the panic. -/
def indexOf (keys : List State) (s : State) : Option Nat := if s ∈ keys then some (keys.idxOf s) else none

/-- All of a list, or nothing. -/
def allSome {α β : Type} (f : α → Option β) : List α → Option (List β)
  | [] => some []
  | x :: l =>
    match f x with
    | none => none
    | some y =>
      match allSome f l with
      | none => none
      | some r => some (y :: r)

/-- parser.rs:357-361 -/
def numberAction (keys : List State) : Action State → Option (Action Nat)
  | .shift s => (indexOf keys s).map .shift
  | .reduce r => some (.reduce r)
  | .accept => some .accept

/-- parser.rs:347-367 -/
def numberActions (keys : List State) (x : State × List (Term × Action State)) : Option (Nat × List (Term × Action Nat)) :=
  (indexOf keys x.1).bind fun i => (allSome (fun ta => (numberAction keys ta.2).map fun a => (ta.1, a)) x.2).map fun l => (i, l)

/-- parser.rs:368 -/
def numberGotos (keys : List State) (x : State × List (Nat × State)) : Option (Nat × List (Nat × Nat)) :=
  (indexOf keys x.1).bind fun i => (allSome (fun ns => (indexOf keys ns.2).map fun j => (ns.1, j)) x.2).map fun l => (i, l)

/-- parser.rs:297-302: rules with `error` behind the dot; `none` is the index panic. -/
def errorRulesOf (R : List PRule) : List Item → Option (List Nat)
  | [] => some []
  | i :: s =>
    match R[i.rule]?, errorRulesOf R s with
    | some r, some l => some (if r.rhs[i.pos]? = some (.tm .err) then i.rule :: l else l)
    | _, _ => none

/-- `calc_error_rules`, parser.rs:294-309, for the states from number `n` on. -/
def errorRules (R : List PRule) : Nat → List State → Option (List (Nat × List Nat))
  | _, [] => some []
  | n, s :: l =>
    match errorRulesOf R s, errorRules R (n + 1) l with
    | some es, some r => some (if es.isEmpty then r else (n, es) :: r)
    | _, _ => none

/-- Largest symbol number in use, to bound the search of parser.rs:332. -/
def symBound (R : List PRule) : Nat :=
  R.foldl (fun m r => r.rhs.foldl (fun m X => match X with
    | .nt n => max m (n + 1)
    | .tm _ => m) (max m (r.lhs + 1))) 0

/-- parser.rs:322-333: the least unused symbol number. -/
def freshSym (R : List PRule) : Nat :=
  ((List.range (symBound R + 1)).find? fun n => R.all fun r => decide (r.lhs ≠ n) && r.rhs.all fun X => decide (X ≠ .nt n)).getD 0

/-- Everything in `new` that comes after the states are known, parser.rs:342-389. -/
def finish (o : Seeds) (R : List PRule) (startRule : Nat) (start : State) (sl : List (State × Goto)) :
    Option (Tables × List Warning) :=
  let keys := o.keyOrd (sl.map Prod.fst)
  match calcTable R startRule (o.tableOrd sl) with
  | none => none
  | some (at', gt, ws) =>
    match allSome (numberActions keys) at', allSome (numberGotos keys) gt, errorRules R 0 keys, indexOf keys start with
    | some a, some g, some e, some s => some ({ action := a, goto := g, errors := e, start := s }, ws)
    | _, _, _, _ => none

/-- `LR1Parser::new`, parser.rs:321-390: tables and warnings (the rules, with the start rule appended, are kept). -/
def newTables (fuel : Nat) (o : Seeds) (g : Gram) : Res (Tables × List Warning) :=
  let R := g.aug (freshSym g.rules)
  match calcNull fuel R with
  | .panic => .panic
  | .fuel => .fuel
  | .ok null =>
    match calcFirst fuel null R with
    | .panic => .panic
    | .fuel => .fuel
    | .ok first =>
      match closure R null first fuel [⟨g.rules.length, 0, .eoi⟩] with
      | .panic => .panic
      | .fuel => .fuel
      | .ok start =>
        match allGoto o R null first fuel start with
        | .panic => .panic
        | .fuel => .fuel
        | .ok sl =>
          match finish o R g.rules.length start sl with
          | none => .panic
          | some r => .ok r

/-- Outcome of `LR1Parser::new` other than running out of fuel. -/
def NewGives (o : Seeds) (g : Gram) (r : Res (Tables × List Warning)) : Prop :=
  ∃ fuel, newTables fuel o g = r ∧ r ≠ .fuel

end Verif.Par
