import Verif.Tok.Builder

/-!
# Model of the macro `tokenizer!` (tokenizer_generator/src/lib.rs:75-142)

The parsing of the macro input (lib.rs:10-73) is modelled in `Macro/Read`; this model begins with the list of rules
`"pattern" : generator;` in source order.  Generator expressions stand for the closures they evaluate to.  The emitted
program is modelled by its statements (`Program`), and running it by `Program.run`.
-/

namespace Verif.Tok

/-- The emitted function: per row the `map.insert(start..end, value)` statements (lib.rs:87-105), the literal `begin`
(lib.rs:135), the `map.insert(key, value)` statements of `end` (lib.rs:106-116) and the closures (lib.rs:117-126). -/
structure Program (α E : Type) where
  rows : List (List (Nat × Nat × Nat))
  begin : Nat
  ends : List (Nat × Nat)
  makers : List (List Nat → List α → E)

/-- The entries of the hash map `end`, by increasing key. -/
def endEntries (d : DFA) : List (Nat × Nat) :=
  (List.range d.ends.length).filterMap fun i => ((d.ends[i]?).join).map fun e => (i, e)

/-- lib.rs:87-140: the tables of the tokenizer built inside the macro are written out; `ord` is the iteration order of
the hash map `end` (lib.rs:107). -/
def emit {α E : Type} (ord : List (Nat × Nat) → List (Nat × Nat)) (d : DFA) (makers : List (List Nat → List α → E)) :
    Program α E :=
  { rows := d.rows.map fun row => row.map fun x => (x.1.1, x.1.2, x.2)
    begin := d.b
    ends := ord (endEntries d)
    makers := makers }

/-- lib.rs:75-142 up to the output: the builder runs with the dummy callbacks `|_, _| unreachable!()` of type
`fn(&str, Vec<char>) -> ()` (lib.rs:79-82); `.error` is the `expect` panic of lib.rs:83, i.e. a compile error; warnings are
printed only (lib.rs:84-86). -/
def macroExpand {π ρ α E : Type} (fuel : Nat) (s : Seeds) (ord : List (Nat × Nat) → List (Nat × Nat)) (parse : π → Except ρ Hir)
    (rules : List (π × (List Nat → List α → E))) : Option (Except (BuildError ρ) (Program α E)) :=
  (builderBuild fuel s parse (rules.map fun r => (r.1, (fun (_ : List Nat) (_ : List Nat) => ())))).map fun
    | .error e => .error e
    | .ok (t, _) => .ok (emit ord t.dfa (rules.map Prod.snd))

/-- Running the emitted function: the statements are executed in order on empty maps. -/
def Program.run {α E : Type} (p : Program α E) : Tokenizer α E :=
  { dfa :=
      { rows := p.rows.map fun stmts => stmts.foldl (fun m x => insertRange (x.1, x.2.1) x.2.2 m) []
        b := p.begin
        ends := p.ends.foldl (fun m x => m.set x.1 (some x.2)) (List.replicate p.rows.length none) }
    maker := p.makers }

/-- The tokenizer returned by the function that `tokenizer!` defines. -/
def MacroBuildsTo {π ρ α E : Type} (s : Seeds) (ord : List (Nat × Nat) → List (Nat × Nat)) (parse : π → Except ρ Hir)
    (rules : List (π × (List Nat → List α → E))) (r : Except (BuildError ρ) (Tokenizer α E)) : Prop :=
  ∃ fuel p, macroExpand fuel s ord parse rules = some p ∧ r = p.map Program.run

end Verif.Tok
