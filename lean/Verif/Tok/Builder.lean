import Verif.Tok.Iter
import Verif.Tok.DfaSem

/-!
# Model of `TokenizerBuilder` (tokenizer/src/tokenizer.rs:86-113)

The regex parser (`regex_syntax::Parser::parse`) is a parameter `parse`; its error type is `ρ`.  Patterns are values of
any type `π`.  Everything that depends on hash seeds is collected in `Seeds`.
-/

namespace Verif.Tok

/-- Everything the hash seeds decide during `build`: the iteration order of `node_ref` (dfa.rs:119) and the orders and
collisions inside `minify`. -/
structure Seeds where
  ord : List (List Nat) → List (List Nat)
  min : MinOracle

/-- Possible seeds: orders are permutations. -/
structure Seeds.Fair (s : Seeds) : Prop where
  ord : ∀ l, (s.ord l).Perm l
  min : s.min.Fair

/-- No two different keys of `split_group` are confused by the hash table (they could be, because `Eq` of `CharRange`
ignores the end of the range, lib.rs:40-44). -/
def Seeds.NoCollision (s : Seeds) : Prop := ∀ r g t k k', s.min.collide r g t k k' = false

/-- `TokenizerBuildError` (tokenizer.rs:76-79) with `NFARegexConstructError` (nfa.rs:116-120). -/
inductive BuildError (ρ : Type) where
  | regex (e : ρ)
  | construct (e : NfaError)
  deriving DecidableEq, Repr

/-- nfa.rs:126-130: parse the patterns in order, stop at the first error. -/
def parseAll {π ρ : Type} (parse : π → Except ρ Hir) : List π → Except ρ (List Hir)
  | [] => .ok []
  | p :: ps =>
    match parse p with
    | .error e => .error e
    | .ok h =>
      match parseAll parse ps with
      | .error e => .error e
      | .ok hs => .ok (h :: hs)

/-- `TokenizerBuilder::build`, tokenizer.rs:106-112, with `try_from` of nfa.rs:122-133: tables, callbacks and the
warnings `EndConflict(old, new)`.  `none` if the fuel of the subset construction runs out. -/
def builderBuild {π ρ α E : Type} (fuel : Nat) (s : Seeds) (parse : π → Except ρ Hir)
    (patterns : List (π × (List Nat → List α → E))) :
    Option (Except (BuildError ρ) (Tokenizer α E × List (Nat × Nat))) :=
  match parseAll parse (patterns.map Prod.fst) with
  | .error e => some (.error (.regex e))
  | .ok hs =>
    match buildAll hs with
    | .error e => some (.error (.construct e))
    | .ok t => (buildTables fuel s.ord s.min t).map fun r => .ok ({ dfa := r.1, maker := patterns.map Prod.snd }, r.2)

/-- The outcome of `build`. -/
def BuildsTo {π ρ α E : Type} (s : Seeds) (parse : π → Except ρ Hir) (patterns : List (π × (List Nat → List α → E)))
    (r : Except (BuildError ρ) (Tokenizer α E × List (Nat × Nat))) : Prop :=
  ∃ fuel, builderBuild fuel s parse patterns = some r

/-- The same seeds, if the hash table of `minify` never took a key for a different one that compares equal. -/
def Seeds.calm (s : Seeds) : Seeds := { s with min := { s.min with collide := fun _ _ _ _ _ => false } }

/-- No hash collision disturbed this build: its outcome is the one without collisions. -/
def Calm {π ρ α E : Type} (s : Seeds) (parse : π → Except ρ Hir) (patterns : List (π × (List Nat → List α → E))) : Prop :=
  ∀ r, BuildsTo s parse patterns r ↔ BuildsTo s.calm parse patterns r

/-- Accept index after reading a word from the start. -/
def Tokenizer.accepts {α E : Type} (t : Tokenizer α E) (w : List Nat) : Option Nat := (t.dfa.obs w).join

end Verif.Tok
