import Verif.Par.LrSpec
import Verif.Par.Trees

/-!
# Specification of parsing with error recovery: a machine on grammar symbols

The machine knows the grammar, not the tables: what to do next is decided by the items that are valid for the symbols read
so far (`Expects`, `Complete`, `ErrRule`).  It reads the input by position; there is no buffer.
-/

namespace Verif.Par

variable {N T E : Type}

/-- A symbol that has been read: a non-terminal with its value, a token, or an error symbol for the tokens `lo..=hi`.
The number `i` is the position of the symbol in the input. -/
inductive Piece (N T : Type) where
  | nt (n : Nat) (v : N) (i : Nat)
  | tok (t : T) (i : Nat)
  | err (lo hi : Nat)

/-- The grammar symbol. -/
def Piece.sym (idx : T → Nat) : Piece N T → Sym
  | .nt n _ _ => .nt n
  | .tok t _ => .tm (.sym (idx t))
  | .err _ _ => .tm .err

/-- What a callback gets. -/
def Piece.arg (input : List T) : Piece N T → Arg N T
  | .nt _ v _ => .nt v
  | .tok t _ => .tok t
  | .err lo hi => .err ((input.drop lo).take (hi + 1 - lo))

/-- Position of the first non-terminal or token. -/
def startOf (dflt : Nat) : List (Piece N T) → Nat
  | [] => dflt
  | .nt _ _ i :: _ => i
  | .tok _ i :: _ => i
  | .err _ _ :: l => startOf dflt l

/-- Begin of the first error symbol. -/
def errStartOf (dflt : Nat) : List (Piece N T) → Nat
  | [] => dflt
  | .err lo _ :: _ => lo
  | _ :: l => errStartOf dflt l

/-- State of the machine: the symbols read, the position of the next token, how many tokens have been pulled from the source
and whether its end has, the error rules that have to be completed before recovery starts afresh, the calls made. -/
structure Mach (N T : Type) where
  pieces : List (Piece N T)
  pos : Nat
  seen : Nat
  polled : Bool
  pending : Nat → Prop
  calls : List (Call N T)

def Mach.init : Mach N T := { pieces := [], pos := 0, seen := 0, polled := false, pending := fun _ => False, calls := [] }

/-- Number of times the source has been asked. -/
def Mach.pulls (m : Mach N T) : Nat := m.seen + if m.polled then 1 else 0

/-- The symbols read. -/
def Mach.read (idx : T → Nat) (m : Mach N T) : List Sym := m.pieces.map (Piece.sym idx)

/-- Pull the next token (or the end), unless that has been done before. -/
def Mach.look (input : List T) (m : Mach N T) : Mach N T :=
  { m with seen := max m.seen (min (m.pos + 1) input.length), polled := m.polled || decide (input.length ≤ m.pos) }

/-- The next token, or the end of input. -/
def Mach.ahead (idx : T → Nat) (input : List T) (m : Mach N T) : Term :=
  match input[m.pos]? with
  | some t => .sym (idx t)
  | none => .eoi

/-- Error rule `r` can begin its error symbol behind the symbols `γ`. -/
def ErrRule (R : List PRule) (s : Nat) (γ : List Sym) (r : Nat) : Prop :=
  ∃ i rule, Valid R s γ i ∧ i.rule = r ∧ R[r]? = some rule ∧ rule.rhs[i.pos]? = some (.tm .err)

/-- The error rules that may be taken behind `γ`: if some are pending, only these. -/
def Choice (R : List PRule) (s : Nat) (pending : Nat → Prop) (γ : List Sym) (r : Nat) : Prop :=
  ErrRule R s γ r ∧ ((∀ r', ¬ pending r') ∨ pending r)

/-- Result of a step of the machine. -/
inductive MOut (N T E : Type) where
  | more (m : Mach N T)
  | done (x : Except (PErr E) N) (m : Mach N T)
  | panic

/-- Rule `r` is to be reduced: no token is expected, the input is not accepted, `r` is the first complete rule. -/
def Reduces (R : List PRule) (s start : Nat) (γ : List Sym) (a : Term) (r : Nat) : Prop :=
  ¬ Expects R s γ (.tm a) ∧ ¬ (a = .eoi ∧ γ = [.nt start]) ∧ r ≠ s ∧ Complete R s γ r a ∧
    ∀ r', r' ≠ s → Complete R s γ r' a → r ≤ r'

/-- Nothing can be done with the next token. -/
def NoMove (R : List PRule) (s start : Nat) (γ : List Sym) (a : Term) : Prop :=
  ¬ Expects R s γ (.tm a) ∧ ¬ (a = .eoi ∧ γ = [.nt start]) ∧ ∀ r, r ≠ s → ¬ Complete R s γ r a

/-- An error symbol that reaches beyond the input. -/
def Piece.Bad (input : List T) : Piece N T → Prop
  | .err _ hi => input.length ≤ hi
  | _ => False

/-- One step of the machine. -/
inductive MStep (rules : List (Rule N T E)) (R : List PRule) (s start : Nat) (idx : T → Nat) (input : List T) (m : Mach N T) :
    MOut N T E → Prop
  /-- the next token is expected -/
  | shift (t) : input[m.pos]? = some t → Expects R s (m.read idx) (.tm (.sym (idx t))) →
      MStep rules R s start idx input m
        (.more { m.look input with pieces := m.pieces ++ [.tok t m.pos], pos := m.pos + 1 })
  /-- the start symbol and nothing else has been read, and the input is at its end -/
  | accept (v i) : input[m.pos]? = none → m.pieces = [.nt start v i] →
      MStep rules R s start idx input m (.done (.ok v) (m.look input))
  /-- a reduction; it ends the recovery if it completes a pending rule -/
  | reduce (r rule ps cs v) : Reduces R s start (m.read idx) (m.ahead idx input) r → rules[r]? = some rule →
      m.pieces = ps ++ cs → cs.map (Piece.sym idx) = rule.rhs → (∀ P ∈ cs, ¬ P.Bad input) →
      rule.gen (cs.map (Piece.arg input)) = .ok v →
      MStep rules R s start idx input m
        (.more { m.look input with
          pieces := ps ++ [.nt rule.lhs v (startOf (m.look input).seen cs)]
          pending := fun r' => m.pending r' ∧ ¬ m.pending r
          calls := m.calls ++ [(r, cs.map (Piece.arg input))] })
  /-- a reduction whose callback fails -/
  | fail (r rule ps cs e) : Reduces R s start (m.read idx) (m.ahead idx input) r → rules[r]? = some rule →
      m.pieces = ps ++ cs → cs.map (Piece.sym idx) = rule.rhs → (∀ P ∈ cs, ¬ P.Bad input) →
      rule.gen (cs.map (Piece.arg input)) = .error e →
      MStep rules R s start idx input m
        (.done (.error (.reducer e)) { m.look input with calls := m.calls ++ [(r, cs.map (Piece.arg input))] })
  /-- a reduction with an error symbol that reaches beyond the input (only on the empty input) -/
  | bad (r rule ps cs P) : Reduces R s start (m.read idx) (m.ahead idx input) r → rules[r]? = some rule →
      m.pieces = ps ++ cs → cs.map (Piece.sym idx) = rule.rhs → P ∈ cs → P.Bad input →
      MStep rules R s start idx input m .panic
  /-- recovery in front of a token: as few symbols as possible are given up so that an error symbol fits.  It reaches from
  the first one given up to the offending token.  If something is given up, reading continues behind the first token given
  up, otherwise with the offending token. -/
  | recover (t keep drop) : input[m.pos]? = some t → NoMove R s start (m.read idx) (.sym (idx t)) →
      m.pieces = keep ++ drop → (∃ r, Choice R s m.pending (keep.map (Piece.sym idx)) r) →
      (∀ keep' drop', m.pieces = keep' ++ drop' → keep.length < keep'.length →
        ∀ r, ¬ Choice R s m.pending (keep'.map (Piece.sym idx)) r) →
      MStep rules R s start idx input m
        (.more { m.look input with
          pieces := keep ++ [.err (min (startOf m.pos drop) (errStartOf m.pos drop)) m.pos]
          pos := if drop.isEmpty then m.pos else min (startOf m.pos drop) m.pos + 1
          pending := Choice R s m.pending (keep.map (Piece.sym idx)) })
  /-- recovery at the end of the input: nothing is given up; the error symbol is the first token -/
  | recoverEnd : input[m.pos]? = none → NoMove R s start (m.read idx) .eoi →
      (∃ r, Choice R s m.pending (m.read idx) r) →
      MStep rules R s start idx input m
        (.more { m.look input with pieces := m.pieces ++ [.err 0 0], pending := Choice R s m.pending (m.read idx) })
  /-- no recovery in front of a token -/
  | giveUp (t) : input[m.pos]? = some t → NoMove R s start (m.read idx) (.sym (idx t)) →
      (∀ keep drop, m.pieces = keep ++ drop → ∀ r, ¬ Choice R s m.pending (keep.map (Piece.sym idx)) r) →
      MStep rules R s start idx input m (.done (.error .noRecovery) (m.look input))
  /-- no recovery at the end of the input -/
  | giveUpEnd : input[m.pos]? = none → NoMove R s start (m.read idx) .eoi →
      (∀ r, ¬ Choice R s m.pending (m.read idx) r) →
      MStep rules R s start idx input m (.done (.error .noRecovery) (m.look input))

/-- `n` steps (fewer if it ends). -/
inductive MRun (rules : List (Rule N T E)) (R : List PRule) (s start : Nat) (idx : T → Nat) (input : List T) :
    Nat → Mach N T → MOut N T E → Prop
  | zero (m) : MRun rules R s start idx input 0 m (.more m)
  | more (n m m' o) : MStep rules R s start idx input m (.more m') → MRun rules R s start idx input n m' o →
      MRun rules R s start idx input (n + 1) m o
  | done (n m x m') : MStep rules R s start idx input m (.done x m') → MRun rules R s start idx input (n + 1) m (.done x m')
  | panic (n m) : MStep rules R s start idx input m .panic → MRun rules R s start idx input (n + 1) m .panic

end Verif.Par
