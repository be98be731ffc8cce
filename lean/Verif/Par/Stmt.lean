import Verif.Par.Parse
import Verif.Par.Machine

/-!
# Grammars for lists of statements (specification for C62)

`L → L I | I`, `I → b ;` for each body `b` of a list, `I → error ;`.  This is the usual way to use `error`.  Bodies are any strings of
tokens without `;`.
-/

namespace Verif.Par

/-- A list of statements: the bodies, the token behind each statement, the callbacks. -/
structure Stmts (N T E : Type) where
  bodies : List (List Nat × (List (Arg N T) → Except E N))
  sync : Nat
  more : List (Arg N T) → Except E N
  first : List (Arg N T) → Except E N
  bad : List (Arg N T) → Except E N

variable {N T E : Type}

/-- The rules: 0 is `L → L I`, 1 is `L → I`, then the statements, the last one is `I → error ;`. -/
def Stmts.rules (S : Stmts N T E) : List (Rule N T E) :=
  ⟨0, [.nt 0, .nt 1], S.more⟩ :: ⟨0, [.nt 1], S.first⟩ ::
    (S.bodies.map fun b => ⟨1, (b.1 ++ [S.sync]).map fun a => .tm (.sym a), b.2⟩) ++ [⟨1, [.tm .err, .tm (.sym S.sync)], S.bad⟩]

/-- The separator is not in the bodies. -/
def Stmts.Ok (S : Stmts N T E) : Prop := ∀ b ∈ S.bodies, S.sync ∉ b.1

/-- Number of the rule `I → error ;`. -/
def Stmts.badRule (S : Stmts N T E) : Nat := S.bodies.length + 2

/-- The token can begin a statement. -/
def Stmts.Starts (S : Stmts N T E) (idx : T → Nat) (t : T) : Prop := ∃ b ∈ S.bodies, (b.1 ++ [S.sync]).head? = some (idx t)

instance (S : Stmts N T E) (idx : T → Nat) (t : T) : Decidable (S.Starts idx t) := by unfold Stmts.Starts; infer_instance

/-- A segment of the input: tokens up to a separator, and the separator. -/
abbrev Segm (T : Type) := List T × T

/-- The tokens of segments. -/
def textOf (l : List (Segm T)) : List T := l.flatMap fun s => s.1 ++ [s.2]

/-- A chunk: a segment and the segments that are read together with it. -/
abbrev Chunk (T : Type) := Segm T × List (Segm T)

def Chunk.text (c : Chunk T) : List T := textOf (c.1 :: c.2)

def Chunk.last (c : Chunk T) : Segm T := c.2.getLast?.getD c.1

/-- Nothing stands between the last two separators, or the chunk is a single token that begins a statement. -/
def Stmts.wide (S : Stmts N T E) (idx : T → Nat) : Chunk T → Bool
  | (([t], _), []) => decide (S.Starts idx t)
  | c => c.last.1.isEmpty

/-- The tokens of a chunk that are handed to the callback of `I → error ;` as the error: all but the last separator; with two
exceptions, where the last separator is included. -/
def Stmts.blame (S : Stmts N T E) (idx : T → Nat) (c : Chunk T) : List T :=
  if S.wide idx c then c.text else c.text.dropLast

/-- The call for a chunk: the callback of the statement if it is a single segment and has a body of the list (the first one, if there are
several), otherwise the callback of `I → error ;`. -/
inductive Stmts.ItemCall (S : Stmts N T E) (idx : T → Nat) : Chunk T → Call N T → (List (Arg N T) → Except E N) → Prop
  | stmt (s j b) : S.bodies[j]? = some b → b.1 = s.1.map idx → (∀ (j' : Nat) b', S.bodies[j']? = some b' → b'.1 = s.1.map idx → j ≤ j') →
      S.ItemCall idx (s, []) (j + 2, (s.1 ++ [s.2]).map .tok) b.2
  | bad (c) : (c.2 = [] → ∀ b ∈ S.bodies, b.1 ≠ c.1.1.map idx) →
      S.ItemCall idx c (S.badRule, [.err (S.blame idx c), .tok c.last.2]) S.bad

/-- The call that puts an item into the list. -/
def Stmts.listCall (S : Stmts N T E) (i : N) : Option N → Call N T × (List (Arg N T) → Except E N)
  | none => ((1, [.nt i]), S.first)
  | some v => ((0, [.nt v, .nt i]), S.more)

/-- Evaluation of a list of chunks, chunk by chunk: the calls and the result. -/
inductive Stmts.Eval (S : Stmts N T E) (idx : T → Nat) : Option N → List (Chunk T) → List (Call N T) → Except E (Option N) → Prop
  | nil (v) : S.Eval idx v [] [] (.ok v)
  | item (v c cs k gen x) : S.ItemCall idx c k gen → gen k.2 = .error x → S.Eval idx v (c :: cs) [k] (.error x)
  | list (v c cs k gen i x) : S.ItemCall idx c k gen → gen k.2 = .ok i → (S.listCall i v).2 (S.listCall i v).1.2 = .error x →
      S.Eval idx v (c :: cs) [k, (S.listCall i v).1] (.error x)
  | cons (v c cs k gen i v' l r) : S.ItemCall idx c k gen → gen k.2 = .ok i → (S.listCall i v).2 (S.listCall i v).1.2 = .ok v' →
      S.Eval idx (some v') cs l r → S.Eval idx v (c :: cs) (k :: (S.listCall i v).1 :: l) r

/-- How an input falls into chunks: a segment is read together with the one before exactly if its first token cannot begin a statement.
`rest` is what stands behind the last separator. -/
structure Stmts.Chunked (S : Stmts N T E) (idx : T → Nat) (input : List T) (cs : List (Chunk T)) (rest : List T) : Prop where
  text : input = cs.flatMap Chunk.text ++ rest
  rest : ∀ t ∈ rest, idx t ≠ S.sync
  seps : ∀ c ∈ cs, ∀ s ∈ c.1 :: c.2, idx s.2 = S.sync ∧ ∀ t ∈ s.1, idx t ≠ S.sync
  joined : ∀ c ∈ cs, ∀ s ∈ c.2, ∀ t, (s.1 ++ [s.2]).head? = some t → ¬ S.Starts idx t
  apart : ∀ c ∈ cs.tail, ∀ t, (c.1.1 ++ [c.1.2]).head? = some t → S.Starts idx t

/-- The chunks that are evaluated: all, but without the last one if something stands behind the last separator that cannot begin a
statement. -/
def Stmts.kept (S : Stmts N T E) (idx : T → Nat) (cs : List (Chunk T)) : List T → List (Chunk T)
  | [] => cs
  | t :: _ => if S.Starts idx t then cs else cs.dropLast

/-- What `parse` returns: the error of the callback that failed; otherwise the list, if there is one and nothing stands behind the last
separator; otherwise `RecoveryRuleNotFound`. -/
def Stmts.result (rest : List T) : Except E (Option N) → Except (PErr E) N
  | .error x => .error (.reducer x)
  | .ok none => .error .noRecovery
  | .ok (some v) => if rest.isEmpty then .ok v else .error .noRecovery

end Verif.Par
