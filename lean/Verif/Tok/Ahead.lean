import Verif.Tok.Live
import Verif.Tok.Iter
import Verif.Tok.DfaSem

/-!
# How far a tokenizer looks beyond a token: specification and check
-/

namespace Verif.Tok

/-- A text: a sequence of characters. -/
def IsText (w : List Nat) : Prop := ∀ c ∈ w, IsChar c

/-- Behind a word `u` of the languages, at most `K` more characters can follow such that neither a longer word of the languages has come up nor
all longer ones have been ruled out. -/
def Near (L : Nat → List Nat → Prop) (K : Nat) : Prop :=
  ∀ u x k, IsText (u ++ x) → L k u → (∀ y z j, x = y ++ z → y ≠ [] → ¬ L j (u ++ y)) → Viable L (u ++ x) → x.length ≤ K

/-! ## The check on the tables -/

/-- Some character lies in the range. -/
def hasChar (r : Nat × Nat) : Bool := decide (r.1 < r.2) && (decide (r.1 < 0xD800) || (decide (0xE000 < r.2) && decide (r.1 < 0x110000)))

/-- The states that satisfy `P` and to which a character leads from one of the states `S`. -/
def DFA.succs (d : DFA) (P : Nat → Bool) (S : List Nat) : List Nat :=
  (List.range d.rows.length).filter fun m => P m && S.any fun q => (d.rows.getD q []).any fun e => e.2 == m && hasChar e.1

/-- The same for `n` characters, where `P` holds after each. -/
def DFA.after (d : DFA) (P : Nat → Bool) : Nat → List Nat → List Nat
  | 0, S => S
  | n + 1, S => d.after P n (d.succs P S)

/-- The states that are reached by texts and accept. -/
def DFA.accepting (d : DFA) : List Nat :=
  ((List.range (d.rows.length + 1)).flatMap fun n => d.after (fun _ => true) n [d.b]).filter fun q => (d.accept q).isSome

/-- No text leads from a reachable accepting state through `K + 1` states that do not accept. -/
def DFA.near (d : DFA) (K : Nat) : Bool := (d.after (fun q => (d.accept q).isNone) (K + 1) d.accepting).isEmpty

end Verif.Tok
