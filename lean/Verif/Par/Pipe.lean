import Verif.Par.Source
import Verif.Tok.Iter

/-!
# Model of the way tokenizer and parser are put together (example/src/main.rs:89)

`input.chars().tokenize(&tokenizer).parse(&parser)`, possibly with `.flatten()` in between to drop the tokens `None`.
-/

namespace Verif.Par

variable {α E T σ : Type}

/-- A `TokenizeIterator` (tokenizer/src/tokenizer/iter.rs:44-80) as the source of `parse` (parser/src/iter.rs:40-46).  A built tokenizer does
not panic (C10), so a panic need not be told from `None`. -/
def tokSource (t : Tok.Tokenizer α E) (map : α → Nat) : Source (Tok.It α) E := fun it =>
  match t.next map it with
  | (.token e, it) => (some e, it)
  | (_, it) => (none, it)

/-- One call of `next` of `Iterator::flatten` over `Option`s (example/src/main.rs:89): items `None` are skipped. -/
inductive FlatNext (nxt : Source σ (Option T)) : σ → Option T → σ → Prop
  | stop (s s') : nxt s = (none, s') → FlatNext nxt s none s'
  | item (s s' t) : nxt s = (some (some t), s') → FlatNext nxt s (some t) s'
  | skip (s s' s'' a) : nxt s = (some none, s') → FlatNext nxt s' a s'' → FlatNext nxt s a s''

/-- The source `f` behaves like `nxt.flatten()` wherever that answers (it would hang on an endless row of `None`s). -/
def Flattens (nxt : Source σ (Option T)) (f : Source σ T) : Prop := ∀ s a s', FlatNext nxt s a s' → f s = (a, s')

end Verif.Par
