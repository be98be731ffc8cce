import Verif.Tok.DfaSem

/-!
# Printing ranges

Model of `impl Debug for CharRange` (/repo/tokenizer/src/lib.rs:19-32). Characters are numbers as everywhere in this model.
-/

namespace Verif.Tok

/-- The numbers for which `char::try_from` gives `Ok` (specification of the function of the standard library). -/
def IsScalar (c : Nat) : Prop := c < 0xD800 ∨ (0xE000 ≤ c ∧ c < 0x110000)

instance (c : Nat) : Decidable (IsScalar c) := inferInstanceAs (Decidable (_ ∨ _))

/-- `char::try_from(c).unwrap_or('~')` (lib.rs:25, 27). -/
def charOr (c : Nat) : Nat := if IsScalar c then c else 126

/-- `a - b` of `u32` in a build with overflow checks; `none` is the panic (lib.rs:24, 27). -/
def subU32 (a b : Nat) : Option Nat := if a < b then none else some (a - b)

/-- The string in the field `range` that `Debug for CharRange` writes (lib.rs:24-28); `none` is a panic.
Not modelled: the fixed text around it and the escapes of `Debug for String`. -/
def showRange (r : Nat × Nat) : Option (List Nat) :=
  (subU32 r.2 r.1).bind fun n =>
    if n = 1 then some [charOr r.1]
    else (subU32 r.2 1).map fun l => [charOr r.1, 46, 46, 61, charOr l]

end Verif.Tok
