import Verif.Tok.Code

/-!
# Texts that can become a token (specification)
-/

namespace Verif.Tok

/-- The values of `char`: Unicode scalar values. -/
def IsChar (c : Nat) : Prop := c < 0xD800 ∨ (0xE000 ≤ c ∧ c < 0x110000)

instance (c : Nat) : Decidable (IsChar c) := by unfold IsChar; infer_instance

mutual
/-- Every part of the regex can be matched: its literals and the bounds of its classes are characters, no class is empty (such as
`[^\s\S]`), and no alternation is empty. -/
def Hir.live : Hir → Bool
  | .literalU c => decide (IsChar c)
  | .classU rs => !rs.isEmpty && rs.all fun r => decide (IsChar r.1)
  | .rep _ h => h.live
  | .group h => h.live
  | .concat hs => Hir.liveAll hs
  | .alt hs => !hs.isEmpty && Hir.liveAll hs
  | _ => true
def Hir.liveAll : List Hir → Bool
  | [] => true
  | h :: t => h.live && Hir.liveAll t
end

/-- All patterns are `live`. -/
def PatsLive {π ρ β : Type} (parse : π → Except ρ Hir) (ps : List (π × β)) : Prop :=
  ∀ p ∈ ps, ∀ h, parse p.1 = .ok h → h.live = true

/-- `w` can still become a token: some characters after it complete a word of a pattern. -/
def Viable (L : Nat → List Nat → Prop) (w : List Nat) : Prop := ∃ v k, (∀ c ∈ v, IsChar c) ∧ L k (w ++ v)

end Verif.Tok
