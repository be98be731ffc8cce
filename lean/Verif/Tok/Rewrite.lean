import Verif.Tok.Spec
import Verif.Tok.NfaSem

/-!
# Writing a pattern in another way (specification for C78)

`Rewr` collects ways of writing a regex differently that leave every tokenizer as it is, whatever the regex and wherever in a
pattern it stands.  `Hir.safe` writes a regex so that the tokenizer matches exactly its language.
-/

namespace Verif.Tok

/-- Harmless ways of writing a regex differently. -/
inductive Rewr : Hir → Hir → Prop
  -- an equivalence, anywhere inside of a regex
  | refl (h) : Rewr h h
  | symm {h h'} : Rewr h h' → Rewr h' h
  | trans {h h' h''} : Rewr h h' → Rewr h' h'' → Rewr h h''
  | inRep (k) {h h'} : Rewr h h' → Rewr (.rep k h) (.rep k h')
  | inConcat (l r) {h h'} : Rewr h h' → Rewr (.concat (l ++ h :: r)) (.concat (l ++ h' :: r))
  | inAlt (l r) {h h'} : Rewr h h' → Rewr (.alt (l ++ h :: r)) (.alt (l ++ h' :: r))
  -- `(x)` is `x`
  | bracket (h) : Rewr (.group h) h
  -- `x{1}` is `x`
  | once (h) : Rewr (.rep (.exactly 1) h) h
  -- `x{n,n}` is `x{n}`
  | bounds (n h) : Rewr (.rep (.bounded n n) h) (.rep (.exactly n) h)
  -- `x{0,1}` is `x?`
  | option (h) : Rewr (.rep (.bounded 0 1) h) (.rep .zeroOrOne h)
  -- `x{0,}` is `x*`
  | many (h) : Rewr (.rep (.atLeast 0) h) (.rep .zeroOrMore h)
  -- `x{3}` is `xxx`
  | times (n h) : Rewr (.rep (.exactly (n + 1)) h) (.concat (List.replicate (n + 1) h))
  -- `x{3,}` is `x{3}x*`
  | least (n h) : Rewr (.rep (.atLeast (n + 1)) h) (.concat [.rep (.exactly (n + 1)) h, .rep .zeroOrMore h])
  -- `x(yz)w` is `xyzw`
  | flat (l m r) : m ≠ [] → Rewr (.concat (l ++ .concat m :: r)) (.concat (l ++ m ++ r))
  | single (h) : Rewr (.concat [h]) h
  -- `x**`, `(x+)*`, `(x*)+` and `(x*)?` are `x*`, `x++` is `x+`, `x??` is `x?`
  | starStar (h) : Rewr (.rep .zeroOrMore (.rep .zeroOrMore h)) (.rep .zeroOrMore h)
  | plusStar (h) : Rewr (.rep .zeroOrMore (.rep .oneOrMore h)) (.rep .zeroOrMore h)
  | starPlus (h) : Rewr (.rep .oneOrMore (.rep .zeroOrMore h)) (.rep .zeroOrMore h)
  | starOpt (h) : Rewr (.rep .zeroOrOne (.rep .zeroOrMore h)) (.rep .zeroOrMore h)
  | plusPlus (h) : Rewr (.rep .oneOrMore (.rep .oneOrMore h)) (.rep .oneOrMore h)
  | optOpt (h) : Rewr (.rep .zeroOrOne (.rep .zeroOrOne h)) (.rep .zeroOrOne h)
  -- the order of alternatives does not matter, nor do brackets around some of them, nor repeated ones
  | altPerm {hs hs'} : hs.Perm hs' → Rewr (.alt hs) (.alt hs')
  | altFlat (l m r) : Rewr (.alt (l ++ .alt m :: r)) (.alt (l ++ m ++ r))
  | altTwice (h t) : Rewr (.alt (h :: h :: t)) (.alt (h :: t))
  -- among alternatives, `xy|xz` is `x(y|z)` and `xz|yz` is `(x|y)z`
  | factorL (x y z t) : Rewr (.alt (.concat [x, y] :: .concat [x, z] :: t)) (.alt (.concat [x, .alt [y, z]] :: t))
  | factorR (x y z t) : Rewr (.alt (.concat [x, z] :: .concat [y, z] :: t)) (.alt (.concat [.alt [x, y], z] :: t))
  -- `a` is `[a]`, and `[a-f]|[d-z]` is `[a-z]`
  | char (c) : Rewr (.literalU c) (.classU [(c, c)])
  | classes (a b c) : (∀ x : Nat, (∃ r ∈ c, r.1 ≤ x ∧ x ≤ r.2) ↔ (∃ r ∈ a ++ b, r.1 ≤ x ∧ x ≤ r.2)) →
      Rewr (.alt [.classU a, .classU b]) (.classU c)

mutual
/-- The same regex, written so that the tokenizer matches exactly its language: the empty regex becomes `a{0}`, and where `x` is
repeated and loops might get mixed up, `(x|x)` is repeated instead. -/
def Hir.safe : Hir → Hir
  | .empty => .rep (.exactly 0) (.literalU 97)
  | .rep k h => if (Hir.rep k h).faithful then .rep k h else .rep k (.group (.alt [h.safe, h.safe]))
  | .group h => .group h.safe
  | .concat hs => .concat (Hir.safeAll hs)
  | .alt hs => .alt (Hir.safeAll hs)
  | h => h
def Hir.safeAll : List Hir → List Hir
  | [] => []
  | h :: t => h.safe :: Hir.safeAll t
end

/-- Two lists of patterns with the same callbacks whose regexes are related one by one. -/
def Rewritten {π ρ β : Type} (R : Hir → Hir → Prop) (parse : π → Except ρ Hir) (ps qs : List (π × β)) : Prop :=
  ps.length = qs.length ∧ ∀ (i : Nat) (p q : π × β), ps[i]? = some p → qs[i]? = some q → p.2 = q.2 ∧
    ∃ h h', parse p.1 = .ok h ∧ parse q.1 = .ok h' ∧ R h h'

end Verif.Tok
