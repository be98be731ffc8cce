import Verif.Calc.Spec
import Verif.Props.ParSeeds
import Verif.Props.ParContract

/-!
# The tables of the calculator
-/

namespace Verif.Calc

open Verif.Par

variable {V : Type}

/-- The grammar of the calculator. -/
def gCalc : Gram := gram (rules (V := Unit) ⟨(), fun _ _ => (), fun _ _ => (), fun _ _ => (), fun _ _ => (), fun _ => (), fun _ => (), fun _ => ()⟩) start

theorem gram_rules (A : Arith V) : gram (rules A) start = gCalc := rfl

theorem gCalc_ok : gCalc.Ok := by decide

theorem gCalc_noError : gCalc.NoError := by unfold Gram.NoError; decide

/-- `new` without hash seeds gives no warnings (computed by the kernel). -/
theorem gCalc_new : (match newTables 200 idSeeds gCalc with | .ok (_, ws) => ws.isEmpty | _ => false) = true := by decide +kernel

theorem gCalc_closed : gCalc.Closed := by
  constructor
  · exact ⟨_, List.mem_cons_self, rfl⟩
  · intro r hr n hn
    have : n = 0 ∨ n = 1 ∨ n = 2 := by
      simp only [gCalc, gram, rules, List.map_cons, List.map_nil, List.mem_cons, List.not_mem_nil, or_false] at hr
      rcases hr with rfl | rfl | rfl | rfl | rfl | rfl | rfl | rfl | rfl | rfl | rfl <;>
        simp [Rule.plain, ruleNew, Val.index, Token.index] at hn <;> omega
    rcases this with rfl | rfl | rfl
    · exact ⟨⟨0, [.nt 1]⟩, by decide, rfl⟩
    · exact ⟨⟨1, [.nt 2]⟩, by decide, rfl⟩
    · exact ⟨⟨2, [.tm (.sym 0)]⟩, by decide, rfl⟩

/-- `new` gives no warnings for any hash seeds. -/
theorem no_warnings (A : Arith V) (o : Seeds) (ho : o.Fair) (p : Parser (Val V) (Token V) Unit) (ws : List Warning)
    (hm : MakesParser o (rules A) start p ws) : ws = [] := by
  have h1 : NewGives o gCalc (.ok (p.tab, ws)) := hm.1
  have h0 := gCalc_new
  cases hn : newTables 200 idSeeds gCalc with
  | panic => rw [hn] at h0; cases h0
  | fuel => rw [hn] at h0; cases h0
  | ok r =>
    obtain ⟨tab, ws0⟩ := r
    rw [hn] at h0
    have h2 : NewGives idSeeds gCalc (.ok (tab, ws0)) := ⟨200, hn, by simp⟩
    have h3 : ws0 = [] := by simpa using h0
    have := (c32_same_warnings o idSeeds ho idSeeds_fair gCalc gCalc_ok).2 _ _ _ _ h1 h2
    cases ws with
    | nil => rfl
    | cons w ws =>
      have := (this w).1 (by simp)
      rw [h3] at this
      cases this

/-- `new` gives a parser for any hash seeds. -/
theorem makes_exists (A : Arith V) (o : Seeds) (ho : o.Fair) : ∃ p ws, MakesParser o (rules A) start p ws := by
  obtain ⟨tab, ws, h⟩ := c20_new_no_panic o ho gCalc gCalc_ok gCalc_closed
  exact ⟨⟨_, tab⟩, ws, h, fun _ => .error (), rfl⟩

theorem gCalc_productive : gCalc.Productive := by
  intro x n y h
  have hn : n = 0 ∨ n = 1 ∨ n = 2 := by
    have key : ∀ u v, Derives gCalc.rules u v → u = [.nt 0] → ∀ n, Sym.nt n ∈ v → n = 0 ∨ n = 1 ∨ n = 2 := by
      intro u v h
      induction h with
      | refl => rintro rfl n hn; simp at hn; simp [hn]
      | step x y r _ hr ih =>
        intro hu n hn
        rw [List.mem_append, List.mem_append] at hn
        rcases hn with (hn | hn) | hn
        · exact ih hu n (by simp [hn])
        · simp only [gCalc, gram, rules, List.map_cons, List.map_nil, List.mem_cons, List.not_mem_nil, or_false] at hr
          rcases hr with rfl | rfl | rfl | rfl | rfl | rfl | rfl | rfl | rfl | rfl | rfl <;>
            simp [Rule.plain, ruleNew, Val.index, Token.index] at hn <;> omega
        · exact ih hu n (by simp [hn])
    exact key _ _ h rfl n (by simp)
  have d2 : Derives gCalc.rules [.nt 2] [.tm (.sym 0)] :=
    .step _ [] [] ⟨2, [.tm (.sym 0)]⟩ (.refl _) (by decide)
  have d1 : Derives gCalc.rules [.nt 1] [.tm (.sym 0)] :=
    .step _ [] [] ⟨2, [.tm (.sym 0)]⟩ (.step _ [] [] ⟨1, [.nt 2]⟩ (.refl _) (by decide)) (by decide)
  have d0 : Derives gCalc.rules [.nt 0] [.tm (.sym 0)] :=
    .step _ [] [] ⟨2, [.tm (.sym 0)]⟩ (.step _ [] [] ⟨1, [.nt 2]⟩ (.step _ [] [] ⟨0, [.nt 1]⟩ (.refl _) (by decide)) (by decide)) (by decide)
  rcases hn with rfl | rfl | rfl
  · exact ⟨[0], d0⟩
  · exact ⟨[0], d1⟩
  · exact ⟨[0], d2⟩

theorem gCalc_notCyclic : ¬ gCalc.Cyclic := by
  rintro ⟨x, r, y, hr, _, h⟩
  have h1 : r.rhs ≠ [] ∧ r.rhs ≠ [.nt 0] := by
    simp only [gCalc, gram, rules, List.map_cons, List.map_nil, List.mem_cons, List.not_mem_nil, or_false] at hr
    rcases hr with rfl | rfl | rfl | rfl | rfl | rfl | rfl | rfl | rfl | rfl | rfl <;> decide
  have h2 : (x ++ r.rhs ++ y) = [Sym.nt 0] := h
  cases x with
  | cons a x =>
    simp at h2
    exact h1.1 h2.2.2.1
  | nil =>
    cases hrr : r.rhs with
    | nil => exact h1.1 hrr
    | cons b l =>
      rw [hrr] at h2
      simp at h2
      exact h1.2 (by rw [hrr, h2.1, h2.2.1])

end Verif.Calc
