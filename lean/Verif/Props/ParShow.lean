import Verif.Par.Show
import Verif.Props.ParComplete

/-!
# Property C110: what an error of `parse` tells
-/

namespace Verif.Par

variable {N T E : Type}

/-- An error has a source exactly if a callback failed: then the last call is the one that failed, the source is its error, the text is the text of
that error and all earlier calls succeeded. Without a source all calls succeeded. -/
theorem c110_source (o : Seeds) (ho : o.Fair) (rules : List (Rule N T E)) (start : Nat) (hok : (gram rules start).Ok)
    (p : Parser N T E) (ws : List Warning) (hp : MakesParser o rules start p ws) (idx : T → Nat) (input : List T)
    (x : PErr E) (c : Cfg N T) (h : ParsesTo idx p input (.error x) c) (txt : E → String) :
    (∀ e, x.source = some e → x.text txt = txt e ∧ ∃ r args rest rule, c.log.reverse = rest ++ [(r, args)] ∧ rules[r]? = some rule ∧
      rule.gen args = .error e ∧ ∀ y ∈ rest, ∃ rule v, rules[y.1]? = some rule ∧ rule.gen y.2 = .ok v) ∧
    (x.source = none ↔ ∀ y ∈ c.log, ∃ rule v, rules[y.1]? = some rule ∧ rule.gen y.2 = .ok v) := by
  obtain ⟨h1, h2⟩ := c30_first_failure o ho rules start hok p ws hp idx input _ c h
  cases x with
  | noRecovery => exact ⟨fun e he => (by cases he), fun _ => h2 (fun e he => by cases he), fun _ => rfl⟩
  | reducer e =>
    obtain ⟨r, args, rest, rule, g1, g2, g3, g4⟩ := h1 e rfl
    refine ⟨fun e' he => ?_, fun he => (by cases he), fun hall => ?_⟩
    · cases he
      exact ⟨rfl, r, args, rest, rule, g1, g2, g3, g4⟩
    · obtain ⟨rule', v, k1, k2⟩ := hall (r, args) (List.mem_reverse.1 (by rw [g1]; simp))
      rw [g2] at k1
      cases k1
      rw [g3] at k2
      cases k2

/-- Both kinds of error occur with the same rules, and the text alone need not tell them apart. -/
theorem c110_text : MakesParser idSeeds rFail 0 pFail [] ∧
    (∃ c, ParsesTo id pFail [0, 0, 1] (.error (.reducer 7)) c) ∧ (∃ c, ParsesTo id pFail [0, 0] (.error .noRecovery) c) ∧
    (∃ txt : Nat → String, (PErr.reducer 7).text txt = PErr.noRecovery.text txt) ∧
    ∀ (x y : PErr E), x.source = y.source → x = y := by
  refine ⟨⟨gRight_new, _, rfl⟩, ⟨_, 20, rfl⟩, ⟨_, 20, rfl⟩, ⟨fun _ => "recovery rule is not found", rfl⟩, fun x y h => ?_⟩
  cases x <;> cases y <;> simp_all [PErr.source]

end Verif.Par
