import Verif.Par.MachProof
import Verif.Props.ParRun

/-!
# Parsing with error recovery, step by step: C42
-/

namespace Verif.Par

variable {N T E : Type}

/-- The program and the machine are at the same point: both still running or both at the end with the same result, having
made the same calls with the same arguments in the same order and having asked the source equally often, or both have
panicked. -/
def Agree : Step N T E → MOut N T E → Prop
  | .more c, .more m => c.log.reverse = m.calls ∧ c.pulls = m.pulls
  | .done x c, .done x' m => x = x' ∧ c.log.reverse = m.calls ∧ c.pulls = m.pulls
  | .panic, .panic => True
  | _, _ => False

/-- C42: `parse` does, round for round, what the machine of `Verif.Par.Machine` does, whose steps are given by the items
that are valid for the symbols read so far, without tables.  The machine never gets stuck, and whichever way it runs, after
`n` rounds `parse` is where the machine is. -/
theorem c42_machine (o : Seeds) (ho : o.Fair) (rules : List (Rule N T E)) (start : Nat) (hok : (gram rules start).Ok)
    (p : Parser N T E) (ws : List Warning) (hp : MakesParser o rules start p ws) :
    ∃ fresh, ¬ (gram rules start).Used fresh ∧ ∀ (idx : T → Nat) (input : List T) (n : Nat),
      (∃ x, MRun rules ((gram rules start).aug fresh) rules.length start idx input n Mach.init x) ∧
      ∀ x, MRun rules ((gram rules start).aug fresh) rules.length start idx input n Mach.init x →
        Agree (run idx p n (Cfg.init p input)) x := by
  obtain ⟨fresh, hx⟩ := ctx_of_makes ho hok hp
  refine ⟨fresh, hx.unused, ?_⟩
  intro idx input n
  obtain ⟨h1, h2⟩ := (MachSim.init (p := p) (idx := idx) (input := input)).run hx n
  refine ⟨h1, fun x h => ?_⟩
  have := h2 x h
  generalize run idx p n (Cfg.init p input) = r at this
  cases r <;> cases x <;> first | exact ⟨this.calls.symm, this.pulls⟩ | exact this

/-- C42 for whole parses: `parse` returns `x` after the calls `calls` and having asked the source `k` times exactly if the
machine does; it panics exactly if the machine does; it runs for ever exactly if the machine does. -/
theorem c42_outcomes (o : Seeds) (ho : o.Fair) (rules : List (Rule N T E)) (start : Nat) (hok : (gram rules start).Ok)
    (p : Parser N T E) (ws : List Warning) (hp : MakesParser o rules start p ws) :
    ∃ fresh, ¬ (gram rules start).Used fresh ∧ ∀ (idx : T → Nat) (input : List T),
      (∀ x calls k, (∃ c, ParsesTo idx p input x c ∧ c.log.reverse = calls ∧ c.pulls = k) ↔
        ∃ n m, MRun rules ((gram rules start).aug fresh) rules.length start idx input n Mach.init (.done x m) ∧
          m.calls = calls ∧ m.pulls = k) ∧
      (ParsePanics idx p input ↔
        ∃ n, MRun rules ((gram rules start).aug fresh) rules.length start idx input n (Mach.init : Mach N T) .panic) ∧
      (ParseDiverges idx p input ↔
        ∀ n, ∃ m, MRun rules ((gram rules start).aug fresh) rules.length start idx input n (Mach.init : Mach N T) (.more m)) := by
  obtain ⟨fresh, hf, h⟩ := c42_machine o ho rules start hok p ws hp
  refine ⟨fresh, hf, ?_⟩
  intro idx input
  have h1 := fun n => (h idx input n).1
  have h2 := fun n => (h idx input n).2
  refine ⟨?_, ?_, ?_⟩
  · intro x calls k
    constructor
    · rintro ⟨c, ⟨n, hn⟩, rfl, rfl⟩
      obtain ⟨y, hy⟩ := h1 n
      have := h2 n y hy
      rw [hn] at this
      cases y with
      | more m => exact absurd this id
      | panic => exact absurd this id
      | done x' m =>
        obtain ⟨rfl, k1, k2⟩ := this
        exact ⟨n, m, hy, k1.symm, k2.symm⟩
    · rintro ⟨n, m, hm, rfl, rfl⟩
      have := h2 n _ hm
      cases hr : run idx p n (Cfg.init p input) with
      | more c => rw [hr] at this; exact absurd this id
      | panic => rw [hr] at this; exact absurd this id
      | done x' c =>
        rw [hr] at this
        obtain ⟨rfl, k1, k2⟩ := this
        exact ⟨c, ⟨n, hr⟩, k1, k2⟩
  · constructor
    · rintro ⟨n, hn⟩
      obtain ⟨y, hy⟩ := h1 n
      have := h2 n y hy
      rw [hn] at this
      cases y with
      | more m => exact absurd this id
      | panic => exact ⟨n, hy⟩
      | done x' m => exact absurd this id
    · rintro ⟨n, hm⟩
      have := h2 n _ hm
      cases hr : run idx p n (Cfg.init p input) with
      | more c => rw [hr] at this; exact absurd this id
      | panic => exact ⟨n, hr⟩
      | done x' c => rw [hr] at this; exact absurd this id
  · constructor
    · intro hd n
      obtain ⟨c, hn⟩ := hd n
      obtain ⟨y, hy⟩ := h1 n
      have := h2 n y hy
      rw [hn] at this
      cases y with
      | more m => exact ⟨m, hy⟩
      | panic => exact absurd this id
      | done x' m => exact absurd this id
    · intro hd n
      obtain ⟨m, hm⟩ := hd n
      have := h2 n _ hm
      cases hr : run idx p n (Cfg.init p input) with
      | more c => exact ⟨c, rfl⟩
      | panic => rw [hr] at this; exact absurd this id
      | done x' c => rw [hr] at this; exact absurd this id

/-! ## Examples -/

/-- `L → L I | I; I → a ; | error ;` -/
def gList : Gram := ⟨[⟨0, [.nt 0, .nt 1]⟩, ⟨0, [.nt 1]⟩, ⟨1, [.tm (.sym 0), .tm (.sym 1)]⟩, ⟨1, [.tm .err, .tm (.sym 1)]⟩], 0⟩

def pList : Parser Nat Nat Nat :=
  ⟨plainRules gList ++ [⟨2, [.nt 0], fun _ => .error 0⟩],
   { action := [(0, [(.sym 0, .shift 3), (.err, .shift 4)]), (1, [(.sym 0, .shift 3), (.err, .shift 4), (.eoi, .accept)]),
       (2, [(.sym 0, .reduce 1), (.err, .reduce 1), (.eoi, .reduce 1)]), (3, [(.sym 1, .shift 6)]), (4, [(.sym 1, .shift 7)]),
       (5, [(.sym 0, .reduce 0), (.err, .reduce 0), (.eoi, .reduce 0)]), (6, [(.sym 0, .reduce 2), (.err, .reduce 2), (.eoi, .reduce 2)]),
       (7, [(.sym 0, .reduce 3), (.err, .reduce 3), (.eoi, .reduce 3)])]
     goto := [(0, [(0, 1), (1, 2)]), (1, [(1, 5)])]
     errors := [(0, [3, 3, 3]), (1, [3, 3, 3])]
     start := 0 }⟩

theorem pList_makes : MakesParser idSeeds (plainRules gList) 0 pList [] := ⟨⟨30, by decide, by simp⟩, _, rfl⟩

/-- Two recoveries: `b b ; a a ; a ;` has the error slices `b b` and `a a`.  Each is built up from several error symbols. -/
theorem c42_two_errors : ∃ c, ParsesTo id pList [2, 2, 1, 0, 0, 1, 0, 1] (.ok 2) c ∧ c.log.reverse =
    [(3, [.err [2, 2], .tok 1]), (1, [.nt 2]), (3, [.err [0, 0], .tok 1]), (0, [.nt 1, .nt 2]), (2, [.tok 0, .tok 1]), (0, [.nt 2, .nt 2])] :=
  ⟨_, ⟨40, rfl⟩, rfl⟩

/-- So the machine has a run with that result and these calls. -/
example : ∃ fresh n m, MRun (plainRules gList) ((gram (plainRules gList) 0).aug fresh) 4 0 id [2, 2, 1, 0, 0, 1, 0, 1] n Mach.init (.done (.ok 2) m) ∧
    m.calls = [(3, [.err [2, 2], .tok 1]), (1, [.nt 2]), (3, [.err [0, 0], .tok 1]), (0, [.nt 1, .nt 2]), (2, [.tok 0, .tok 1]),
      (0, [.nt 2, .nt 2])] ∧ m.pulls = 9 := by
  obtain ⟨fresh, _, h⟩ := c42_outcomes idSeeds idSeeds_fair (plainRules gList) 0 (by decide) pList [] pList_makes
  obtain ⟨c, h1, h2⟩ := c42_two_errors
  obtain ⟨n, m, h3⟩ := ((h id [2, 2, 1, 0, 0, 1, 0, 1]).1 _ _ 9).1 ⟨_, ⟨40, rfl⟩, rfl, rfl⟩
  exact ⟨fresh, n, m, h3⟩

/-- A correct item can get lost: behind `a ;` the next token decides the reduction, so on `a ; b ;` the correct `a ;` becomes
part of the error. -/
theorem c42_correct_item_lost : ∃ c, ParsesTo id pList [0, 1, 2, 1] (.ok 1) c ∧
    c.log.reverse = [(3, [.err [0, 1, 2], .tok 1]), (1, [.nt 2])] := ⟨_, ⟨40, rfl⟩, rfl⟩

end Verif.Par
