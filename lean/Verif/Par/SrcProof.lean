import Verif.Par.Parse

/-!
# The loop depends only on the part of the source it has pulled
-/

namespace Verif.Par

variable {N T E : Type} {idx : T → Nat} {p : Parser N T E}

def Cfg.withSrc (c : Cfg N T) (s : List T) : Cfg N T := { c with src := s }

def Step.withSrc (x : Step N T E) (s : List T) : Step N T E :=
  match x with
  | .more c => .more (c.withSrc s)
  | .done r c => .done r (c.withSrc s)
  | .panic => .panic

/-- The configuration of an outcome satisfies `P`. -/
def Step.All (P : Cfg N T → Prop) : Step N T E → Prop
  | .more c => P c
  | .done _ c => P c
  | .panic => True

/-- Number of pulls in the next round. -/
def Cfg.next (c : Cfg N T) : Nat := if c.buffer.isEmpty then 1 else 0

theorem fill_src (c : Cfg N T) (s : List T) (h : s.take c.next = c.src.take c.next) :
    fill idx (c.withSrc s) = (fill idx c).withSrc (s.drop c.next) ∧ (fill idx c).src = c.src.drop c.next ∧
      (fill idx c).pulls = c.pulls + c.next := by
  unfold Cfg.next at h ⊢
  obtain ⟨state, read, src, buffer, stack, recov, log, pulls⟩ := c
  cases buffer with
  | cons b buffer => simp [fill, Cfg.withSrc]
  | nil =>
    cases src with
    | nil =>
      cases s with
      | nil => simp [fill, Cfg.withSrc]
      | cons t s => simp at h
    | cons t src =>
      cases s with
      | nil => simp at h
      | cons t' s =>
        simp at h
        subst h
        simp [fill, Cfg.withSrc]

theorem onReduce_src (c : Cfg N T) (r : Nat) (s : List T) :
    onReduce p (c.withSrc s) r = (onReduce p c r).withSrc s ∧
    (onReduce p c r).All (fun c' => c'.src = c.src ∧ c'.pulls = c.pulls) := by
  unfold onReduce Cfg.withSrc
  simp only
  split
  · exact ⟨rfl, trivial⟩
  · split
    · exact ⟨rfl, trivial⟩
    · split
      · exact ⟨rfl, trivial⟩
      · split
        · exact ⟨rfl, rfl, rfl⟩
        · split
          · exact ⟨rfl, trivial⟩
          · exact ⟨rfl, rfl, rfl⟩

theorem onError_src (c : Cfg N T) (a : Term) (i : Nat) (s : List T) :
    onError idx p (c.withSrc s) a i = (onError idx p c a i).withSrc s ∧
    (onError idx p c a i).All (fun c' => c'.src = c.src ∧ c'.pulls = c.pulls) := by
  unfold onError Cfg.withSrc
  simp only
  split
  · exact ⟨rfl, rfl, rfl⟩
  · split
    · exact ⟨rfl, trivial⟩
    · split
      · exact ⟨rfl, trivial⟩
      · split
        · exact ⟨rfl, rfl, rfl⟩
        · exact ⟨rfl, trivial⟩

theorem step_src (c : Cfg N T) (s : List T) (h : s.take c.next = c.src.take c.next) :
    step idx p (c.withSrc s) = (step idx p c).withSrc (s.drop c.next) ∧
    (step idx p c).All (fun c' => c'.src = c.src.drop c.next ∧ c'.pulls = c.pulls + c.next) := by
  obtain ⟨h1, h2, h3⟩ := fill_src (idx := idx) c s h
  unfold step
  rw [h1, ← h2, ← h3]
  generalize fill idx c = d
  generalize s.drop c.next = s'
  simp only
  have e1 : (d.withSrc s').buffer = d.buffer := rfl
  have e2 : (d.withSrc s').state = d.state := rfl
  have e3 : (d.withSrc s').stack = d.stack := rfl
  rw [e1, e2, e3]
  split
  · exact ⟨rfl, trivial⟩
  · split
    · exact ⟨rfl, trivial⟩
    · split
      · split
        · exact ⟨rfl, rfl, rfl⟩
        · exact ⟨rfl, trivial⟩
        · exact ⟨rfl, rfl, rfl⟩
      · exact onReduce_src d _ s'
      · split
        · exact ⟨rfl, rfl, rfl⟩
        · exact ⟨rfl, trivial⟩
      · exact onError_src d _ _ s'

theorem take_add_eq {α : Type} {a b : List α} {m n : Nat} (h : a.take (m + n) = b.take (m + n)) :
    a.take m = b.take m ∧ (a.drop m).take n = (b.drop m).take n := by
  constructor
  · have := congrArg (List.take m) h
    simpa [List.take_take] using this
  · rw [← List.take_drop_aux, ← List.take_drop_aux, h]
where
  List.take_drop_aux {a : List α} {m n : Nat} : (a.take (m + n)).drop m = (a.drop m).take n := by
    rw [List.drop_take]
    simp

/-- The configuration of the outcome of a run. -/
def Step.cfg? : Step N T E → Option (Cfg N T)
  | .more c => some c
  | .done _ c => some c
  | .panic => none

theorem run_src (n : Nat) (c c' : Cfg N T) (s : List T) (h : (run idx p n c).cfg? = some c') :
    ∃ k, c'.pulls = c.pulls + k ∧ c'.src = c.src.drop k ∧
      (s.take k = c.src.take k → run idx p n (c.withSrc s) = (run idx p n c).withSrc (s.drop k)) := by
  induction n generalizing c s with
  | zero =>
    cases h
    exact ⟨0, rfl, rfl, fun _ => rfl⟩
  | succ n ih =>
    simp only [run] at h ⊢
    have hs := fun s => step_src (idx := idx) (p := p) c s
    have hall := (hs c.src rfl).2
    cases hstep : step idx p c with
    | panic => rw [hstep] at h; cases h
    | done r c1 =>
      rw [hstep] at h hall
      cases h
      refine ⟨c.next, hall.2, hall.1, ?_⟩
      intro ht
      rw [(hs s ht).1, hstep]
      rfl
    | more c1 =>
      rw [hstep] at h hall
      obtain ⟨k, h1, h2, h3⟩ := ih c1 (s.drop c.next) h
      refine ⟨c.next + k, by rw [h1, hall.2]; omega, by rw [h2, hall.1, List.drop_drop], ?_⟩
      intro ht
      obtain ⟨ht1, ht2⟩ := take_add_eq ht
      rw [(hs s ht1).1, hstep]
      simp only [Step.withSrc]
      rw [h3 (by rw [hall.1]; exact ht2), List.drop_drop]
      rfl

/-- The configuration after some rounds does not change if the outcome is final. -/
theorem run_add (m n : Nat) (c : Cfg N T) : run idx p (m + n) c =
    match run idx p m c with
    | .more c' => run idx p n c'
    | r => r := by
  induction m generalizing c with
  | zero => simp [run]
  | succ m ih =>
    rw [Nat.succ_add]
    simp only [run]
    cases step idx p c with
    | more c' => exact ih c'
    | done r c' => rfl
    | panic => rfl

end Verif.Par
