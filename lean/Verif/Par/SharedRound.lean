import Verif.Par.SharedProof

/-!
# Source and callbacks that share a world: one round (continued)
-/

namespace Verif.Par

variable {S N T E : Type}

section
variable {p : EParser S N T E} {idx : T → Nat} {nxt : Source S T} {rules : List (ERule S N T E)} {start fresh : Nat}

/-- The item that has been asked for in advance. -/
def lookOf (c : Cfg N T) : Option T :=
  match c.buffer with
  | (.sym _, i) :: _ => c.read[i]?
  | _ => none

/-- Where the parse is as soon as it has looked at the next item. -/
def aheadX (idx : T → Nat) (nxt : Source S T) (w : List Nat) (c : Cfg N T) (s : S) : Option (Mid S T) :=
  match c.buffer with
  | [] => draw idx nxt s (w.drop c.read.length)
  | _ :: _ => some ⟨s, lookOf c, w.drop c.read.length⟩

theorem pull_front (c : Cfg N T) (s : S) : (pull idx nxt c s).1.buffer ≠ [] := by
  unfold pull
  split
  · rename_i h; rw [h]; simp
  · split <;> simp

theorem pull_same (c : Cfg N T) (s : S) : (pull idx nxt c s).1.stack = c.stack ∧ (pull idx nxt c s).1.state = c.state ∧
    (pull idx nxt c s).1.log = c.log ∧ c.read <+: (pull idx nxt c s).1.read := by
  unfold pull
  split
  · exact ⟨rfl, rfl, rfl, List.prefix_rfl⟩
  · split
    · exact ⟨rfl, rfl, rfl, by simp⟩
    · exact ⟨rfl, rfl, rfl, List.prefix_rfl⟩

theorem fill_eq {c : Cfg N T} (h : c.buffer ≠ []) : fill idx c = c := by
  unfold fill
  split
  · rfl
  · rename_i h'; exact absurd h' h

theorem ahead_fill {w : List Nat} {c : Cfg N T} {s : S} {m : Mid S T} (h : aheadX idx nxt w c s = some m) :
    fill id (seenAs idx w c) = seenAs idx w (pull idx nxt c s).1 ∧ (pull idx nxt c s).2 = m.world ∧
    lookOf (pull idx nxt c s).1 = m.look ∧ m.rest = w.drop (pull idx nxt c s).1.read.length := by
  obtain ⟨state, read, src, buffer, stack, recov, log, pulls⟩ := c
  cases buffer with
  | cons b buffer =>
    simp only [aheadX, Option.some.injEq] at h
    subst h
    refine ⟨rfl, rfl, rfl, rfl⟩
  | nil =>
    simp only [aheadX, draw] at h
    split at h
    · rename_i hd
      simp only [Option.some.injEq] at h
      subst h
      cases hn : nxt s with
      | mk a s' =>
        rw [hn] at hd
        simp only at hd
        cases hw : w.drop read.length with
        | nil =>
          rw [hw] at hd
          cases a with
          | some t => simp at hd
          | none =>
            refine ⟨?_, ?_, ?_, ?_⟩
            · simp [pull, hn, seenAs, Cfg.map, Cfg.withSrc, hw, fill, mapSt]
            · simp [pull, hn]
            · simp [pull, hn, lookOf]
            · simp [pull, hn, hw]
        | cons k w' =>
          rw [hw] at hd
          cases a with
          | none => simp at hd
          | some t =>
            simp at hd
            have hw' : w.drop (read.length + 1) = w' := by
              rw [← List.drop_drop, hw]; rfl
            refine ⟨?_, ?_, ?_, ?_⟩
            · simp [pull, hn, seenAs, Cfg.map, Cfg.withSrc, hw, fill, mapSt, hw', hd]
            · simp [pull, hn]
            · simp [pull, hn, lookOf]
            · simp [pull, hn, hw']
    · cases h

/-- What the parser without effects does in a round with effects. -/
def EStep.Pl (idx : T → Nat) (rest : List Nat) : EStep S N T E → Step Unit Nat Unit → Prop
  | .more c _, x => x = .more ((c.map (fun _ => ()) idx).withSrc rest)
  | .done (.ok _) c _, x => x = .done (.ok ()) ((c.map (fun _ => ()) idx).withSrc rest)
  | .done (.error .noRecovery) c _, x => x = .done (.error .noRecovery) ((c.map (fun _ => ()) idx).withSrc rest)
  | .done (.error (.reducer _)) _ _, x => x = .panic ∨ ∃ d, x = .more d
  | .unwind _ _, x => x = .panic ∨ ∃ d, x = .more d
  | .panic, x => x = .panic

theorem map_unit (c : Cfg N T) (idx : T → Nat) : (c.map (fun _ => ()) id).map (fun _ => ()) idx = c.map (fun _ => ()) idx := by
  obtain ⟨state, read, src, buffer, stack, recov, log, pulls⟩ := c
  simp only [Cfg.map, mapSt, List.map_map, Cfg.mk.injEq, true_and, and_true]
  refine ⟨by simp, by simp, ?_, ?_⟩
  · apply List.map_congr_left
    rintro ⟨q, y⟩ _
    cases y <;> rfl
  · apply List.map_congr_left
    rintro ⟨r, l⟩ _
    simp only [Function.comp_apply, List.map_map, Prod.mk.injEq, true_and]
    apply List.map_congr_left
    intro y _
    cases y <;> simp [Arg.map]

theorem stepE_pl (c : Cfg N T) (hb : c.buffer ≠ []) (s : S) (w : List Nat) :
    (stepE idx p c s).Pl idx (w.drop c.read.length) (step id (plainE p) (seenAs idx w c)) := by
  have h1 := stepE_mimP (idx := idx) (unitE_mim p) c s
  have h2 := step_map (idx := idx) (idx' := id) (τ := idx) (fun _ => rfl) (unitE_plainE p idx) (c.map (fun _ => ()) id)
  rw [map_unit] at h2
  have h3 : step id (plainE p) (seenAs idx w c) = (step id (plainE p) (c.map (fun _ => ()) idx)).withSrc (w.drop c.read.length) := by
    have hn : (c.map (fun _ => ()) idx).next = 0 := by
      unfold Cfg.next
      rw [if_neg]
      rw [List.isEmpty_iff]
      exact hb
    have := (step_src (idx := id) (p := plainE p) (c.map (fun _ => ()) idx) (w.drop c.read.length) (by rw [hn]; rfl)).1
    rw [hn] at this
    exact this
  rw [h3]
  cases hz : stepE idx p c s with
  | more c' s' =>
    rw [hz] at h1
    simp only [EStep.MimP] at h1
    rw [h1] at h2
    simp only [Step.Mim] at h2
    rw [h2, map_unit]
    rfl
  | panic =>
    rw [hz] at h1
    simp only [EStep.MimP] at h1
    rw [h1] at h2
    simp only [Step.Mim] at h2
    rw [h2]
    rfl
  | unwind c' s' =>
    rw [hz] at h1
    simp only [EStep.MimP] at h1
    rcases h1 with h1 | ⟨d, h1, _⟩
    · rw [h1] at h2
      simp only [Step.Mim] at h2
      rw [h2]
      exact Or.inl rfl
    · rw [h1] at h2
      simp only [Step.Mim] at h2
      rw [h2]
      exact Or.inr ⟨_, rfl⟩
  | done x c' s' =>
    cases x with
    | ok v =>
      rw [hz] at h1
      simp only [EStep.MimP] at h1
      rw [h1] at h2
      simp only [Step.Mim] at h2
      rw [h2, map_unit]
      rfl
    | error e =>
      cases e with
      | noRecovery =>
        rw [hz] at h1
        simp only [EStep.MimP] at h1
        rw [h1] at h2
        simp only [Step.Mim] at h2
        rw [h2, map_unit]
        rfl
      | reducer e =>
        rw [hz] at h1
        simp only [EStep.MimP] at h1
        rcases h1 with h1 | ⟨d, h1, _⟩
        · rw [h1] at h2
          simp only [Step.Mim] at h2
          rw [h2]
          exact Or.inl rfl
        · rw [h1] at h2
          simp only [Step.Mim] at h2
          rw [h2]
          exact Or.inr ⟨_, rfl⟩

theorem act_row {tab : Tables} {q : Nat} {a : Term} {x : Action Nat} (h : tab.act q a = some x) :
    ∃ row, get q tab.action = some row ∧ get a row = some x := by
  unfold Tables.act at h
  cases hr : get q tab.action with
  | none => rw [hr] at h; cases h
  | some row => rw [hr] at h; exact ⟨row, rfl, h⟩

theorem stepE_shift {c : Cfg N T} {s : S} {k i q : Nat} {buffer} (hb : c.buffer = (.sym k, i) :: buffer)
    (ha : p.tab.act c.state (.sym k) = some (.shift q)) :
    stepE idx p c s = .more { c with state := q, stack := (c.state, .tok k i) :: c.stack, buffer := buffer } s := by
  obtain ⟨row, h1, h2⟩ := act_row ha
  unfold stepE
  rw [fill_eq (by rw [hb]; simp)]
  simp only [hb, h1, h2]

theorem stepE_reduce {c : Cfg N T} {s : S} {a : Term} {i r : Nat} {buffer} (hb : c.buffer = (a, i) :: buffer)
    (ha : p.tab.act c.state a = some (.reduce r)) : stepE idx p c s = onReduceE p c s r := by
  obtain ⟨row, h1, h2⟩ := act_row ha
  unfold stepE
  rw [fill_eq (by rw [hb]; simp)]
  simp only [hb, h1, h2]

theorem stepE_accept {c : Cfg N T} {s : S} {a : Term} {i : Nat} {buffer} (hb : c.buffer = (a, i) :: buffer)
    (ha : p.tab.act c.state a = some .accept) {q v k} {st : List (Nat × SSym N)} (hs : c.stack = (q, .nt v k) :: st) :
    stepE idx p c s = .done (.ok v) c s := by
  obtain ⟨row, h1, h2⟩ := act_row ha
  unfold stepE
  rw [fill_eq (by rw [hb]; simp)]
  simp only [hb, h1, h2, hs]

/-- A syntax error leaves the world, what has been read and the number of calls of the source. -/
theorem stepE_noRecovery {c c' : Cfg N T} {s s' : S} (hb : c.buffer ≠ []) (h : stepE idx p c s = .done (.error .noRecovery) c' s') :
    s' = s ∧ c'.read = c.read ∧ c'.pulls = c.pulls := by
  have hv := stepE_view (idx := idx) (p := p) c s
  rw [fill_eq hb, h] at hv
  generalize hz : (EStep.done (.error .noRecovery) c' s' : EStep S N T E) = z at hv
  cases hv with
  | tok => cases hz
  | eoi => cases hz
  | panic => cases hz
  | accept => cases hz
  | error a i =>
    rcases onError_view (idx := idx) (p := (⟨[], p.tab⟩ : Parser N T E)) (c := c) (a := a) (i := i)
      with h' | h' | ⟨q, state, lo, hi, stack, buffer, recov, h', _⟩ <;> (rw [h'] at hz; cases hz)
    exact ⟨rfl, rfl, rfl⟩
  | reduce r =>
    have hv := onReduceE_view (p := p) c s r
    rw [← hz] at hv
    generalize hz : (EStep.done (.error .noRecovery) c' s' : EStep S N T E) = z at hv
    cases hv with
    | panic => cases hz
    | call rule args x k1 k2 k3 k4 =>
      cases hact : rule.act s args with
      | panic s' => rw [hact] at k4; simp only at k4; rw [k4] at hz; cases hz
      | error e s' => rw [hact] at k4; simp only at k4; rw [k4] at hz; cases hz
      | ok v s' =>
        rw [hact] at k4
        rcases k4 with k4 | ⟨q, q0, i, rec, k4⟩ <;> (rw [k4] at hz; cases hz)

end

end Verif.Par
