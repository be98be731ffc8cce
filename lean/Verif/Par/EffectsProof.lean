import Verif.Par.Effects
import Verif.Par.AbsProof

/-!
# Callbacks with effects: the course of the parse does not depend on them
-/

namespace Verif.Par

variable {S N T E N' E' : Type}

def Did.map {A B : Type} (φ : A → B) : Did S A E → Did S B E
  | .ok a s => .ok (φ a) s
  | .error e s => .error e s
  | .panic s => .panic s

def EStep.map (φ : N → N') : EStep S N T E → EStep S N' T E
  | .more c s => .more (c.map φ id) s
  | .done (.ok v) c s => .done (.ok (φ v)) (c.map φ id) s
  | .done (.error e) c s => .done (.error e) (c.map φ id) s
  | .unwind c s => .unwind (c.map φ id) s
  | .panic => .panic

/-- The rules of `p'` are those of `p` with other values. -/
structure MimE (φ : N → N') (p : EParser S N T E) (p' : EParser S N' T E) : Prop where
  tab : p'.tab = p.tab
  missing : ∀ r : Nat, p.rules[r]? = none → p'.rules[r]? = none
  found : ∀ (r : Nat) rule, p.rules[r]? = some rule → ∃ rule', p'.rules[r]? = some rule' ∧ rule'.lhs = rule.lhs ∧ rule'.rhs = rule.rhs ∧
    ∀ s args, rule'.act s (args.map (Arg.map φ id)) = (rule.act s args).map φ

/-- The rules of `q` are those of `p` with other values and callbacks that have no effects and never fail. -/
structure MimP (φ : N → N') (p : EParser S N T E) (q : Parser N' T E') : Prop where
  tab : q.tab = p.tab
  missing : ∀ r : Nat, p.rules[r]? = none → q.rules[r]? = none
  found : ∀ (r : Nat) rule, p.rules[r]? = some rule → ∃ rule', q.rules[r]? = some rule' ∧ rule'.lhs = rule.lhs ∧ rule'.rhs = rule.rhs ∧
    (∀ args, ∃ v, rule'.gen args = .ok v) ∧
    ∀ s args v s', rule.act s args = .ok v s' → rule'.gen (args.map (Arg.map φ id)) = .ok (φ v)

/-- `x` does the same as the round with effects, which may also fail in a callback. -/
def EStep.MimP (φ : N → N') : EStep S N T E → Step N' T E' → Prop
  | .more c _, x => x = .more (c.map φ id)
  | .done (.ok v) c _, x => x = .done (.ok (φ v)) (c.map φ id)
  | .done (.error .noRecovery) c _, x => x = .done (.error .noRecovery) (c.map φ id)
  | .done (.error (.reducer _)) c _, x => x = .panic ∨ ∃ d, x = .more d ∧ d.log = (c.map φ id).log ∧ d.pulls = c.pulls
  | .unwind c _, x => x = .panic ∨ ∃ d, x = .more d ∧ d.log = (c.map φ id).log ∧ d.pulls = c.pulls
  | .panic, x => x = .panic

section
variable {φ : N → N'} {p : EParser S N T E} {p' : EParser S N' T E} {q : Parser N' T E'} {idx : T → Nat}

theorem mimics_nil (φ : N → N') (tab : Tables) : Mimics φ (id : T → T) (⟨[], tab⟩ : Parser N T E) (⟨[], tab⟩ : Parser N' T E') where
  tab := rfl
  missing _ _ := rfl
  found r rule h := by simp at h

theorem onError_no_call {p : Parser N T E} {c : Cfg N T} {a : Term} {i : Nat} {e : E} {c' : Cfg N T} :
    onError idx p c a i ≠ .done (.error (.reducer e)) c' := by
  intro h
  unfold onError at h
  repeat' split at h
  all_goals cases h

theorem onError_still (φ : N → N') (tab : Tables) (c : Cfg N T) (s : S) (a : Term) (i : Nat) :
    (onError idx (⟨[], tab⟩ : Parser N' T E) (c.map φ id) a i).still s =
      ((onError idx (⟨[], tab⟩ : Parser N T E) c a i).still s).map φ := by
  have h := onError_map (idx := idx) (idx' := idx) (τ := id) (fun _ => rfl) (mimics_nil (E := E) (E' := E) (T := T) φ tab) c a i
  cases hx : onError idx (⟨[], tab⟩ : Parser N T E) c a i with
  | more c' => rw [hx] at h; simp only [Step.Mim] at h; rw [h]; rfl
  | panic => rw [hx] at h; simp only [Step.Mim] at h; rw [h]; rfl
  | done r c' =>
    cases r with
    | ok v => rw [hx] at h; simp only [Step.Mim] at h; rw [h]; rfl
    | error e =>
      cases e with
      | noRecovery => rw [hx] at h; simp only [Step.Mim] at h; rw [h]; rfl
      | reducer e => exact absurd hx onError_no_call

theorem onError_mimP (φ : N → N') (q : Parser N' T E') (c : Cfg N T) (s : S) (a : Term) (i : Nat) :
    ((onError idx (⟨[], q.tab⟩ : Parser N T E) c a i).still s).MimP φ (onError idx q (c.map φ id) a i) := by
  have h := onError_map (idx := idx) (idx' := idx) (τ := id) (fun _ => rfl) (mimics_nil (E := E) (E' := E') (T := T) φ q.tab) c a i
  have e : onError idx q (c.map φ id) a i = onError idx ⟨[], q.tab⟩ (c.map φ id) a i := rfl
  rw [e]
  cases hx : onError idx (⟨[], q.tab⟩ : Parser N T E) c a i with
  | more c' => rw [hx] at h; exact h
  | panic => rw [hx] at h; exact h
  | done r c' =>
    cases r with
    | ok v => rw [hx] at h; exact h
    | error e =>
      cases e with
      | noRecovery => rw [hx] at h; exact h
      | reducer e => exact absurd hx onError_no_call

theorem onReduceE_map (hm : MimE φ p p') (c : Cfg N T) (s : S) (r : Nat) :
    onReduceE p' (c.map φ id) s r = (onReduceE p c s r).map φ := by
  unfold onReduceE
  cases hr : p.rules[r]? with
  | none => simp [hm.missing r hr, EStep.map]
  | some rule =>
    obtain ⟨rule', h1, h2, h3, h4⟩ := hm.found r rule hr
    have e1 : (c.map φ id).stack = mapSt φ c.stack := rfl
    have e2 : ((mapSt φ c.stack).take rule.rhs.length).reverse = mapSt φ (c.stack.take rule.rhs.length).reverse := by
      simp [mapSt, List.map_take]
    have e3 : ∀ l : List (Nat × SSym N), (mapSt φ l).map Prod.snd = (l.map Prod.snd).map (SSym.map φ) := by
      intro l; simp [mapSt]
    have e4 : ∀ l : List (Nat × SSym N), (mapSt φ l).head?.map Prod.fst = l.head?.map Prod.fst := by
      intro l; cases l <;> rfl
    have e5 : (mapSt φ c.stack).drop rule.rhs.length = mapSt φ (c.stack.drop rule.rhs.length) := by
      simp [mapSt, List.map_drop]
    have e6 : (mapSt φ c.stack).length = c.stack.length := by simp [mapSt]
    simp only [h1, h2, h3, e1, e2, e3, e4, e5, e6]
    split
    · rfl
    · have e7 : (c.map φ id).read = c.read.map id := rfl
      rw [e7, mkArgs_map]
      cases mkArgs c.read 0 ((c.stack.take rule.rhs.length).reverse.map Prod.snd) with
      | none => rfl
      | some args =>
        simp only [Option.map_some, h4]
        cases hg : rule.act s args with
        | error e s' => rfl
        | panic s' => rfl
        | ok v s' =>
          simp only [hm.tab, Did.map]
          have e8 : (c.map φ id).state = c.state := rfl
          rw [e8]
          cases (get _ p.tab.goto).bind (get rule.lhs) with
          | none => rfl
          | some q =>
            simp only [firstIndex_map]
            simp [EStep.map, Cfg.map, mapSt, SSym.map]

theorem onReduceE_mimP (hm : MimP φ p q) (c : Cfg N T) (s : S) (r : Nat) :
    (onReduceE p c s r).MimP φ (onReduce q (c.map φ id) r) := by
  unfold onReduceE onReduce
  cases hr : p.rules[r]? with
  | none => simp [hm.missing r hr, EStep.MimP]
  | some rule =>
    obtain ⟨rule', h1, h2, h3, h5, h4⟩ := hm.found r rule hr
    have e1 : (c.map φ id).stack = mapSt φ c.stack := rfl
    have e2 : ((mapSt φ c.stack).take rule.rhs.length).reverse = mapSt φ (c.stack.take rule.rhs.length).reverse := by
      simp [mapSt, List.map_take]
    have e3 : ∀ l : List (Nat × SSym N), (mapSt φ l).map Prod.snd = (l.map Prod.snd).map (SSym.map φ) := by
      intro l; simp [mapSt]
    have e4 : ∀ l : List (Nat × SSym N), (mapSt φ l).head?.map Prod.fst = l.head?.map Prod.fst := by
      intro l; cases l <;> rfl
    have e5 : (mapSt φ c.stack).drop rule.rhs.length = mapSt φ (c.stack.drop rule.rhs.length) := by
      simp [mapSt, List.map_drop]
    have e6 : (mapSt φ c.stack).length = c.stack.length := by simp [mapSt]
    simp only [h1, h2, h3, e1, e2, e3, e4, e5, e6]
    split
    · rfl
    · have e7 : (c.map φ id).read = c.read.map id := rfl
      rw [e7, mkArgs_map]
      cases mkArgs c.read 0 ((c.stack.take rule.rhs.length).reverse.map Prod.snd) with
      | none => rfl
      | some args =>
        simp only [Option.map_some]
        have e8 : (c.map φ id).state = c.state := rfl
        rw [e8]
        cases hg : rule.act s args with
        | ok v s' =>
          simp only [h4 s args v s' hg, hm.tab]
          cases (get _ p.tab.goto).bind (get rule.lhs) with
          | none => rfl
          | some q =>
            simp only [firstIndex_map]
            simp [EStep.MimP, Cfg.map, mapSt, SSym.map]
        | error e s' =>
          obtain ⟨v, hv⟩ := h5 (args.map (Arg.map φ id))
          simp only [hv, EStep.MimP]
          cases (get _ q.tab.goto).bind (get rule.lhs) with
          | none => exact Or.inl rfl
          | some q => exact Or.inr ⟨_, rfl, rfl, rfl⟩
        | panic s' =>
          obtain ⟨v, hv⟩ := h5 (args.map (Arg.map φ id))
          simp only [hv, EStep.MimP]
          cases (get _ q.tab.goto).bind (get rule.lhs) with
          | none => exact Or.inl rfl
          | some q => exact Or.inr ⟨_, rfl, rfl, rfl⟩

theorem stepE_map (hm : MimE φ p p') (c : Cfg N T) (s : S) : stepE idx p' (c.map φ id) s = (stepE idx p c s).map φ := by
  unfold stepE
  rw [fill_map (idx := idx) (idx' := idx) (τ := id) (fun t => rfl)]
  generalize fill idx c = d
  have e1 : (d.map φ id).buffer = d.buffer := rfl
  have e2 : (d.map φ id).state = d.state := rfl
  have e3 : (d.map φ id).stack = mapSt φ d.stack := rfl
  simp only [e1, e2, e3, hm.tab]
  cases hb : d.buffer with
  | nil => rfl
  | cons ai buffer =>
    obtain ⟨a, i⟩ := ai
    simp only
    cases get d.state p.tab.action with
    | none => rfl
    | some acts =>
      simp only
      cases get a acts with
      | none => exact onError_still φ p.tab d s a i
      | some act =>
        cases act with
        | shift s => cases a <;> rfl
        | reduce r => exact onReduceE_map hm d s r
        | accept =>
          simp only
          cases d.stack with
          | nil => rfl
          | cons sy st =>
            obtain ⟨s, y⟩ := sy
            cases y <;> rfl

theorem stepE_mimP (hm : MimP φ p q) (c : Cfg N T) (s : S) : (stepE idx p c s).MimP φ (step idx q (c.map φ id)) := by
  unfold stepE step
  rw [fill_map (idx := idx) (idx' := idx) (τ := id) (fun t => rfl)]
  generalize fill idx c = d
  have e1 : (d.map φ id).buffer = d.buffer := rfl
  have e2 : (d.map φ id).state = d.state := rfl
  have e3 : (d.map φ id).stack = mapSt φ d.stack := rfl
  have ht := hm.tab
  simp only [e1, e2, e3, ← ht]
  cases hb : d.buffer with
  | nil => rfl
  | cons ai buffer =>
    obtain ⟨a, i⟩ := ai
    simp only
    cases get d.state q.tab.action with
    | none => rfl
    | some acts =>
      simp only
      cases get a acts with
      | none => exact onError_mimP φ q d s a i
      | some act =>
        cases act with
        | shift s => cases a <;> rfl
        | reduce r => exact onReduceE_mimP hm d s r
        | accept =>
          simp only
          cases d.stack with
          | nil => rfl
          | cons sy st =>
            obtain ⟨s, y⟩ := sy
            cases y <;> rfl

theorem runE_map (hm : MimE φ p p') (n : Nat) (c : Cfg N T) (s : S) :
    runE idx p' n (c.map φ id) s = (runE idx p n c s).map φ := by
  induction n generalizing c s with
  | zero => rfl
  | succ n ih =>
    simp only [runE, stepE_map hm]
    cases hs : stepE idx p c s with
    | more c' s' => exact ih c' s'
    | panic => rfl
    | unwind c' s' => rfl
    | done r c' s' => cases r <;> rfl

/-- A parse with effects is a parse without, until a callback fails. -/
theorem runE_mimP (hm : MimP φ p q) (n : Nat) (c : Cfg N T) (s : S) :
    (∃ c' s', runE idx p n c s = .more c' s' ∧ run idx q n (c.map φ id) = .more (c'.map φ id)) ∨
    (∃ m, m < n ∧ ∃ c' s', runE idx p m c s = .more c' s' ∧ run idx q m (c.map φ id) = .more (c'.map φ id) ∧
      runE idx p n c s = stepE idx p c' s' ∧ (runE idx p n c s).MimP φ (step idx q (c'.map φ id)) ∧ ∀ c2 s2, runE idx p n c s ≠ .more c2 s2) := by
  induction n generalizing c s with
  | zero => exact Or.inl ⟨c, s, rfl, rfl⟩
  | succ n ih =>
    have h := stepE_mimP (idx := idx) hm c s
    cases hs : stepE idx p c s with
    | more c' s' =>
      rw [hs] at h
      simp only [EStep.MimP] at h
      rcases ih c' s' with ⟨c2, s2, h1, h2⟩ | ⟨m, h0, c2, s2, h1, h2, h3, h4, h5⟩
      · refine Or.inl ⟨c2, s2, ?_, ?_⟩
        · simp only [runE, hs]; exact h1
        · simp only [run, h]; exact h2
      · refine Or.inr ⟨m + 1, by omega, c2, s2, ?_, ?_, ?_, ?_, ?_⟩
        · simp only [runE, hs]; exact h1
        · simp only [run, h]; exact h2
        · simp only [runE, hs]; exact h3
        · simp only [runE, hs]; exact h4
        · simp only [runE, hs]; exact h5
    | panic => exact Or.inr ⟨0, by omega, c, s, rfl, rfl, by simp only [runE, hs], by simp only [runE, hs]; rw [hs] at h; exact h, by simp [runE, hs]⟩
    | unwind c' s' => exact Or.inr ⟨0, by omega, c, s, rfl, rfl, by simp only [runE, hs], by simp only [runE, hs]; rw [hs] at h; exact h, by simp [runE, hs]⟩
    | done r c' s' => exact Or.inr ⟨0, by omega, c, s, rfl, rfl, by simp only [runE, hs], by simp only [runE, hs]; rw [hs] at h; exact h, by simp [runE, hs]⟩

end

end Verif.Par
