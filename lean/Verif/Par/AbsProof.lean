import Verif.Par.SrcProof

/-!
# Values and tokens can be replaced without changing the course of a parse

`τ` maps tokens, `φ` values.
-/

namespace Verif.Par

variable {N T E N' T' E' : Type}

def Arg.map (φ : N → N') (τ : T → T') : Arg N T → Arg N' T'
  | .nt n => .nt (φ n)
  | .tok t => .tok (τ t)
  | .err l => .err (l.map τ)

def SSym.map (φ : N → N') : SSym N → SSym N'
  | .nt n i => .nt (φ n) i
  | .tok a i => .tok a i
  | .err lo hi => .err lo hi
  | .eoi i => .eoi i

def mapSt (φ : N → N') (st : List (Nat × SSym N)) : List (Nat × SSym N') := st.map fun x => (x.1, x.2.map φ)

def Cfg.map (φ : N → N') (τ : T → T') (c : Cfg N T) : Cfg N' T' :=
  { state := c.state, read := c.read.map τ, src := c.src.map τ, buffer := c.buffer, stack := mapSt φ c.stack, recov := c.recov,
    log := c.log.map (fun x => (x.1, x.2.map (Arg.map φ τ))), pulls := c.pulls }

/-- The rules of `p'` are those of `p`, with callbacks that succeed where those of `p` succeed. -/
structure Mimics (φ : N → N') (τ : T → T') (p : Parser N T E) (p' : Parser N' T' E') : Prop where
  tab : p'.tab = p.tab
  missing : ∀ r : Nat, p.rules[r]? = none → p'.rules[r]? = none
  found : ∀ (r : Nat) rule, p.rules[r]? = some rule → ∃ rule', p'.rules[r]? = some rule' ∧ rule'.lhs = rule.lhs ∧ rule'.rhs = rule.rhs ∧
    ∀ args v, rule.gen args = .ok v → rule'.gen (args.map (Arg.map φ τ)) = .ok (φ v)

/-- The outcome `x'` mimics `x`, unless in `x` a callback failed. -/
def Step.Mim (φ : N → N') (τ : T → T') : Step N T E → Step N' T' E' → Prop
  | .more c, x' => x' = .more (c.map φ τ)
  | .done (.ok v) c, x' => x' = .done (.ok (φ v)) (c.map φ τ)
  | .done (.error .noRecovery) c, x' => x' = .done (.error .noRecovery) (c.map φ τ)
  | .done (.error (.reducer _)) _, _ => True
  | .panic, x' => x' = .panic

section
variable {φ : N → N'} {τ : T → T'} {p : Parser N T E} {p' : Parser N' T' E'} {idx : T → Nat} {idx' : T' → Nat}

theorem fill_map (hi : ∀ t, idx' (τ t) = idx t) (c : Cfg N T) : fill idx' (c.map φ τ) = (fill idx c).map φ τ := by
  obtain ⟨state, read, src, buffer, stack, recov, log, pulls⟩ := c
  cases buffer with
  | cons b buffer => simp [fill, Cfg.map]
  | nil =>
    cases src with
    | nil => simp [fill, Cfg.map]
    | cons t src => simp [fill, Cfg.map, hi]

theorem firstIndex_map (d : Nat) (l : List (SSym N)) : firstIndex d (l.map (SSym.map φ)) = firstIndex d l := by
  induction l with
  | nil => rfl
  | cons y l ih => cases y <;> simp [firstIndex, SSym.map, ih]

theorem mkArgs_map (read : List T) (k : Nat) (l : List (SSym N)) :
    mkArgs (read.map τ) k (l.map (SSym.map φ)) = (mkArgs read k l).map (List.map (Arg.map φ τ)) := by
  induction l generalizing k with
  | nil => simp [mkArgs]
  | cons y l ih =>
    cases y with
    | nt n i =>
      simp only [List.map_cons, SSym.map, mkArgs, ih]
      cases mkArgs read k l <;> rfl
    | tok a i =>
      simp only [List.map_cons, SSym.map, mkArgs, ih, List.getElem?_map]
      split
      · rfl
      · cases read[i]? with
        | none => rfl
        | some t =>
          simp only [Option.map_some]
          cases mkArgs read (i + 1) l <;> rfl
    | err lo hi =>
      simp only [List.map_cons, SSym.map, mkArgs, ih, List.length_map]
      split
      · cases mkArgs read k l with
        | none => rfl
        | some as => simp [Arg.map, List.map_take, List.map_drop]
      · rfl
    | eoi i => rfl

theorem recover_map (errors : List (Nat × List Nat)) (isEoi : Bool) (recov : List Nat) (st : List (Nat × SSym N))
    (state head errHead : Nat) (back : Bool) : recover errors isEoi recov (mapSt φ st) state head errHead back =
      (recover errors isEoi recov st state head errHead back).map fun x => (x.1, mapSt φ x.2.1, x.2.2) := by
  induction st generalizing state head errHead back with
  | nil =>
    simp only [mapSt, List.map_nil, recover]
    cases recovRules errors isEoi recov state back <;> rfl
  | cons sy st ih =>
    obtain ⟨s, y⟩ := sy
    simp only [mapSt, List.map_cons, recover]
    cases recovRules errors isEoi recov state back with
    | some rs => rfl
    | none => cases y <;> exact ih _ _ _ _

theorem allSome_congr {α β : Type} {f g : α → Option β} (h : ∀ a, f a = g a) (l : List α) : allSome f l = allSome g l := by
  have : f = g := funext h
  rw [this]

theorem repush_map (hi : ∀ t, idx' (τ t) = idx t) (read : List T) (head tail : Nat) (buffer : List (Term × Nat)) :
    repush idx' (read.map τ) head tail buffer = repush idx read head tail buffer := by
  unfold repush
  congr 1
  apply allSome_congr
  intro i
  rw [List.getElem?_map, Option.map_map]
  cases read[i]? with
  | none => rfl
  | some t => simp [hi]

theorem onError_map (hi : ∀ t, idx' (τ t) = idx t) (hm : Mimics φ τ p p') (c : Cfg N T) (a : Term) (i : Nat) :
    (onError idx p c a i).Mim φ τ (onError idx' p' (c.map φ τ) a i) := by
  unfold onError
  simp only [hm.tab, Cfg.map, recover_map]
  cases recover p.tab.errors (a == .eoi) c.recov c.stack c.state i i false with
  | none => rfl
  | some x =>
    obtain ⟨state, stack, recov, head, errHead, back⟩ := x
    simp only [Option.map_some, repush_map hi]
    cases repush idx c.read head i c.buffer with
    | none => rfl
    | some buffer =>
      simp only
      cases get state p.tab.action with
      | none => rfl
      | some acts =>
        simp only
        cases get Term.err acts with
        | none => rfl
        | some act => cases act <;> rfl

theorem onReduce_map (hm : Mimics φ τ p p') (c : Cfg N T) (r : Nat) :
    (onReduce p c r).Mim φ τ (onReduce p' (c.map φ τ) r) := by
  unfold onReduce
  cases hr : p.rules[r]? with
  | none => simp [hm.missing r hr, Step.Mim]
  | some rule =>
    obtain ⟨rule', h1, h2, h3, h4⟩ := hm.found r rule hr
    have e1 : (c.map φ τ).stack = mapSt φ c.stack := rfl
    have e2 : ((mapSt φ c.stack).take rule.rhs.length).reverse = mapSt φ (c.stack.take rule.rhs.length).reverse := by
      simp [mapSt, List.map_take]
    have e3 : ∀ l : List (Nat × SSym N), (mapSt φ l).map Prod.snd = (l.map Prod.snd).map (SSym.map φ) := by
      intro l; simp [mapSt]
    have e4 : ∀ l : List (Nat × SSym N), (mapSt φ l).head?.map Prod.fst = l.head?.map Prod.fst := by
      intro l; cases l <;> rfl
    have e5 : (mapSt φ c.stack).drop rule.rhs.length = mapSt φ (c.stack.drop rule.rhs.length) := by
      simp [mapSt, List.map_drop]
    have e6 : (mapSt φ c.stack).length = c.stack.length := by simp [mapSt]
    simp only [h1, h2, h3, e1, e2, e3, e4, e5, e6]
    split
    · rfl
    · have e7 : (c.map φ τ).read = c.read.map τ := rfl
      rw [e7, mkArgs_map]
      cases mkArgs c.read 0 ((c.stack.take rule.rhs.length).reverse.map Prod.snd) with
      | none => rfl
      | some args =>
        simp only [Option.map_some]
        cases hg : rule.gen args with
        | error e => trivial
        | ok v =>
          simp only [h4 args v hg, hm.tab]
          have e8 : (c.map φ τ).state = c.state := rfl
          rw [e8]
          cases (get _ p.tab.goto).bind (get rule.lhs) with
          | none => rfl
          | some s =>
            simp only [firstIndex_map]
            simp [Step.Mim, Cfg.map, mapSt, SSym.map]

theorem step_map (hi : ∀ t, idx' (τ t) = idx t) (hm : Mimics φ τ p p') (c : Cfg N T) :
    (step idx p c).Mim φ τ (step idx' p' (c.map φ τ)) := by
  unfold step
  rw [fill_map hi]
  generalize fill idx c = d
  have e1 : (d.map φ τ).buffer = d.buffer := rfl
  have e2 : (d.map φ τ).state = d.state := rfl
  have e3 : (d.map φ τ).stack = mapSt φ d.stack := rfl
  simp only [e1, e2, e3, hm.tab]
  cases hb : d.buffer with
  | nil => rfl
  | cons ai buffer =>
    obtain ⟨a, i⟩ := ai
    simp only
    cases get d.state p.tab.action with
    | none => rfl
    | some acts =>
      simp only
      cases get a acts with
      | none => exact onError_map hi hm d a i
      | some act =>
        cases act with
        | shift s => cases a <;> rfl
        | reduce r => exact onReduce_map hm d r
        | accept =>
          simp only
          cases d.stack with
          | nil => rfl
          | cons sy st =>
            obtain ⟨s, y⟩ := sy
            cases y <;> rfl

theorem run_map (hi : ∀ t, idx' (τ t) = idx t) (hm : Mimics φ τ p p') (n : Nat) (c : Cfg N T) :
    (run idx p n c).Mim φ τ (run idx' p' n (c.map φ τ)) := by
  induction n generalizing c with
  | zero => rfl
  | succ n ih =>
    simp only [run]
    have := step_map hi hm c
    cases hs : step idx p c with
    | more c' =>
      rw [hs] at this
      simp only [Step.Mim] at this
      rw [this]
      exact ih c'
    | panic =>
      rw [hs] at this
      simp only [Step.Mim] at this
      rw [this]
      rfl
    | done r c' =>
      rw [hs] at this
      cases r with
      | ok v => simp only [Step.Mim] at this; rw [this]; rfl
      | error e =>
        cases e with
        | noRecovery => simp only [Step.Mim] at this; rw [this]; rfl
        | reducer e => trivial

theorem init_map (hm : Mimics φ τ p p') (input : List T) : (Cfg.init p input).map φ τ = Cfg.init p' (input.map τ) := by
  simp [Cfg.init, Cfg.map, hm.tab, mapSt]

end

/-! ## The parser without values -/

def plainify (p : Parser N T E) : Parser Unit Nat Unit := ⟨p.rules.map fun r => ⟨r.lhs, r.rhs, fun _ => .ok ()⟩, p.tab⟩

theorem mimics_plainify (p : Parser N T E) (idx : T → Nat) : Mimics (fun _ => ()) idx p (plainify p) where
  tab := rfl
  missing r h := by simp [plainify, h]
  found r rule h := ⟨⟨rule.lhs, rule.rhs, fun _ => .ok ()⟩, by simp [plainify, h], rfl, rfl, fun _ _ _ => rfl⟩

end Verif.Par
