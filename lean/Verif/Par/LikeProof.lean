import Verif.Par.Like
import Verif.Props.ParContract
import Verif.Props.ParSeeds

/-!
# Parsers with other tokens, values and errors: proofs

Both parsers are images of a third one, whose tokens, values and errors are pairs.
-/

namespace Verif.Par

variable {N T E N' T' E' : Type}

section
variable {φ : N → N'} {τ : T → T'} {p : Parser N T E} {p' : Parser N' T' E'} {idx : T → Nat} {idx' : T' → Nat} {S : E → E' → Prop}

theorem onReduce_fail (hm : Mimics φ τ p p') {c c' : Cfg N T} {r : Nat} {e : E} (h : onReduce p c r = .done (.error (.reducer e)) c')
    (hf : ∀ (r : Nat) rule rule' args, p.rules[r]? = some rule → p'.rules[r]? = some rule' → (r, args) ∈ c'.log → rule.gen args = .error e →
      ∃ e', rule'.gen (args.map (Arg.map φ τ)) = .error e' ∧ S e e') :
    ∃ e', S e e' ∧ onReduce p' (c.map φ τ) r = .done (.error (.reducer e')) (c'.map φ τ) := by
  unfold onReduce at h ⊢
  cases hr : p.rules[r]? with
  | none => simp [hr] at h
  | some rule =>
    obtain ⟨rule', h1, h2, h3, h4⟩ := hm.found r rule hr
    have e1 : (c.map φ τ).stack = mapSt φ c.stack := rfl
    have e2 : ((mapSt φ c.stack).take rule.rhs.length).reverse = mapSt φ (c.stack.take rule.rhs.length).reverse := by
      simp [mapSt, List.map_take]
    have e3 : ∀ l : List (Nat × SSym N), (mapSt φ l).map Prod.snd = (l.map Prod.snd).map (SSym.map φ) := by
      intro l; simp [mapSt]
    have e6 : (mapSt φ c.stack).length = c.stack.length := by simp [mapSt]
    simp only [h1, h2, h3, e1, e2, e3, e6, hr] at h ⊢
    split at h
    · cases h
    · rename_i hlen
      rw [if_neg hlen]
      have e7 : (c.map φ τ).read = c.read.map τ := rfl
      rw [e7, mkArgs_map]
      cases hmk : mkArgs c.read 0 ((c.stack.take rule.rhs.length).reverse.map Prod.snd) with
      | none => rw [hmk] at h; cases h
      | some args =>
        simp only [hmk, Option.map_some] at h ⊢
        cases hg : rule.gen args with
        | error e0 =>
          simp only [hg] at h
          cases h
          obtain ⟨e', g1, g2⟩ := hf r rule rule' args hr h1 (by simp) hg
          refine ⟨e', g2, ?_⟩
          simp [g1, Cfg.map]
        | ok v =>
          simp only [hg] at h
          split at h <;> cases h

theorem step_fail (hi : ∀ t, idx' (τ t) = idx t) (hm : Mimics φ τ p p') {c c' : Cfg N T} {e : E} (h : step idx p c = .done (.error (.reducer e)) c')
    (hf : ∀ (r : Nat) rule rule' args, p.rules[r]? = some rule → p'.rules[r]? = some rule' → (r, args) ∈ c'.log → rule.gen args = .error e →
      ∃ e', rule'.gen (args.map (Arg.map φ τ)) = .error e' ∧ S e e') :
    ∃ e', S e e' ∧ step idx' p' (c.map φ τ) = .done (.error (.reducer e')) (c'.map φ τ) := by
  unfold step at h ⊢
  rw [fill_map hi]
  generalize fill idx c = d at h ⊢
  have e1 : (d.map φ τ).buffer = d.buffer := rfl
  have e2 : (d.map φ τ).state = d.state := rfl
  have e3 : (d.map φ τ).stack = mapSt φ d.stack := rfl
  simp only [e1, e2, e3, hm.tab] at h ⊢
  cases hb : d.buffer with
  | nil => simp [hb] at h
  | cons ai buffer =>
    obtain ⟨a, i⟩ := ai
    simp only [hb] at h ⊢
    cases hs : get d.state p.tab.action with
    | none => simp [hs] at h
    | some acts =>
      simp only [hs] at h ⊢
      cases ha : get a acts with
      | none =>
        simp only [ha, onError] at h
        split at h
        · cases h
        · split at h
          · cases h
          · split at h
            · cases h
            · split at h <;> cases h
      | some act =>
        simp only [ha] at h ⊢
        cases act with
        | shift s => cases a <;> cases h
        | reduce r => exact onReduce_fail hm h hf
        | accept =>
          simp only at h
          split at h <;> cases h

theorem run_fail (hi : ∀ t, idx' (τ t) = idx t) (hm : Mimics φ τ p p') (n : Nat) {c c' : Cfg N T} {e : E} (h : run idx p n c = .done (.error (.reducer e)) c')
    (hf : ∀ (r : Nat) rule rule' args, p.rules[r]? = some rule → p'.rules[r]? = some rule' → (r, args) ∈ c'.log → rule.gen args = .error e →
      ∃ e', rule'.gen (args.map (Arg.map φ τ)) = .error e' ∧ S e e') :
    ∃ e', S e e' ∧ run idx' p' n (c.map φ τ) = .done (.error (.reducer e')) (c'.map φ τ) := by
  induction n generalizing c with
  | zero => cases h
  | succ n ih =>
    simp only [run] at h ⊢
    cases hs : step idx p c with
    | more d =>
      have := step_map hi hm c
      rw [hs] at this h
      simp only [Step.Mim] at this
      rw [this]
      exact ih h
    | panic => rw [hs] at h; cases h
    | done r d =>
      rw [hs] at h
      cases h
      obtain ⟨e', g1, g2⟩ := step_fail hi hm hs hf
      exact ⟨e', g1, by rw [g2]⟩

end

/-! ## Pairs -/

/-- Pairs of corresponding tokens. -/
def PairTok (RT : T → T' → Prop) : Type := { x : T × T' // RT x.1 x.2 }

variable {RT : T → T' → Prop}

def PairTok.fst (x : PairTok RT) : T := x.1.1
def PairTok.snd (x : PairTok RT) : T' := x.1.2

/-- Both callbacks. -/
def pairGen (f : List (Arg N T) → Except E N) (f' : List (Arg N' T') → Except E' N') (as : List (Arg (N × N') (PairTok RT))) : Except (Option (E × E')) (N × N') :=
  match f (as.map (Arg.map Prod.fst PairTok.fst)), f' (as.map (Arg.map Prod.snd PairTok.snd)) with
  | .ok v, .ok v' => .ok (v, v')
  | .error e, .error e' => .error (some (e, e'))
  | _, _ => .error none

def pairRule (RT : T → T' → Prop) (rule : Rule N T E) (rule' : Rule N' T' E') : Rule (N × N') (PairTok RT) (Option (E × E')) :=
  ⟨rule.lhs, rule.rhs, pairGen rule.gen rule'.gen⟩

def pairRules (RT : T → T' → Prop) (rules : List (Rule N T E)) (rules' : List (Rule N' T' E')) : List (Rule (N × N') (PairTok RT) (Option (E × E'))) :=
  List.zipWith (pairRule RT) rules rules'

theorem pairRules_get {rules : List (Rule N T E)} {rules' : List (Rule N' T' E')} {r : Nat} {x : Rule (N × N') (PairTok RT) (Option (E × E'))}
    (h : (pairRules RT rules rules')[r]? = some x) : ∃ rule rule', rules[r]? = some rule ∧ rules'[r]? = some rule' ∧ x = pairRule RT rule rule' := by
  simp only [pairRules, List.getElem?_zipWith] at h
  cases h1 : rules[r]? with
  | none => simp [h1] at h
  | some rule =>
    cases h2 : rules'[r]? with
    | none => simp [h1, h2] at h
    | some rule' =>
      simp only [h1, h2] at h
      exact ⟨rule, rule', rfl, rfl, by cases h; rfl⟩

theorem pairRules_plain {rules : List (Rule N T E)} {rules' : List (Rule N' T' E')} (h : rules'.map Rule.plain = rules.map Rule.plain) :
    (pairRules RT rules rules').map Rule.plain = rules.map Rule.plain := by
  have hl : rules'.length = rules.length := by simpa using congrArg List.length h
  apply List.ext_getElem?
  intro i
  simp only [pairRules, List.getElem?_map, List.getElem?_zipWith]
  cases h1 : rules[i]? with
  | none => simp
  | some rule =>
    have : i < rules'.length := by rw [hl]; exact (List.getElem?_eq_some_iff.1 h1).1
    rw [List.getElem?_eq_getElem this]
    rfl

theorem pairGen_ok {f : List (Arg N T) → Except E N} {f' : List (Arg N' T') → Except E' N'} {as : List (Arg (N × N') (PairTok RT))} {v : N × N'}
    (h : pairGen f f' as = .ok v) :
    f (as.map (Arg.map Prod.fst PairTok.fst)) = .ok v.1 ∧ f' (as.map (Arg.map Prod.snd PairTok.snd)) = .ok v.2 := by
  unfold pairGen at h
  split at h
  · cases h; constructor <;> assumption
  · cases h
  · cases h

theorem pairGen_error {f : List (Arg N T) → Except E N} {f' : List (Arg N' T') → Except E' N'} {as : List (Arg (N × N') (PairTok RT))} {e : Option (E × E')}
    (h : pairGen f f' as = .error e) {RE : E → E' → Prop} {R : N → N' → Prop}
    (hl : OutcomeLike RE R (f (as.map (Arg.map Prod.fst PairTok.fst))) (f' (as.map (Arg.map Prod.snd PairTok.snd)))) :
    ∃ e1 e2, e = some (e1, e2) ∧ RE e1 e2 ∧ f (as.map (Arg.map Prod.fst PairTok.fst)) = .error e1 ∧ f' (as.map (Arg.map Prod.snd PairTok.snd)) = .error e2 := by
  unfold pairGen at h
  split at h
  · cases h
  · rename_i e1 e2 h1 h2
    cases h
    rw [h1, h2] at hl
    exact ⟨e1, e2, rfl, hl, h1, h2⟩
  · rename_i g1 g2
    cases h1 : f (as.map (Arg.map Prod.fst PairTok.fst)) with
    | ok v =>
      cases h2 : f' (as.map (Arg.map Prod.snd PairTok.snd)) with
      | ok v' => exact absurd h2 (g1 v v' h1)
      | error e' => rw [h1, h2] at hl; exact hl.elim
    | error e1 =>
      cases h2 : f' (as.map (Arg.map Prod.snd PairTok.snd)) with
      | ok v' => rw [h1, h2] at hl; exact hl.elim
      | error e' => exact absurd h2 (g2 e1 e' h1)

theorem pointwise_map {α β γ : Type} {R : β → γ → Prop} {f : α → β} {g : α → γ} (h : ∀ x, R (f x) (g x)) (l : List α) : Pointwise R (l.map f) (l.map g) := by
  refine ⟨by simp, ?_⟩
  intro i x x' h1 h2
  simp only [List.getElem?_map, Option.map_eq_some_iff] at h1 h2
  obtain ⟨a, h1, rfl⟩ := h1
  obtain ⟨b, h2, rfl⟩ := h2
  rw [h1] at h2
  cases h2
  exact h a

theorem exists_pairs {l : List T} {l' : List T'} (h : Pointwise RT l l') : ∃ L : List (PairTok RT), L.map PairTok.fst = l ∧ L.map PairTok.snd = l' := by
  induction l generalizing l' with
  | nil =>
    cases l' with
    | nil => exact ⟨[], rfl, rfl⟩
    | cons x l' => simpa using h.1
  | cons x l ih =>
    cases l' with
    | nil => simpa using h.1
    | cons x' l' =>
      obtain ⟨L, h1, h2⟩ := ih (l' := l') ⟨by simpa using h.1, fun i y y' h1 h2 => h.2 (i + 1) y y' h1 h2⟩
      have hx : RT x x' := h.2 0 x x' rfl rfl
      subst h1 h2
      exact ⟨(⟨(x, x'), hx⟩ : PairTok RT) :: L, rfl, rfl⟩

variable {RN : Nat → N → N' → Prop} {RE : E → E' → Prop} {idx : T → Nat} {idx' : T' → Nat}

theorem argsLike_of_fit {us : List Sym} {as : List (Arg (N × N') (PairTok RT))}
    (h : ArgsFit (fun x : PairTok RT => idx x.fst) (fun A v => RN A v.1 v.2) us as) :
    ArgsLike idx RT RN us (as.map (Arg.map Prod.fst PairTok.fst)) (as.map (Arg.map Prod.snd PairTok.snd)) := by
  refine ⟨by simpa using h.1, by simpa using h.1, ?_⟩
  intro i u a a' h1 h2 h3
  simp only [List.getElem?_map, Option.map_eq_some_iff] at h2 h3
  obtain ⟨b, h2, rfl⟩ := h2
  obtain ⟨b', h3, rfl⟩ := h3
  rw [h2] at h3
  cases h3
  have hf := h.2 i u b h1 h2
  cases b with
  | nt v =>
    cases u with
    | nt A => exact hf
    | tm t => cases t <;> exact hf.elim
  | tok t =>
    cases u with
    | nt A => exact hf.elim
    | tm a =>
      cases a with
      | sym a => exact ⟨hf, t.2⟩
      | err => exact hf.elim
      | eoi => exact hf.elim
  | err l =>
    cases u with
    | nt A => exact hf.elim
    | tm a =>
      cases a with
      | sym a => exact hf.elim
      | eoi => exact hf.elim
      | err =>
        refine ⟨?_, pointwise_map (fun x : PairTok RT => x.2) l⟩
        intro h0
        exact hf (List.map_eq_nil_iff.1 h0)

/-- Both parsers, with the same tables, round by round. -/
theorem rounds_like {o : Seeds} (ho : o.Fair) {rules : List (Rule N T E)} {rules' : List (Rule N' T' E')} {start : Nat} (hok : (gram rules start).Ok)
    {p : Parser N T E} {p' : Parser N' T' E'} {ws ws' : List Warning} (hp : MakesParser o rules start p ws) (hp' : MakesParser o rules' start p' ws')
    (ht : p'.tab = p.tab) (hl : RulesLike idx RT RN RE rules rules') (hi : ∀ t t', RT t t' → idx' t' = idx t) {input : List T} {input' : List T'}
    (hin : Pointwise RT input input') (n : Nat) :
    Step.Like (SeenLike idx RT RN rules) (ResultLike RE (RN start)) (run idx p n (Cfg.init p input)) (run idx' p' n (Cfg.init p' input')) := by
  obtain ⟨L, rfl, rfl⟩ := exists_pairs hin
  obtain ⟨hg, d, hd⟩ := hp
  obtain ⟨hg', d', hd'⟩ := hp'
  have hlen : rules'.length = rules.length := by simpa using congrArg List.length hl.plain
  have hplain := pairRules_plain (RT := RT) hl.plain
  have hlen2 : (pairRules RT rules rules').length = rules.length := by simpa using congrArg List.length hplain
  have hgr : gram (pairRules RT rules rules') start = gram rules start := by unfold gram; rw [hplain]
  let P : Parser (N × N') (PairTok RT) (Option (E × E')) :=
    ⟨pairRules RT rules rules' ++ [⟨freshSym (rules.map Rule.plain), [.nt start], fun _ => .error none⟩], p.tab⟩
  have hP : MakesParser o (pairRules RT rules rules') start P ws := ⟨by rw [hgr]; exact hg, fun _ => .error none, by rw [hplain]⟩
  have hm1 : Mimics Prod.fst PairTok.fst P p := by
    refine ⟨rfl, ?_, ?_⟩
    · intro r h
      rw [List.getElem?_eq_none_iff] at h ⊢
      rw [hd]
      simpa [P, hlen2] using h
    · intro r x h
      by_cases hr : r < rules.length
      · rw [List.getElem?_append_left (by rw [hlen2]; exact hr)] at h
        obtain ⟨rule, rule', h1, h2, rfl⟩ := pairRules_get h
        refine ⟨rule, by rw [hd, List.getElem?_append_left hr]; exact h1, rfl, rfl, ?_⟩
        intro args v hv
        exact (pairGen_ok hv).1
      · rw [List.getElem?_append_right (by rw [hlen2]; omega), hlen2] at h
        rw [hd, List.getElem?_append_right (by omega)]
        cases hk : r - rules.length with
        | succ k => rw [hk] at h; simp at h
        | zero =>
          rw [hk] at h
          cases h
          exact ⟨_, rfl, rfl, rfl, fun args v hv => by cases hv⟩
  have hm2 : Mimics Prod.snd PairTok.snd P p' := by
    refine ⟨ht, ?_, ?_⟩
    · intro r h
      rw [List.getElem?_eq_none_iff] at h ⊢
      rw [hd']
      simpa [P, hlen2, hlen] using h
    · intro r x h
      by_cases hr : r < rules.length
      · rw [List.getElem?_append_left (by rw [hlen2]; exact hr)] at h
        obtain ⟨rule, rule', h1, h2, rfl⟩ := pairRules_get h
        have hpl : rule'.plain = rule.plain := by
          have := congrArg (·[r]?) hl.plain
          simpa [h1, h2] using this
        refine ⟨rule', by rw [hd', List.getElem?_append_left (by omega)]; exact h2, congrArg PRule.lhs hpl, congrArg PRule.rhs hpl, ?_⟩
        intro args v hv
        exact (pairGen_ok hv).2
      · rw [List.getElem?_append_right (by rw [hlen2]; omega), hlen2] at h
        rw [hd', List.getElem?_append_right (by omega), hlen]
        cases hk : r - rules.length with
        | succ k => rw [hk] at h; simp at h
        | zero =>
          rw [hk] at h
          cases h
          refine ⟨_, rfl, ?_, rfl, fun args v hv => by cases hv⟩
          show freshSym (rules'.map Rule.plain) = _
          rw [hl.plain]
  have hi1 : ∀ t : PairTok RT, idx t.fst = idx t.fst := fun _ => rfl
  have hi2 : ∀ t : PairTok RT, idx' t.snd = idx t.fst := fun t => hi _ _ t.2
  have hK : Keeps (fun x : PairTok RT => idx x.fst) (fun A (v : N × N') => RN A v.1 v.2) (pairRules RT rules rules') := by
    intro x hx args v hf hv
    obtain ⟨r, hr⟩ := List.getElem?_of_mem hx
    obtain ⟨rule, rule', h1, h2, rfl⟩ := pairRules_get hr
    have := hl.gen r rule rule' h1 h2 _ _ (argsLike_of_fit hf)
    obtain ⟨g1, g2⟩ := pairGen_ok hv
    rw [g1, g2] at this
    exact this
  obtain ⟨hc1, hc2⟩ := c48_contract o ho (pairRules RT rules rules') start (by rw [hgr]; exact hok) P ws hP (fun x => idx x.fst) _ hK L
  have hseen : ∀ c : Cfg (N × N') (PairTok RT), (run (fun x : PairTok RT => idx x.fst) P n (Cfg.init P L) = .more c ∨
      ∃ x, run (fun x : PairTok RT => idx x.fst) P n (Cfg.init P L) = .done x c) →
      SeenLike idx RT RN rules (c.map Prod.fst PairTok.fst) (c.map Prod.snd PairTok.snd) := by
    intro c h
    refine ⟨⟨by simp [Cfg.map], ?_⟩, rfl⟩
    intro i x x' h1 h2
    simp only [Cfg.map, List.getElem?_map, Option.map_eq_some_iff] at h1 h2
    obtain ⟨y, h1, rfl⟩ := h1
    obtain ⟨y', h2, rfl⟩ := h2
    rw [h1] at h2
    cases h2
    obtain ⟨x, g1, g2⟩ := hc1 n c h y.1 y.2 (List.mem_of_getElem? h1)
    obtain ⟨rule, rule', g3, _, rfl⟩ := pairRules_get g1
    exact ⟨rfl, rule, g3, argsLike_of_fit g2⟩
  have r1 := run_map (idx' := idx) hi1 hm1 n (Cfg.init P L)
  have r2 := run_map (idx' := idx') (idx := fun x : PairTok RT => idx x.fst) hi2 hm2 n (Cfg.init P L)
  have q1 := @run_fail _ _ _ _ _ _ Prod.fst PairTok.fst P p (fun x : PairTok RT => idx x.fst) idx (fun e e1 => ∃ e2, e = some (e1, e2) ∧ RE e1 e2) hi1 hm1 n (Cfg.init P L)
  have q2 := @run_fail _ _ _ _ _ _ Prod.snd PairTok.snd P p' (fun x : PairTok RT => idx x.fst) idx' (fun e e2 => ∃ e1, e = some (e1, e2) ∧ RE e1 e2) hi2 hm2 n (Cfg.init P L)
  rw [init_map hm1] at r1 q1
  rw [init_map hm2] at r2 q2
  cases hr : run (fun x : PairTok RT => idx x.fst) P n (Cfg.init P L) with
  | more c =>
    rw [hr] at r1 r2
    rw [show run idx p n _ = _ from r1, show run idx' p' n _ = _ from r2]
    exact .more _ _ (hseen c (.inl hr))
  | panic =>
    rw [hr] at r1 r2
    rw [show run idx p n _ = _ from r1, show run idx' p' n _ = _ from r2]
    exact .panic
  | done x c =>
    have hs := hseen c (.inr ⟨x, hr⟩)
    rw [hr] at r1 r2
    cases x with
    | ok v =>
      rw [show run idx p n _ = _ from r1, show run idx' p' n _ = _ from r2]
      exact .done _ _ _ _ (.ok _ _ (hc2 v c ⟨n, hr⟩)) hs
    | error e =>
      cases e with
      | noRecovery =>
        rw [show run idx p n _ = _ from r1, show run idx' p' n _ = _ from r2]
        exact .done _ _ _ _ .noRecovery hs
      | reducer e =>
        have hfit : ∀ (r : Nat) x args, P.rules[r]? = some x → (r, args) ∈ c.log → x.gen args = .error e →
            ∃ rule rule' e1 e2, rules[r]? = some rule ∧ rules'[r]? = some rule' ∧ e = some (e1, e2) ∧ RE e1 e2 ∧
              rule.gen (args.map (Arg.map Prod.fst PairTok.fst)) = .error e1 ∧ rule'.gen (args.map (Arg.map Prod.snd PairTok.snd)) = .error e2 := by
          intro r x args h1 h2 h3
          obtain ⟨y, g1, g2⟩ := hc1 n c (.inr ⟨_, hr⟩) r args h2
          have hx : x = y := by
            have : P.rules[r]? = some y := by
              rw [List.getElem?_append_left (List.getElem?_eq_some_iff.1 g1).1]; exact g1
            rw [h1] at this; cases this; rfl
          subst hx
          obtain ⟨rule, rule', k1, k2, rfl⟩ := pairRules_get g1
          obtain ⟨e1, e2, k3, k4, k5, k6⟩ := pairGen_error h3 (hl.gen r rule rule' k1 k2 _ _ (argsLike_of_fit g2))
          exact ⟨rule, rule', e1, e2, k1, k2, k3, k4, k5, k6⟩
        obtain ⟨e1, ⟨e2, rfl, g1⟩, g2⟩ := q1 hr (by
          intro r x y args h1 h2 h3 h4
          obtain ⟨rule, rule', e1, e2, k1, k2, k3, k4, k5, k6⟩ := hfit r x args h1 h3 h4
          have : y = rule := by
            rw [hd, List.getElem?_append_left (List.getElem?_eq_some_iff.1 k1).1, k1] at h2
            cases h2; rfl
          subst this
          exact ⟨e1, k5, e2, k3, k4⟩)
        obtain ⟨e2', ⟨e1', g3, _⟩, g4⟩ := q2 hr (by
          intro r x y args h1 h2 h3 h4
          obtain ⟨rule, rule', e1, e2, k1, k2, k3, k4, k5, k6⟩ := hfit r x args h1 h3 h4
          have : y = rule' := by
            rw [hd', List.getElem?_append_left (List.getElem?_eq_some_iff.1 k2).1, k2] at h2
            cases h2; rfl
          subst this
          exact ⟨e2, k6, e1, k3, k4⟩)
        cases g3
        rw [g2, g4]
        exact .done _ _ _ _ (.reducer _ _ g1) hs

end Verif.Par
