import Verif.Par.ContractProof
import Verif.Props.ParSource

/-!
# Property C48: what callbacks can rely on
-/

namespace Verif.Par

variable {N T E : Type}

/-! ## C48 -/

/-- C48: a promise `Q` about the values of each non-terminal that every callback keeps, given arguments that fit its right-hand side, is
kept all the time: at every moment every callback so far got arguments that fit its right-hand side (as many as there are symbols; for a
terminal a token of this enum index, for `error` a non-empty slice, for a non-terminal a value with the promise), and a value returned by
`parse` has the promise of the start symbol. -/
theorem c48_contract (o : Seeds) (ho : o.Fair) (rules : List (Rule N T E)) (start : Nat) (hok : (gram rules start).Ok)
    (p : Parser N T E) (ws : List Warning) (hp : MakesParser o rules start p ws) (idx : T → Nat) (Q : Nat → N → Prop)
    (hQ : Keeps idx Q rules) (input : List T) :
    (∀ n c, (run idx p n (Cfg.init p input) = .more c ∨ ∃ x, run idx p n (Cfg.init p input) = .done x c) →
      ∀ r args, (r, args) ∈ c.log → ∃ rule, rules[r]? = some rule ∧ ArgsFit idx Q rule.rhs args) ∧
    ∀ v c, ParsesTo idx p input (.ok v) c → Q start v := by
  constructor
  · intro n c h r args hm
    obtain ⟨rule, cs, calls, h1, h2, h3, _⟩ := c33_calls o ho rules start hok p ws hp idx input n c h r args hm
    exact ⟨rule, h1, evals_fit hQ h3 rfl h2⟩
  · intro v c h
    obtain ⟨f, calls, h1, h2, _⟩ := c23_sound o ho rules start hok p ws hp idx input v c h
    have := (evals_fit hQ h2 rfl h1).2 0 _ _ rfl rfl
    exact this

theorem onReduce_log {p : Parser N T E} {c : Cfg N T} {r : Nat} (h : onReduce p c r ≠ .panic) :
    ∃ args c', (onReduce p c r = .more c' ∨ ∃ x, onReduce p c r = .done x c') ∧ (r, args) ∈ c'.log := by
  simp only [onReduce] at h ⊢
  cases h1 : p.rules[r]? with
  | none => simp only [h1] at h; exact absurd rfl h
  | some rule =>
    simp only [h1] at h ⊢
    by_cases h2 : c.stack.length < rule.rhs.length
    · rw [if_pos h2] at h; exact absurd rfl h
    · simp only [if_neg h2] at h ⊢
      cases h3 : mkArgs c.read 0 (List.map Prod.snd (List.take rule.rhs.length c.stack).reverse) with
      | none => simp only [h3] at h; exact absurd rfl h
      | some args =>
        simp only [h3] at h ⊢
        cases h4 : rule.gen args with
        | error e => exact ⟨args, _, Or.inr ⟨_, rfl⟩, by simp⟩
        | ok v =>
          simp only [h4] at h ⊢
          cases h5 : (get ((Option.map Prod.fst (List.take rule.rhs.length c.stack).reverse.head?).getD c.state) p.tab.goto).bind (get rule.lhs) with
          | none => simp only [h5] at h; exact absurd rfl h
          | some s => exact ⟨args, _, Or.inl rfl, by simp⟩

theorem step_congr {idx : T → Nat} {p p' : Parser N T E} {c : Cfg N T} (ht : p'.tab = p.tab)
    (h : ∀ r, step idx p c = onReduce p (fill idx c) r → onReduce p' (fill idx c) r = onReduce p (fill idx c) r) :
    step idx p' c = step idx p c := by
  have he : ∀ a i, onError idx p' (fill idx c) a i = onError idx p (fill idx c) a i := by
    intro a i
    simp only [onError, ht]
  unfold step at h ⊢
  simp only [ht] at h ⊢
  split
  · rfl
  · rename_i hb
    rw [hb] at h
    split
    · rfl
    · rename_i ha
      rw [ha] at h
      split
      · rfl
      · rename_i hg
        simp only [hg] at h
        exact h _ rfl
      · rfl
      · exact he _ _

/-- C48: so it does not matter what a callback would do on arguments that do not fit, for example `unreachable!()`: two syntaxes whose
callbacks agree on fitting arguments give the same parses, round for round. -/
theorem c48_unreachable (o : Seeds) (ho : o.Fair) (rules rules' : List (Rule N T E)) (start : Nat) (hok : (gram rules start).Ok)
    (hpl : rules'.map Rule.plain = rules.map Rule.plain) (p p' : Parser N T E) (ws ws' : List Warning)
    (hp : MakesParser o rules start p ws) (hp' : MakesParser o rules' start p' ws') (idx : T → Nat) (Q : Nat → N → Prop)
    (hQ : Keeps idx Q rules)
    (hsame : ∀ (r : Nat) (rule rule' : Rule N T E), rules[r]? = some rule → rules'[r]? = some rule' →
      ∀ args, ArgsFit idx Q rule.rhs args → rule'.gen args = rule.gen args)
    (input : List T) (hin : input ≠ [] ∨ (gram rules start).NoError) (n : Nat) :
    run idx p' n (Cfg.init p' input) = run idx p n (Cfg.init p input) := by
  have hgr : gram rules' start = gram rules start := by unfold gram; rw [hpl]
  have htab : p'.tab = p.tab := by
    have h1 := hp.1
    have h2 := hp'.1
    rw [hgr] at h2
    have := newGives_unique h1 h2
    simp only [Res.ok.injEq, Prod.mk.injEq] at this
    exact this.1.symm
  have hinit : Cfg.init p' input = Cfg.init p input := by unfold Cfg.init; rw [htab]
  rw [hinit]
  have hnp : ∀ m, run idx p m (Cfg.init p input) ≠ .panic := fun m h => c29_no_panic o ho rules start hok p ws hp idx input hin ⟨m, h⟩
  have hfit := (c48_contract o ho rules start hok p ws hp idx Q hQ input).1
  obtain ⟨d, hd⟩ := hp.2
  obtain ⟨d', hd'⟩ := hp'.2
  have hlen : rules'.length = rules.length := by simpa using congrArg List.length hpl
  have hstep : ∀ m c, run idx p m (Cfg.init p input) = .more c → step idx p' c = step idx p c := by
    intro m c hm
    have hm1 : run idx p (m + 1) (Cfg.init p input) = step idx p c := by
      rw [run_add, hm]
      simp only [run]
      cases step idx p c <;> rfl
    apply step_congr htab
    intro r hr
    unfold onReduce at hr ⊢
    rw [hd] at hr
    rw [hd, hd', htab]
    by_cases hlt : r < rules.length
    · rw [List.getElem?_append_left hlt] at hr ⊢
      rw [List.getElem?_append_left (by omega)]
      have hpr : (rules'[r]?).map Rule.plain = (rules[r]?).map Rule.plain := by
        rw [← List.getElem?_map, ← List.getElem?_map, hpl]
      rw [List.getElem?_eq_getElem hlt] at hr hpr ⊢
      rw [List.getElem?_eq_getElem (by omega)] at hpr ⊢
      simp only [Option.map_some, Option.some.injEq, Rule.plain, PRule.mk.injEq] at hpr
      simp only at hr ⊢
      rw [hpr.1, hpr.2]
      split
      · rfl
      · rename_i hns
        rw [if_neg hns] at hr
        split
        · rfl
        · rename_i args hargs
          rw [hargs] at hr
          simp only at hr
          have hfits : ArgsFit idx Q rules[r].rhs args := by
            have key : ∀ c', (step idx p c = .more c' ∨ ∃ x, step idx p c = .done x c') → (r, args) ∈ c'.log →
                ArgsFit idx Q rules[r].rhs args := by
              intro c' hc' hmem
              rw [← hm1] at hc'
              obtain ⟨rule, h1, h2⟩ := hfit (m + 1) c' hc' r args hmem
              rw [List.getElem?_eq_getElem hlt] at h1
              cases h1
              exact h2
            cases hgen : rules[r].gen args with
            | error e =>
              rw [hgen] at hr
              exact key _ (Or.inr ⟨_, hr⟩) (by simp)
            | ok v =>
              rw [hgen] at hr
              simp only at hr
              split at hr
              · exact absurd (hm1.trans hr) (hnp _)
              · exact key _ (Or.inl hr) (by simp)
          rw [hsame r _ _ (List.getElem?_eq_getElem hlt) (List.getElem?_eq_getElem (by omega)) args hfits]
    · exfalso
      have hr : step idx p c = onReduce p (fill idx c) r := by unfold onReduce; rw [hd]; exact hr
      obtain ⟨args, c', h1, h2⟩ := onReduce_log (p := p) (c := fill idx c) (r := r) (by rw [← hr, ← hm1]; exact hnp _)
      rw [← hr, ← hm1] at h1
      obtain ⟨rule, h3, _⟩ := hfit (m + 1) c' h1 r args h2
      exact hlt (List.getElem?_eq_some_iff.1 h3).1
  have : ∀ m, run idx p' m (Cfg.init p input) = run idx p m (Cfg.init p input) := by
    intro m
    induction m with
    | zero => rfl
    | succ m ih =>
      rw [run_add, run_add, ih]
      cases hr : run idx p m (Cfg.init p input) with
      | done x c => rfl
      | panic => rfl
      | more c =>
        simp only [run]
        rw [hstep m c hr]
  exact this n

/-- C48: for grammars without error rules, `Q n u v` may also speak of the tokens `u` that `v` stands for: if the callbacks compute `Q` for a
rule from `Q` for its right-hand side, then a value returned by `parse` has `Q` for the start symbol and the whole input. -/
theorem c48_attributes (o : Seeds) (ho : o.Fair) (rules : List (Rule N T E)) (start : Nat) (hok : (gram rules start).Ok)
    (hn : (gram rules start).NoError) (p : Parser N T E) (ws : List Warning) (hp : MakesParser o rules start p ws) (idx : T → Nat)
    (Q : Nat → List T → N → Prop) (hQ : Computes idx Q rules) (input : List T) (v : N) (c : Cfg N T)
    (h : ParsesTo idx p input (.ok v) c) : Q start input v := by
  obtain ⟨f, calls, h1, h2, _, _, h5⟩ := c23_sound o ho rules start hok p ws hp idx input v c h
  have he : errs [f] = [] := h1.no_errs (by simp) hn
  have := evals_spans hQ h2 rfl h1 he
  rw [(h5 he).1] at this
  simp only [List.zipIdx_map_fst] at this
  have key : ∀ {us args w}, Spans idx Q us args w → us = [.nt start] → args = [.nt v] → Q start w v := by
    intro us args w hs h6 h7
    cases hs with
    | nil => cases h6
    | tok => cases h6
    | nt n v' u us args w h8 h9 =>
      cases h6
      cases h7
      cases h9
      rw [List.append_nil]
      exact h8
  exact key this rfl rfl

/-! ## Examples -/

/-- In `S → a S | b` the value of `S` is one less than the number of its tokens. -/
theorem rRight_computes : Computes id (fun _ u v => u.length = v + 1) rRight := by
  intro rule hr args w v hs hg
  simp [rRight] at hr
  rcases hr with rfl | rfl
  · cases hs with
    | tok t us args w hs =>
      cases hs with
      | nt n v' u us args w h1 hs =>
        cases hs
        cases hg
        simp [h1]
  · cases hs with
    | tok t us args w hs =>
      cases hs
      cases hg
      rfl

/-- So on every input that `parse` accepts, the result is the length of the input less one. -/
example (input : List Nat) (v : Nat) (c : Cfg Nat Nat) (h : ParsesTo id pRight input (.ok v) c) : input.length = v + 1 :=
  c48_attributes idSeeds idSeeds_fair rRight 0 (by decide) (by unfold Gram.NoError; decide) pRight [] pRight_makes id _ rRight_computes
    input v c h

/-- The same rules with another answer in the case that does not happen. -/
def rRight' : List (Rule Nat Nat Nat) :=
  [⟨0, [.tm (.sym 0), .nt 0], fun l => match l with
      | [_, .nt n] => .ok (n + 1)
      | _ => .ok 77⟩,
   ⟨0, [.tm (.sym 1)], fun _ => .ok 0⟩]

def pRight' : Parser Nat Nat Nat := ⟨rRight' ++ [⟨1, [.nt 0], fun _ => .error 0⟩], tRight⟩

example (input : List Nat) (n : Nat) : run id pRight' n (Cfg.init pRight' input) = run id pRight n (Cfg.init pRight input) := by
  refine c48_unreachable idSeeds idSeeds_fair rRight rRight' 0 (by decide) rfl pRight pRight' [] [] pRight_makes ⟨gRight_new, _, rfl⟩ id
    (fun _ _ => True) (fun _ _ _ _ _ _ => trivial) ?_ input (Or.inr (by unfold Gram.NoError; decide)) n
  intro r rule rule' h1 h2 args ha
  have : r = 0 ∨ r = 1 := by
    have := (List.getElem?_eq_some_iff.1 h1).1
    simp [rRight] at this
    omega
  rcases this with rfl | rfl
  · cases h1
    cases h2
    obtain ⟨hl, hf⟩ := ha
    match args, hl with
    | [a, b], _ =>
      have := hf 1 _ _ rfl rfl
      cases b with
      | nt n => rfl
      | tok t => cases this
      | err l => cases this
  · cases h1
    cases h2
    rfl

end Verif.Par
