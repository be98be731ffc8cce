import Verif.Par.LastProof
import Verif.Par.KeepMain

/-!
# Callbacks that error recovery never undoes: from the machine to `parse`, and the check
-/

namespace Verif.Par

variable {N T E : Type} {p : Parser N T E} {rules : List (Rule N T E)} {idx : T → Nat} {input : List T} {start fresh : Nat}

theorem LInv.init {Q : Nat → Bool} {R : List PRule} {s : Nat} : LInv Q rules R s start idx input (Mach.init : Mach N T) [] where
  pieces := rfl
  pos := Nat.zero_le _
  stand := by simp
  calls := by simp [Mach.init]
  all := by simp [Mach.init]
  inc := by simp [leaves]
  low := by simp [marks, leaves, errs]
  before := by intro l e k hk; simp at hk
  move := by intro ps X v i hps; simp [Mach.init] at hps

/-- The calls for `Q` are those of trees standing side by side. -/
def Lasted (Q : Nat → Bool) (rules : List (Rule N T E)) (idx : T → Nat) (input : List T) (us : List Sym) (fs : List (Tree T)) (x : Except E (List (Arg N T)))
    (log : List (Call N T)) : Prop :=
  ∃ lg, Built (rules.map Rule.plain) idx input us fs ∧ Evals rules fs lg x ∧ lg.Sublist log ∧ ((leaves fs).Pairwise fun x y => x.2 < y.2) ∧
    callsOf rules Q lg = callsOf rules Q log

theorem LInv.lasted {Q : Nat → Bool} {R : List PRule} {s : Nat} {m : Mach N T} {es : List (Entry N T)} (h : LInv Q rules R s start idx input m es) :
    Lasted Q rules idx input (es.map fun e => e.1.sym idx) (trees es) (.ok (es.map fun e => e.1.arg input)) m.calls := by
  obtain ⟨q1, q2⟩ := stands_args h.stand
  exact ⟨_, q1, q2, h.calls, h.inc, h.all⟩

theorem LInv.done {Q : Nat → Bool} {R : List PRule} {s : Nat} {m m' : Mach N T} {es : List (Entry N T)} (h : LInv Q rules R s start idx input m es)
    {x : Except (PErr E) N} (hst : MStep rules R s start idx input m (.done x m')) :
    (∃ us fs y, Lasted Q rules idx input us fs y m'.calls) ∧ ∀ v, x = .ok v → ∃ f, Lasted Q rules idx input [.nt start] [f] (.ok [.nt v]) m'.calls := by
  generalize ho : MOut.done x m' = o at hst
  cases hst with
  | shift => cases ho
  | reduce => cases ho
  | bad => cases ho
  | recover => cases ho
  | recoverEnd => cases ho
  | giveUp t h1 h2 h3 => cases ho; exact ⟨⟨_, _, _, h.lasted⟩, fun v hv => by cases hv⟩
  | giveUpEnd h1 h2 h3 => cases ho; exact ⟨⟨_, _, _, h.lasted⟩, fun v hv => by cases hv⟩
  | accept v i h1 h2 =>
    cases ho
    refine ⟨⟨_, _, _, h.lasted⟩, fun v' hv => ?_⟩
    cases hv
    have hp := h.pieces
    rw [h2] at hp
    obtain ⟨e, es', rfl, he, hes⟩ := List.map_eq_cons_iff.1 hp.symm
    cases List.map_eq_nil_iff.1 hes
    obtain ⟨P, f, lg⟩ := e
    simp only at he
    subst he
    exact ⟨f, h.lasted⟩
  | fail r rule ps cs e h1 h2 h3 h4 h5 h6 =>
    cases ho
    refine ⟨?_, fun v hv => by cases hv⟩
    obtain ⟨es0, es1, rfl, e0, e1⟩ := List.map_eq_append_iff.1 (h.pieces.symm.trans h3)
    subst e0 e1
    obtain ⟨q1, q2⟩ := stands_args fun e he => h.stand e (List.mem_append_right es0 he)
    obtain ⟨q3, q4⟩ := stands_args fun e he => h.stand e (List.mem_append_left es1 he)
    have hsym : (es1.map fun e => e.1.sym idx) = rule.rhs := by rw [← h4, List.map_map]; rfl
    have harg : (es1.map fun e => e.1.arg input) = (es1.map Prod.fst).map (Piece.arg input) := by rw [List.map_map]; rfl
    rw [hsym] at q1
    rw [harg] at q2
    have hm : madeBy (es0 ++ es1) = madeBy es0 ++ madeBy es1 := by simp [madeBy]
    refine ⟨_, trees es0 ++ [.node r (trees es1)], .error e, madeBy es0 ++ (madeBy es1 ++ [(r, (es1.map Prod.fst).map (Piece.arg input))]),
      q3.append (Built.node r rule.plain _ _ _ (by simp [h2]) q1 .nil), ?_, ?_, ?_, ?_⟩
    · have key : ∀ {fs : List (Tree T)} {lg : List (Call N T)} {y}, Evals rules fs lg y → ∀ as, y = .ok as → ∀ gs k, Evals rules gs k (.error e) →
          Evals rules (fs ++ gs) (lg ++ k) (.error e) := by
        intro fs lg y hy
        induction hy with
        | nil => intro as _ gs k hk; exact hk
        | leaf i t fs lg as _ ih => intro _ _ gs k hk; exact .leafE _ _ _ _ _ (ih _ rfl gs k hk)
        | leafE => intro as h; cases h
        | err lo l fs lg as _ ih => intro _ _ gs k hk; exact .errE _ _ _ _ _ (ih _ rfl gs k hk)
        | errE => intro as h; cases h
        | node r rule cs lg1 args v fs lg2 as a1 a2 a3 _ _ ih =>
          intro _ _ gs k hk
          rw [List.append_assoc, List.cons_append]
          exact .nodeE _ _ _ _ _ _ _ _ _ a1 a2 a3 (ih _ rfl gs k hk)
        | nodeE => intro as h; cases h
        | fail => intro as h; cases h
        | inner => intro as h; cases h
      exact key q4 _ rfl _ _ (Evals.fail r rule _ _ _ e [] h2 q2 h6)
    · have := h.calls
      rw [hm] at this
      rw [← List.append_assoc]
      exact List.Sublist.append this (List.Sublist.refl _)
    · have := h.inc
      rw [trees, List.map_append, leaves_append] at this
      rw [leaves_append, leaves_node]
      exact this
    · have := h.all
      rw [hm] at this
      rw [← List.append_assoc, callsOf_append, this, ← callsOf_append]

theorem Ctx.lasting (hx : Ctx p rules start fresh) (hfr : (gram rules start).Fruitful) {Q : Nat → Bool} (ht : (gram rules start).Lasting Q) :
    ∀ γ δ X Y r, Q X = true → Expects ((gram rules start).aug fresh) rules.length (γ ++ δ ++ [.nt X]) Y → ErrRule ((gram rules start).aug fresh) rules.length γ r →
      ErrRule ((gram rules start).aug fresh) rules.length (γ ++ δ ++ [.nt X]) r ∨
        ErrRule ((gram rules start).aug fresh) rules.length (γ ++ δ ++ [.nt X, Y]) r := by
  have hl : (gram rules start).rules.length = rules.length := by simp [gram]
  intro γ δ X Y r h0 h1 h2
  rw [← hl] at h1 h2 ⊢
  rw [Gram.expects_iff hfr hx.unused, List.append_assoc] at h1
  rw [Gram.errRule_iff hfr hx.unused] at h2
  simp only [Gram.errRule_iff hfr hx.unused]
  exact ht.2 γ δ X Y r h0 h1 h2

theorem lasting_run (hx : Ctx p rules start fresh) (hfr : (gram rules start).Fruitful) {Q : Nat → Bool} (ht : (gram rules start).Lasting Q) (n : Nat) :
    ∀ {c : Cfg N T} {m : Mach N T}, MachSim p rules idx input start fresh c m →
      (∃ es, LInv Q rules ((gram rules start).aug fresh) rules.length start idx input m es) ∨ Doomed input m →
      (∀ c', run idx p n c = .more c' → input = [] ∨ ∃ us fs y, Lasted Q rules idx input us fs y c'.log.reverse) ∧
      (∀ x c', run idx p n c = .done x c' → (input = [] ∨ ∃ us fs y, Lasted Q rules idx input us fs y c'.log.reverse) ∧
        ∀ v, x = .ok v → ∃ f, Lasted Q rules idx input [.nt start] [f] (.ok [.nt v]) c'.log.reverse) := by
  induction n with
  | zero =>
    intro c m hs hi
    refine ⟨fun c' h => ?_, fun x c' h => by cases h⟩
    cases h
    rcases hi with ⟨es, hi⟩ | hi
    · rw [← hs.calls]; exact .inr ⟨_, _, _, hi.lasted⟩
    · exact .inl hi.1
  | succ n ih =>
    intro c m hs hi
    obtain ⟨o, ho⟩ := hs.progress hx
    have hsim := hs.step hx ho
    simp only [run]
    cases hst : step idx p c with
    | panic => exact ⟨fun c' h => (by cases h), fun x c' h => (by cases h)⟩
    | more c1 =>
      rw [hst] at hsim
      cases o with
      | done x m' => exact absurd hsim id
      | panic => exact absurd hsim id
      | more m' =>
        refine ih hsim ?_
        rcases hi with ⟨es, hi⟩ | hi
        · exact hi.step (hx.tree hfr) ht.1 (hx.lasting hfr ht) ((hx.canon.walk_iff _).1 ⟨_, hs.seg.walk⟩) ho
        · exact .inr (hi.step ho)
    | done x c1 =>
      rw [hst] at hsim
      refine ⟨fun c' h => (by cases h), fun x' c' h => ?_⟩
      cases h
      cases o with
      | more m' => exact absurd hsim id
      | panic => exact absurd hsim id
      | done x m' =>
        obtain ⟨rfl, hlog, _⟩ := hsim
        rw [hlog]
        rcases hi with ⟨es, hi⟩ | hi
        · exact ⟨.inr (hi.done ho).1, (hi.done ho).2⟩
        · refine ⟨.inl hi.1, ?_⟩
          rintro v rfl
          cases ho with
          | accept v i h1 h2 =>
            obtain ⟨_, P, hP, hb⟩ := hi
            rw [h2] at hP
            cases List.mem_singleton.1 hP
            exact hb.elim

/-! ## The check -/

theorem lastsIn_at {g : Gram} {Q : Nat → Bool} {K : Nat} {l : List Sym} (h : g.lastsIn Q K l = true) : ∀ α n β, l = α ++ .nt n :: β → Q n = true →
    β = [] ∨ g.keepsAt K n β = true := by
  intro α
  induction α generalizing l with
  | nil =>
    rintro n β rfl hn
    simp only [List.nil_append, Gram.lastsIn, hn, Bool.not_true, Bool.false_or, Bool.and_eq_true, Bool.or_eq_true, List.isEmpty_iff] at h
    exact h.1
  | cons Z α ih =>
    rintro n β rfl hn
    refine ih (l := α ++ .nt n :: β) ?_ n β rfl hn
    cases Z with
    | tm t => simpa [Gram.lastsIn] using h
    | nt m =>
      simp only [List.cons_append, Gram.lastsIn, Bool.and_eq_true] at h
      exact h.2

theorem lasts_lasting {g : Gram} {Q : Nat → Bool} {K : Nat} (h : g.lasts Q K = true) {fresh : Nat} (hf : ¬ g.Used fresh) (hfr : g.Fruitful) :
    g.Lasting Q := by
  simp only [Gram.lasts, Bool.and_eq_true] at h
  obtain ⟨ke, hall⟩ := h
  have hrule : ∀ r ∈ g.rules, (∀ n, .nt n ∈ r.rhs → Q n = true → Q r.lhs = true) ∧ g.lastsIn Q K r.rhs = true := by
    intro r hr
    have := List.all_eq_true.1 hall r hr
    simp only [Bool.and_eq_true] at this
    refine ⟨fun n hn hq => ?_, this.2⟩
    have := List.all_eq_true.1 this.1 _ hn
    simpa [hq] using this
  refine ⟨fun r hr => (hrule r hr).1, ?_⟩
  intro γ0 δ X Y r hX h1 h2
  generalize γ0 ++ δ = γ at h1 ⊢
  rw [show γ ++ [.nt X, Y] = (γ ++ [.nt X]) ++ [Y] by simp, ← Gram.expects_iff hfr hf] at h1
  obtain ⟨i, r1, k1, k2, k3⟩ := h1
  obtain ⟨i2, r2, q0, q1', α, β, ρ, q2, q4, q3⟩ := k1.kernel γ (.nt X) r1 Y rfl k2 k3
  have q1 := List.mem_of_getElem? q1'
  have hβ : β ≠ [] := by
    rintro rfl
    cases q3.nil_left
  have herr : ∀ ζ, Expects (g.aug fresh) g.rules.length ζ (.nt K) → g.ErrorAt r ζ := by
    intro ζ hex
    obtain ⟨rule, x, v, α', β', e1, e2, e3, e4⟩ := h2
    obtain ⟨e5, β2, e6⟩ := errorsOf_rule ke (List.mem_of_getElem? e1) (by rw [e3]; simp)
    have e7 : (g.aug fresh)[r]? = some rule := by
      rw [Gram.aug, List.getElem?_append_left (by rw [List.getElem?_eq_some_iff] at e1; exact e1.1)]
      exact e1
    subst e5
    obtain ⟨a', hv'⟩ := hex.item (r0 := ⟨fresh, [.nt g.start]⟩) Gram.aug_start (hfr.aug hf) e7
    exact (Gram.errRule_iff hfr hf).1 ⟨_, rule, hv', rfl, e7, by rw [e6]; rfl⟩
  rcases List.mem_append.1 q1 with q1 | q1
  · rcases lastsIn_at (hrule r2 q1).2 α X β q2 hX with k | k
    · exact absurd k hβ
    · simp only [Gram.keepsAt, Bool.or_eq_true] at k
      rcases k with k | k
      · left
        obtain ⟨r', hr', k⟩ := List.any_eq_true.1 k
        simp only [Bool.and_eq_true, beq_iff_eq, List.isPrefixOf_iff_prefix] at k
        obtain ⟨rfl, δ, hδ⟩ := k
        have hR : r' ∈ g.aug fresh := List.mem_append_left _ hr'
        have hex : Expects (g.aug fresh) g.rules.length γ (.nt r'.lhs) := k1.expects_prefix γ _ [] rfl
        obtain ⟨j, hj⟩ := List.getElem?_of_mem hR
        obtain ⟨a, hv⟩ := hex.item (r0 := ⟨fresh, [.nt g.start]⟩) Gram.aug_start (hfr.aug hf) hj
        have hadv := Valid.advance γ ⟨j, 0, a⟩ r' (.nt r'.lhs) hv hj (by rw [← hδ]; rfl)
        exact herr _ ⟨_, r', hadv, hj, by rw [← hδ]; rfl⟩
      · split at k
        · rename_i m l'
          left
          refine herr _ (leads_expects hfr hf _ k ⟨i2, r2, q0, q1', ?_⟩)
          rw [q2, q4, List.getElem?_append_right (by omega), show α.length + 1 - α.length = 1 by omega]; rfl
        · rename_i t m l'
          right
          have hY : Y = .tm t := by
            obtain ⟨v, e, _⟩ := q3.terminal
            cases e
            rfl
          subst hY
          have hadv := Valid.advance _ i2 r2 (.tm t) q0 q1' (by rw [q2, q4, List.getElem?_append_right (by omega)]; simp)
          have := leads_expects hfr hf _ k ⟨_, r2, hadv, q1', by
            simp only
            rw [q2, q4, List.getElem?_append_right (by omega), show α.length + 1 + 1 - α.length = 2 by omega]
            rfl⟩
          rw [show γ ++ [Sym.nt X, Sym.tm t] = (γ ++ [.nt X]) ++ [.tm t] by simp]
          exact herr _ this
        · cases k
  · exfalso
    cases List.mem_singleton.1 q1
    cases α with
    | nil =>
      simp only [List.nil_append, List.cons.injEq] at q2
      exact hβ q2.2.symm
    | cons Z α => simp at q2

end Verif.Par
