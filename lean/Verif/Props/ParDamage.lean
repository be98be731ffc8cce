import Verif.Par.DamageProof
import Verif.Props.ParRightmost

/-!
# Property C91: damaged parts of an input cost exactly themselves
-/

namespace Verif.Par

variable {N T E : Type}

/-- C91: let a terminal follow directly behind every `error` in the rules, and let an input be a sentence in which parts have been replaced by something wrong
(`Damaged`).  Then the result is the value of the sentence with `error` for these parts and only these; nothing correct is lost or changed.  The callbacks for
the rest are called as in that tree; others may be called in addition, for phrases inside of the damaged parts (and then one of them may fail). -/
theorem c91_damaged (o : Seeds) (ho : o.Fair) (rules : List (Rule N T E)) (start : Nat) (hok : (gram rules start).Ok)
    (hfr : (gram rules start).Fruitful) (hcy : ¬ (gram rules start).Cyclic) (hs : (gram rules start).ErrorsStop) (p : Parser N T E) (hp : MakesParser o rules start p [])
    (idx : T → Nat) (input : List T) (f : Tree T) (hd : Damaged (gram rules start) idx input [] [.nt start] 0 [f] input.length)
    (lg : List (Call N T)) (v : N) (hev : Evals rules [f] lg (.ok [.nt v])) :
    (∃ c, ParsesTo idx p input (.ok v) c ∧ lg.Sublist c.log.reverse) ∨
    (∃ e c, ParsesTo idx p input (.error (.reducer e)) c ∧ ∃ rule ∈ rules, ∃ args, rule.gen args = .error e) := by
  obtain ⟨fresh, hx, hnw⟩ := noConflict_of_makes ho hok hp
  obtain ⟨K, hK⟩ : ∃ K, EndsWithin rules idx input start fresh K := by
    rcases c44_errors_apart o ho rules start hok hfr hs.errorsApart p hp idx input with ⟨x, c, n, hn⟩ | ⟨_, n, hn⟩
    · exact ⟨n, endsWithin hx fun c' h => by rw [hn] at h; cases h⟩
    · exact ⟨n, endsWithin hx fun c' h => by rw [hn] at h; cases h⟩
  rcases hd.reads hx hnw hcy hfr hs.stopIn hK hev (.zero _) rfl rfl .start Ctx.start_rule rfl (fun r h => h.elim) (.inl fun r h => h) with
    ⟨n, m, qs, h1, h2, h3, h4, _, h6, ⟨cl, h7, h8⟩, _⟩ | ⟨n, e, m, h1⟩
  · left
    have hq : ∃ i, qs = [.nt start v i] := by
      cases qs with
      | nil => cases h4
      | cons P qs =>
        cases qs with
        | cons => simp at h4
        | nil => cases P <;> simp [Piece.arg, Piece.sym] at h3 h4 <;> simp [h3, h4]
    obtain ⟨i, rfl⟩ := hq
    have hrun := h1.then (.done 0 _ _ _ (.accept v i (by rw [h6]; simp) (by simpa [Mach.init] using h2)))
    have := ((MachSim.init (p := p) (idx := idx) (input := input)).run hx _).2 _ hrun
    generalize hr : run idx p (n + (0 + 1)) (Cfg.init p input) = x at this
    cases x with
    | more c => exact absurd this id
    | panic => exact absurd this id
    | done x c =>
      obtain ⟨rfl, hlog, _⟩ := this
      refine ⟨c, ⟨_, hr⟩, ?_⟩
      rw [hlog]
      have : (m.look input).calls = cl := by simpa [Mach.look, Mach.init] using h7
      rw [this]
      exact h8
  · right
    have := ((MachSim.init (p := p) (idx := idx) (input := input)).run hx _).2 _ h1
    generalize hr : run idx p n (Cfg.init p input) = x at this
    cases x with
    | more c => exact absurd this id
    | panic => exact absurd this id
    | done x c =>
      obtain ⟨rfl, _⟩ := this
      obtain ⟨m1, _, h2⟩ := (h1.invariant (P := fun _ => True) (fun _ _ _ _ => trivial) trivial).2 _ _ rfl
      cases h2 with
      | fail r rule ps cs e _ h3 _ _ _ h4 => exact ⟨e, c, ⟨_, hr⟩, rule, List.mem_of_getElem? h3, _, h4⟩

/-- C91: with callbacks that never fail, `parse` succeeds with this value. -/
theorem c91_unfailing (o : Seeds) (ho : o.Fair) (rules : List (Rule N T E)) (start : Nat) (hok : (gram rules start).Ok)
    (hfr : (gram rules start).Fruitful) (hcy : ¬ (gram rules start).Cyclic) (hs : (gram rules start).ErrorsStop) (hc : Unfailing rules)
    (p : Parser N T E) (hp : MakesParser o rules start p []) (idx : T → Nat) (input : List T) (f : Tree T)
    (hd : Damaged (gram rules start) idx input [] [.nt start] 0 [f] input.length) :
    ∃ lg v c, Evals rules [f] lg (.ok [.nt v]) ∧ ParsesTo idx p input (.ok v) c ∧ lg.Sublist c.log.reverse := by
  obtain ⟨lg, as, hev⟩ := hd.unfailing hc
  obtain ⟨v, rfl⟩ : ∃ v, as = [.nt v] := by
    cases hd with
    | node =>
      cases hev with
      | node _ _ _ _ _ v _ _ as _ _ _ h2 => cases h2; exact ⟨v, rfl⟩
  rcases c91_damaged o ho rules start hok hfr hcy hs p hp idx input f hd lg v hev with ⟨c, h1, h2⟩ | ⟨e, c, _, rule, h3, args, h4⟩
  · exact ⟨lg, v, c, hev, h1, h2⟩
  · obtain ⟨w, hw⟩ := hc rule h3 args
    rw [h4] at hw
    cases hw

end Verif.Par
