import Verif.Par.Machine
import Verif.Par.SoundProof

/-!
# The parse loop follows the machine
-/

namespace Verif.Par

variable {N T E : Type}

/-- The symbol as it stands on the stack. -/
def Piece.ssym (idx : T → Nat) : Piece N T → SSym N
  | .nt _ v i => .nt v i
  | .tok t i => .tok (idx t) i
  | .err lo hi => .err lo hi

/-- Tokens are tokens of the input. -/
def Piece.Ok (input : List T) : Piece N T → Prop
  | .tok t i => input[i]? = some t
  | _ => True

/-- The stack holds these pieces. -/
inductive PSeg (p : Parser N T E) (idx : T → Nat) (input : List T) : List (Nat × SSym N) → Nat → List (Piece N T) → Prop
  | nil : PSeg p idx input [] p.tab.start []
  | push (st q ps q' P) : PSeg p idx input st q ps → p.tab.goes q (P.sym idx) = some q' → P.Ok input →
      PSeg p idx input ((q, P.ssym idx) :: st) q' (ps ++ [P])

/-- The machine is in the state of the parse loop. -/
structure MachSim (p : Parser N T E) (rules : List (Rule N T E)) (idx : T → Nat) (input : List T) (start fresh : Nat)
    (c : Cfg N T) (m : Mach N T) : Prop where
  reach : Reach p rules idx input start fresh c
  seg : PSeg p idx input c.stack c.state m.pieces
  read : c.read ++ c.src = input
  buf : (c.buffer = bufOf idx c.read m.pos ∧ m.polled = false) ∨
    (c.buffer = [(.eoi, 0)] ∧ c.src = [] ∧ m.pos = c.read.length ∧ m.polled = true)
  ple : m.pos ≤ c.read.length
  seen : m.seen = c.read.length
  pending : ∀ r, m.pending r ↔ r ∈ c.recov
  calls : m.calls = c.log.reverse

/-- Corresponding results. -/
def MachOut (p : Parser N T E) (rules : List (Rule N T E)) (idx : T → Nat) (input : List T) (start fresh : Nat) :
    Step N T E → MOut N T E → Prop
  | .more c, .more m => MachSim p rules idx input start fresh c m
  | .done x c, .done x' m => x = x' ∧ c.log.reverse = m.calls ∧ c.pulls = m.pulls
  | .panic, .panic => True
  | _, _ => False

section
variable {p : Parser N T E} {rules : List (Rule N T E)} {idx : T → Nat} {input : List T} {start fresh : Nat}

theorem PSeg.walk {st q} {ps : List (Piece N T)} (h : PSeg p idx input st q ps) : p.tab.walk (ps.map (Piece.sym idx)) = some q := by
  induction h with
  | nil => rfl
  | push st q ps q' P _ h2 _ ih =>
    rw [List.map_append, Tables.walk, walkFrom_append]
    rw [Tables.walk] at ih
    rw [ih]
    simp [Tables.walkFrom, h2]

theorem PSeg.split {st q} {ps0 ps1 : List (Piece N T)} (h : PSeg p idx input st q (ps0 ++ ps1)) :
    ∃ st0 st1 q0, st = st1 ++ st0 ∧ PSeg p idx input st0 q0 ps0 ∧ st1.reverse.map Prod.snd = ps1.map (Piece.ssym idx) ∧
      (∀ P ∈ ps1, P.Ok input) ∧ ((st1.reverse.head?.map Prod.fst).getD q) = q0 := by
  induction ps1 using snoc_induction generalizing st q with
  | hnil =>
    simp only [List.append_nil] at h
    exact ⟨st, [], q, rfl, h, rfl, by simp, rfl⟩
  | hsnoc l P ih =>
    generalize hw : ps0 ++ (l ++ [P]) = w at h
    cases h with
    | nil => simp at hw
    | push st q ps q' P' h1 h2 h3 =>
      rw [← List.append_assoc] at hw
      obtain ⟨rfl, hx⟩ := List.append_inj' hw rfl
      cases hx
      obtain ⟨st0, st1, q0, rfl, k1, k2, k3, k4⟩ := ih h1
      refine ⟨st0, (q, P.ssym idx) :: st1, q0, rfl, k1, by simp [k2], ?_, ?_⟩
      · intro P' hP'
        rcases List.mem_append.1 hP' with h | h
        · exact k3 P' h
        · simp at h; subst h; exact h3
      · rw [← k4, List.reverse_cons, List.head?_append]
        cases st1.reverse.head? with
        | none => rfl
        | some e => rfl

theorem firstIndex_pieces (d : Nat) (cs : List (Piece N T)) : firstIndex d (cs.map (Piece.ssym idx)) = startOf d cs := by
  induction cs with
  | nil => rfl
  | cons P cs ih => cases P <;> simp [firstIndex, startOf, Piece.ssym, ih]

theorem mkArgs_pieces {read src : List T} (hr : read ++ src = input) (k : Nat) (cs : List (Piece N T)) (args : List (Arg N T))
    (hok : ∀ P ∈ cs, P.Ok input) (h : mkArgs read k (cs.map (Piece.ssym idx)) = some args) :
    args = cs.map (Piece.arg input) ∧ ∀ P ∈ cs, ¬ P.Bad input := by
  induction cs generalizing k args with
  | nil => simp [mkArgs] at h; subst h; simp
  | cons P cs ih =>
    have hok' : ∀ P ∈ cs, P.Ok input := fun P hP => hok P (List.mem_cons_of_mem _ hP)
    cases P with
    | nt n v i =>
      simp only [List.map_cons, Piece.ssym, mkArgs, Option.map_eq_some_iff] at h
      obtain ⟨as, h1, rfl⟩ := h
      obtain ⟨rfl, h2⟩ := ih k as hok' h1
      refine ⟨rfl, ?_⟩
      intro P hP
      rcases List.mem_cons.1 hP with rfl | hP
      · exact id
      · exact h2 P hP
    | tok t i =>
      have ht : input[i]? = some t := hok _ List.mem_cons_self
      simp only [List.map_cons, Piece.ssym, mkArgs] at h
      split at h
      · cases h
      · split at h
        · cases h
        · rename_i t' ht'
          simp only [Option.map_eq_some_iff] at h
          obtain ⟨as, h1, rfl⟩ := h
          obtain ⟨rfl, h2⟩ := ih _ as hok' h1
          have hlt : i < read.length := by rw [List.getElem?_eq_some_iff] at ht'; exact ht'.1
          rw [← hr, List.getElem?_append_left hlt, ht'] at ht
          cases ht
          refine ⟨rfl, ?_⟩
          intro P hP
          rcases List.mem_cons.1 hP with rfl | hP
          · exact id
          · exact h2 P hP
    | err lo hi =>
      simp only [List.map_cons, Piece.ssym, mkArgs] at h
      split at h
      · rename_i hc
        simp only [Option.map_eq_some_iff] at h
        obtain ⟨as, h1, rfl⟩ := h
        obtain ⟨rfl, h2⟩ := ih _ as hok' h1
        have hlen : read.length ≤ input.length := by rw [← hr]; simp
        constructor
        · rw [List.map_cons]
          congr 1
          simp only [Piece.arg, Arg.err.injEq]
          rw [← hr, List.drop_append, List.take_append]
          have : hi + 1 - lo - (read.drop lo).length = 0 := by simp; omega
          rw [this]
          simp
        · intro P hP
          rcases List.mem_cons.1 hP with rfl | hP
          · show ¬ input.length ≤ hi
            omega
          · exact h2 P hP
      · cases h

/-- On the empty input only non-terminals and bad error symbols can be there. -/
theorem mkArgs_empty (k : Nat) (cs : List (Piece N T)) (hok : ∀ P ∈ cs, P.Ok ([] : List T)) (hb : ∀ P ∈ cs, ¬ P.Bad ([] : List T)) :
    ∃ args, mkArgs ([] : List T) k (cs.map (Piece.ssym idx)) = some args := by
  induction cs with
  | nil => exact ⟨_, rfl⟩
  | cons P cs ih =>
    obtain ⟨as, h⟩ := ih (fun P hP => hok P (List.mem_cons_of_mem _ hP)) (fun P hP => hb P (List.mem_cons_of_mem _ hP))
    cases P with
    | nt n v i => exact ⟨_, by simp only [List.map_cons, Piece.ssym, mkArgs, h, Option.map_some]; rfl⟩
    | tok t i => have := hok _ List.mem_cons_self; simp [Piece.Ok] at this
    | err lo hi => exact absurd (Nat.zero_le _) (hb _ List.mem_cons_self)

theorem mkArgs_bad {read src : List T} (hr : read ++ src = input) (k : Nat) (cs : List (Piece N T)) (P : Piece N T) (hP : P ∈ cs)
    (hb : P.Bad input) (hok : ∀ P ∈ cs, P.Ok input) : mkArgs read k (cs.map (Piece.ssym idx)) = none := by
  cases h : mkArgs read k (cs.map (Piece.ssym idx)) with
  | none => rfl
  | some args => exact absurd hb ((mkArgs_pieces hr k cs args hok h).2 P hP)

/-- The accepting symbols. -/
theorem accepts_iff_start (hx : Ctx p rules start fresh) {γ : List Sym} :
    Accepts ((gram rules start).aug fresh) rules.length γ ↔ γ = [.nt start] := by
  have hlen : (gram rules start).rules.length = rules.length := by simp [gram]
  have hsr : ((gram rules start).aug fresh)[rules.length]? = some ⟨fresh, [.nt start]⟩ := by simp [Gram.aug, gram]
  constructor
  · rintro ⟨b, rule, h1, h2⟩
    rw [hsr] at h1
    cases h1
    have h2' : Valid ((gram rules start).aug fresh) (gram rules start).rules.length γ ⟨(gram rules start).rules.length, 1, b⟩ := by
      rw [hlen]; exact h2
    rcases (start_items hx.unused h2' rfl).2 with ⟨h3, _⟩ | ⟨_, h3⟩
    · simp at h3
    · exact h3
  · rintro rfl
    exact ⟨.eoi, _, hsr, Valid.advance [] ⟨rules.length, 0, .eoi⟩ _ _ .start hsr rfl⟩

variable {c : Cfg N T} {m : Mach N T}

theorem fill_same : (fill idx c).state = c.state ∧ (fill idx c).stack = c.stack ∧ (fill idx c).log = c.log ∧
    (fill idx c).recov = c.recov := by
  unfold fill
  split
  · exact ⟨rfl, rfl, rfl, rfl⟩
  · split <;> exact ⟨rfl, rfl, rfl, rfl⟩

theorem Reach.filled (h : Reach p rules idx input start fresh c) : Reach p rules idx input start fresh (fill idx c) := by
  obtain ⟨j, γ, fs, lg, as, h1, h2⟩ := h
  exact ⟨j, γ, fs, lg, as, h1.fill.1, h2⟩

/-- Looking at the next token. -/
theorem MachSim.look (h : MachSim p rules idx input start fresh c m) :
    MachSim p rules idx input start fresh (fill idx c) (m.look input) ∧
    ((∃ t, input[m.pos]? = some t ∧ (fill idx c).buffer = (.sym (idx t), m.pos) :: bufOf idx (fill idx c).read (m.pos + 1) ∧
        (fill idx c).read[m.pos]? = some t) ∨
     (input[m.pos]? = none ∧ (fill idx c).buffer = [(.eoi, 0)] ∧ (fill idx c).src = [] ∧ m.pos = (fill idx c).read.length)) := by
  obtain ⟨s1, s2, s3, s4⟩ := fill_same (idx := idx) (c := c)
  have hlen : c.read.length + c.src.length = input.length := by rw [← h.read]; simp
  rcases h.buf with ⟨hb, hp⟩ | ⟨hb, hs, hj, hp⟩
  · by_cases hlt : m.pos < c.read.length
    · obtain ⟨t, ht⟩ : ∃ t, c.read[m.pos]? = some t := ⟨_, List.getElem?_eq_getElem hlt⟩
      have hin : input[m.pos]? = some t := by rw [← h.read, List.getElem?_append_left hlt]; exact ht
      have hb' := hb
      rw [bufOf_cons ht] at hb'
      have hf : Par.fill idx c = c := by unfold Par.fill; rw [hb']
      have hm : m.look input = m := by
        unfold Mach.look
        have e1 : max m.seen (min (m.pos + 1) input.length) = m.seen := by rw [h.seen]; omega
        have e2 : (m.polled || decide (input.length ≤ m.pos)) = m.polled := by
          rw [decide_eq_false (by omega)]; simp
        rw [e1, e2]
      rw [hf, hm]
      exact ⟨h, Or.inl ⟨t, hin, hb', ht⟩⟩
    · have hj : m.pos = c.read.length := by have := h.ple; omega
      rw [bufOf_end (by omega)] at hb
      cases hsrc : c.src with
      | nil =>
        have hf : Par.fill idx c = { c with buffer := [(.eoi, 0)], pulls := c.pulls + 1 } := by unfold Par.fill; rw [hb, hsrc]
        rw [hsrc] at hlen
        simp at hlen
        refine ⟨⟨h.reach.filled, by rw [s1, s2]; exact h.seg, by rw [hf]; exact h.read, Or.inr ⟨by rw [hf], by rw [hf]; exact hsrc, by rw [hf]; exact hj, ?_⟩,
          by rw [hf]; exact h.ple, ?_, fun r => by rw [s4]; exact h.pending r, by rw [s3]; exact h.calls⟩,
          Or.inr ⟨?_, by rw [hf], by rw [hf]; exact hsrc, by rw [hf]; exact hj⟩⟩
        · simp only [Mach.look]
          rw [decide_eq_true (by omega)]; simp
        · rw [hf]
          simp only [Mach.look]
          rw [h.seen]
          omega
        · rw [List.getElem?_eq_none_iff]; omega
      | cons t src =>
        rw [hsrc] at hlen
        simp at hlen
        have hf : Par.fill idx c = { c with buffer := [(.sym (idx t), c.read.length)], read := c.read ++ [t], src := src, pulls := c.pulls + 1 } := by
          unfold Par.fill; rw [hb, hsrc]
        have ht : (c.read ++ [t])[m.pos]? = some t := by rw [hj]; simp
        have hbuf : [(Term.sym (idx t), c.read.length)] = bufOf idx (c.read ++ [t]) m.pos := by
          rw [bufOf_cons ht, bufOf_end (by simp; omega), hj]
        have hrd : (c.read ++ [t]) ++ src = input := by rw [← h.read, hsrc]; simp
        refine ⟨⟨h.reach.filled, by rw [s1, s2]; exact h.seg, by rw [hf]; exact hrd, Or.inl ⟨by rw [hf]; exact hbuf, ?_⟩,
          by rw [hf]; simp [Mach.look]; omega, ?_, fun r => by rw [s4]; exact h.pending r, by rw [s3]; exact h.calls⟩,
          Or.inl ⟨t, ?_, by rw [hf]; simp only; rw [hbuf, bufOf_cons ht], by rw [hf]; exact ht⟩⟩
        · simp only [Mach.look]
          rw [hp, decide_eq_false (by omega)]; rfl
        · rw [hf]
          simp only [Mach.look]
          rw [h.seen]
          simp
          omega
        · rw [← hrd, List.getElem?_append_left (by simp; omega)]; exact ht
  · have hf : Par.fill idx c = c := by unfold Par.fill; rw [hb]
    rw [hs] at hlen
    simp at hlen
    have hm : m.look input = m := by
      unfold Mach.look
      have e1 : max m.seen (min (m.pos + 1) input.length) = m.seen := by rw [h.seen]; omega
      have e2 : (m.polled || decide (input.length ≤ m.pos)) = m.polled := by rw [hp]; rfl
      rw [e1, e2]
    rw [hf, hm]
    refine ⟨h, Or.inr ⟨?_, hb, hs, hj⟩⟩
    rw [List.getElem?_eq_none_iff]; omega

theorem MachSim.pulls (h : MachSim p rules idx input start fresh c m) : c.pulls = m.pulls := by
  obtain ⟨j, γ, fs, lg, as, h1, _⟩ := h.reach
  rw [h1.pulls, Mach.pulls, h.seen]
  rcases h.buf with ⟨hb, hp⟩ | ⟨hb, _, _, hp⟩
  · rw [hb, hp, if_neg bufOf_ne_eoi]; rfl
  · rw [hb, hp, if_pos rfl]; rfl

/-- The action for the next token. -/
theorem MachSim.step_eq (hx : Ctx p rules start fresh) (h : MachSim p rules idx input start fresh c m) :
    ∃ i, step idx p c = (match p.tab.act c.state (m.ahead idx input) with
      | some (.shift s) =>
        match m.ahead idx input with
        | .sym t => .more { fill idx c with state := s, stack := (c.state, .tok t i) :: c.stack, buffer := (fill idx c).buffer.tail }
        | .err => .panic
        | .eoi => .more { fill idx c with state := s, stack := (c.state, .eoi i) :: c.stack, buffer := (fill idx c).buffer.tail }
      | some (.reduce r) => onReduce p (fill idx c) r
      | some .accept =>
        match c.stack with
        | (_, .nt v _) :: _ => .done (.ok v) (fill idx c)
        | _ => .panic
      | none => onError idx p (fill idx c) (m.ahead idx input) i) ∧
      ((∃ t, input[m.pos]? = some t ∧ i = m.pos) ∨ (input[m.pos]? = none ∧ i = 0)) := by
  obtain ⟨row, hrow⟩ := hx.canon.row _ c.state h.seg.walk
  have hact : ∀ a, p.tab.act c.state a = get a row := by intro a; simp [Tables.act, hrow]
  obtain ⟨s1, s2, s3, s4⟩ := fill_same (idx := idx) (c := c)
  obtain ⟨_, ⟨t, k1, k2, k3⟩ | ⟨k1, k2, k3, k4⟩⟩ := h.look
  · refine ⟨m.pos, ?_, Or.inl ⟨t, k1, rfl⟩⟩
    have ha : m.ahead idx input = .sym (idx t) := by unfold Mach.ahead; rw [k1]
    rw [ha, hact]
    simp only [step, k2, s1, s2, hrow]
    cases get (Term.sym (idx t)) row with
    | none => rfl
    | some x => cases x <;> rfl
  · refine ⟨0, ?_, Or.inr ⟨k1, rfl⟩⟩
    have ha : m.ahead idx input = .eoi := by unfold Mach.ahead; rw [k1]
    rw [ha, hact]
    simp only [step, k2, s1, s2, hrow]
    cases get Term.eoi row with
    | none => rfl
    | some x => cases x <;> rfl

theorem reduce_eq (hx : Ctx p rules start fresh) {r : Nat} {rule : Rule N T E} (hr : rules[r]? = some rule) {ps cs : List (Piece N T)}
    (hseg : PSeg p idx input c.stack c.state (ps ++ cs)) (hcs : cs.map (Piece.sym idx) = rule.rhs) :
    ∃ st0 q0, PSeg p idx input st0 q0 ps ∧ (∀ P ∈ cs, P.Ok input) ∧
      onReduce p c r = (match mkArgs c.read 0 (cs.map (Piece.ssym idx)) with
        | none => .panic
        | some args =>
          match rule.gen args with
          | .error e => .done (.error (.reducer e)) { c with log := (r, args) :: c.log }
          | .ok v =>
            match (get q0 p.tab.goto).bind (get rule.lhs) with
            | none => .panic
            | some s =>
              .more { c with
                state := s
                stack := (q0, .nt v (startOf c.read.length cs)) :: st0
                log := (r, args) :: c.log
                recov := if c.recov.contains r then [] else c.recov }) := by
  obtain ⟨st0, st1, q0, h1, h2, h3, h4, h5⟩ := hseg.split
  have hlen : st1.length = rule.rhs.length := by
    have := congrArg List.length h3
    simp at this
    rw [this, ← hcs]
    simp
  have hrl : r < rules.length := by rw [List.getElem?_eq_some_iff] at hr; exact hr.1
  have hp : p.rules[r]? = some rule := by
    obtain ⟨d, hd⟩ := hx.prules
    rw [hd, List.getElem?_append_left hrl, hr]
  have htake : c.stack.take rule.rhs.length = st1 := by rw [h1, ← hlen]; simp
  have hdrop : c.stack.drop rule.rhs.length = st0 := by rw [h1, ← hlen]; simp
  have hnl : ¬ c.stack.length < rule.rhs.length := by rw [h1]; simp; omega
  refine ⟨st0, q0, h2, h4, ?_⟩
  simp only [onReduce, hp, hnl, if_false, htake, hdrop, h3, h5, firstIndex_pieces]
  cases mkArgs c.read 0 (cs.map (Piece.ssym idx)) with
  | none => rfl
  | some args =>
    simp only
    cases rule.gen args with
    | error e => rfl
    | ok v => cases (get q0 p.tab.goto).bind (get rule.lhs) <;> rfl

theorem recovRules_some {errors : List (Nat × List Nat)} {isEoi back : Bool} (hb : (isEoi && back) = false) {recov : List Nat}
    {state : Nat} {C : Nat → Prop} (hC : ∀ r, C r ↔ r ∈ (get state errors).getD [] ∧ (recov = [] ∨ r ∈ recov))
    (hne : ∀ es, get state errors = some es → es ≠ []) :
    (recovRules errors isEoi recov state back = none ∧ ∀ r, ¬ C r) ∨
    ∃ rs, recovRules errors isEoi recov state back = some rs ∧ rs ≠ [] ∧ (∀ r, r ∈ rs ↔ C r) ∧ ∃ r, C r := by
  unfold recovRules
  rw [hb]
  simp only [Bool.false_eq_true, if_false]
  cases hg : get state errors with
  | none =>
    left
    refine ⟨rfl, ?_⟩
    intro r hr
    have := (hC r).1 hr
    rw [hg] at this
    simp at this
  | some es =>
    rw [hg] at hC
    simp only [Option.getD_some] at hC
    simp only
    cases hrec : recov with
    | nil =>
      right
      subst hrec
      have := hne es hg
      obtain ⟨r, hr⟩ := List.exists_mem_of_ne_nil _ this
      refine ⟨es, rfl, this, fun r => by rw [hC]; simp, r, (hC r).2 ⟨hr, Or.inl rfl⟩⟩
    | cons r0 rs0 =>
      have hne' : (r0 :: rs0) ≠ [] := by simp
      rw [← hrec] at hne'
      rw [← hrec]
      have hie : recov.isEmpty = false := by rw [hrec]; rfl
      simp only [hie, Bool.false_eq_true, if_false]
      split
      · rename_i hany
        right
        simp only [List.any_eq_true, List.contains_iff_mem] at hany
        obtain ⟨r, h1, h2⟩ := hany
        have hm : ∀ r, r ∈ (recov.filter fun r => es.contains r) ↔ C r := by
          intro r
          rw [hC, List.mem_filter, List.contains_iff_mem]
          constructor
          · rintro ⟨a, b⟩; exact ⟨b, Or.inr a⟩
          · rintro ⟨a, b | b⟩
            · exact absurd b hne'
            · exact ⟨b, a⟩
        have hr : C r := (hC r).2 ⟨h2, Or.inr h1⟩
        refine ⟨_, rfl, ?_, hm, r, hr⟩
        intro h0
        have := (hm r).2 hr
        rw [h0] at this
        simp at this
      · rename_i hany
        left
        refine ⟨rfl, ?_⟩
        intro r hr
        obtain ⟨h1, h2 | h2⟩ := (hC r).1 hr
        · exact absurd h2 hne'
        · apply hany
          simp only [List.any_eq_true, List.contains_iff_mem]
          exact ⟨r, h2, h1⟩

/-- Which error rules can be chosen, in the program. -/
theorem choice_iff (hx : Ctx p rules start fresh) {pending : Nat → Prop} {recov : List Nat} (hp : ∀ r, pending r ↔ r ∈ recov)
    {γ : List Sym} {q : Nat} (hw : p.tab.walk γ = some q) (r : Nat) :
    Choice ((gram rules start).aug fresh) rules.length pending γ r ↔ r ∈ (get q p.tab.errors).getD [] ∧ (recov = [] ∨ r ∈ recov) := by
  unfold Choice
  rw [hx.canon.errors γ q r hw, hp]
  have : (∀ r', ¬ pending r') ↔ recov = [] := by
    constructor
    · intro h
      cases recov with
      | nil => rfl
      | cons a l => exact absurd ((hp a).2 List.mem_cons_self) (h a)
    · rintro rfl r'
      rw [hp]; simp
  rw [this]
  exact Iff.rfl

theorem startOf_snoc (d : Nat) (l : List (Piece N T)) (P : Piece N T) :
    startOf d (l ++ [P]) = startOf (startOf d [P]) l := by
  induction l with
  | nil => rfl
  | cons Q l ih => cases Q <;> simp [startOf, ih]

theorem errStartOf_snoc (d : Nat) (l : List (Piece N T)) (P : Piece N T) :
    errStartOf d (l ++ [P]) = errStartOf (errStartOf d [P]) l := by
  induction l with
  | nil => rfl
  | cons Q l ih => cases Q <;> simp [errStartOf, ih]

/-- The search in front of a token. -/
theorem recover_pieces (hx : Ctx p rules start fresh) {pending : Nat → Prop} {recov : List Nat} (hp : ∀ r, pending r ↔ r ∈ recov)
    {st : List (Nat × SSym N)} {q : Nat} {ps : List (Piece N T)} (h : PSeg p idx input st q ps) (head errHead : Nat) (back : Bool) :
    (recover p.tab.errors false recov st q head errHead back = none ∧
      ∀ keep drop, ps = keep ++ drop → ∀ r, ¬ Choice ((gram rules start).aug fresh) rules.length pending (keep.map (Piece.sym idx)) r) ∨
    ∃ keep drop st' q' rs, ps = keep ++ drop ∧ PSeg p idx input st' q' keep ∧
      (∃ r, Choice ((gram rules start).aug fresh) rules.length pending (keep.map (Piece.sym idx)) r) ∧
      (∀ keep' drop', ps = keep' ++ drop' → keep.length < keep'.length →
        ∀ r, ¬ Choice ((gram rules start).aug fresh) rules.length pending (keep'.map (Piece.sym idx)) r) ∧
      (∀ r, r ∈ rs ↔ Choice ((gram rules start).aug fresh) rules.length pending (keep.map (Piece.sym idx)) r) ∧
      recover p.tab.errors false recov st q head errHead back =
        some (q', st', rs, startOf head drop, errStartOf errHead drop, back || !drop.isEmpty) := by
  induction h generalizing head errHead back with
  | nil =>
    rcases recovRules_some (isEoi := false) (back := back) rfl (choice_iff hx hp (γ := []) (q := p.tab.start) rfl)
      (hx.canon.errors_ne p.tab.start) with ⟨h1, h2⟩ | ⟨rs, h1, h2, h3, h4⟩
    · left
      refine ⟨by simp only [recover, h1]; rfl, ?_⟩
      intro keep drop hk
      simp at hk
      rw [hk.1]
      exact h2
    · right
      refine ⟨[], [], [], _, rs, rfl, .nil, h4, ?_, h3, by simp [recover, h1, startOf, errStartOf]⟩
      intro keep' drop' hk hl
      simp at hk
      rw [hk.1] at hl
      simp at hl
  | push st q ps q' P h1 h2 h3 ih =>
    have hw := (PSeg.push st q ps q' P h1 h2 h3).walk
    rcases recovRules_some (isEoi := false) (back := back) rfl (choice_iff hx hp hw)
      (hx.canon.errors_ne q') with ⟨k1, k2⟩ | ⟨rs, k1, k2, k3, k4⟩
    · have hrec : recover p.tab.errors false recov ((q, P.ssym idx) :: st) q' head errHead back =
          recover p.tab.errors false recov st q (startOf head [P]) (errStartOf errHead [P]) true := by
        simp only [recover, k1]
        cases P <;> rfl
      rw [hrec]
      have hpre : ∀ keep drop, ps ++ [P] = keep ++ drop → keep = ps ++ [P] ∨ ∃ drop', ps = keep ++ drop' := by
        intro keep drop hk
        cases drop using snoc_induction with
        | hnil => left; simpa using hk.symm
        | hsnoc l a =>
          rw [← List.append_assoc] at hk
          exact Or.inr ⟨l, (List.append_inj' hk rfl).1⟩
      rcases ih (startOf head [P]) (errStartOf errHead [P]) true with ⟨e1, e2⟩ | ⟨keep, drop, st', q'', rs, e1, e2, e3, e4, e5, e6⟩
      · left
        refine ⟨e1, ?_⟩
        intro keep drop hk
        rcases hpre keep drop hk with rfl | ⟨d, hd⟩
        · exact k2
        · exact e2 keep d hd
      · right
        refine ⟨keep, drop ++ [P], st', q'', rs, by rw [e1]; simp, e2, e3, ?_, e5, ?_⟩
        · intro keep' drop' hk hl
          rcases hpre keep' drop' hk with rfl | ⟨d, hd⟩
          · exact k2
          · exact e4 keep' d hd hl
        · rw [e6, startOf_snoc, errStartOf_snoc]
          simp
    · right
      refine ⟨ps ++ [P], [], (q, P.ssym idx) :: st, q', rs, by simp, .push _ _ _ _ _ h1 h2 h3, k4, ?_, k3, ?_⟩
      · intro keep' drop' hk hl
        have := congrArg List.length hk
        simp at this hl
        omega
      · simp [recover, k1, startOf, errStartOf]

theorem recover_end (errors : List (Nat × List Nat)) (recov : List Nat) (st : List (Nat × SSym N)) (q head errHead : Nat) :
    recover errors true recov st q head errHead true = none := by
  induction st generalizing q head errHead with
  | nil => simp [recover, recovRules]
  | cons e st ih =>
    obtain ⟨s, y⟩ := e
    have : recovRules errors true recov q true = none := by simp [recovRules]
    simp only [recover, this]
    cases y <;> exact ih _ _ _

/-- No action exactly if the machine is stuck. -/
theorem stuck_iff (hx : Ctx p rules start fresh) {γ : List Sym} {q : Nat} (hw : p.tab.walk γ = some q) (a : Term) :
    NoMove ((gram rules start).aug fresh) rules.length start γ a ↔ p.tab.act q a = none := by
  constructor
  · rintro ⟨h1, h2, h3⟩
    cases hact : p.tab.act q a with
    | none => rfl
    | some x =>
      exfalso
      cases x with
      | shift s => exact h1 ((hx.canon.goes γ q _ hw).1 ⟨s, goes_of_shift hact⟩)
      | accept =>
        have := (hx.canon.accept γ q a hw).1 hact
        exact h2 ⟨this.1, (accepts_iff_start hx).1 this.2⟩
      | reduce r =>
        obtain ⟨k1, k2, _⟩ := (hx.canon.reduce γ q a r hw).1 hact
        exact h3 r k1 k2
  · intro hn
    have h1 : ¬ Expects ((gram rules start).aug fresh) rules.length γ (.tm a) := by
      intro h
      obtain ⟨s, hs⟩ := (hx.canon.goes γ q _ hw).2 h
      rw [shift_of_goes hs] at hn
      cases hn
    have h2 : ¬ (a = .eoi ∧ Accepts ((gram rules start).aug fresh) rules.length γ) := by
      intro h
      rw [(hx.canon.accept γ q a hw).2 h] at hn
      cases hn
    refine ⟨h1, by rw [← accepts_iff_start hx]; exact h2, ?_⟩
    intro r hr hc
    obtain ⟨r0, ⟨k1, k2⟩, k3⟩ : ∃ r0, (r0 ≠ rules.length ∧ Complete ((gram rules start).aug fresh) rules.length γ r0 a) ∧
        ∀ j < r0, ¬ (j ≠ rules.length ∧ Complete ((gram rules start).aug fresh) rules.length γ j a) := by
      have : ∃ i, i ≠ rules.length ∧ Complete ((gram rules start).aug fresh) rules.length γ i a := ⟨r, hr, hc⟩
      obtain ⟨i, hi⟩ := this
      induction i using Nat.strongRecOn with
      | ind i ih =>
        by_cases hj : ∃ j < i, j ≠ rules.length ∧ Complete ((gram rules start).aug fresh) rules.length γ j a
        · obtain ⟨j, h1, h2⟩ := hj; exact ih j h1 h2
        · exact ⟨i, hi, fun j h1 h2 => hj ⟨j, h1, h2⟩⟩
    rw [(hx.canon.reduce γ q a r0 hw).2 ⟨k1, k2, h1, h2, fun r' h3 h4 => Nat.le_of_not_lt fun h5 => k3 r' h5 ⟨h3, h4⟩⟩] at hn
    cases hn

theorem reduces_iff (hx : Ctx p rules start fresh) {γ : List Sym} {q : Nat} (hw : p.tab.walk γ = some q) (a : Term) (r : Nat) :
    Reduces ((gram rules start).aug fresh) rules.length start γ a r ↔ p.tab.act q a = some (.reduce r) := by
  rw [hx.canon.reduce γ q a r hw, accepts_iff_start hx]
  unfold Reduces
  constructor
  · rintro ⟨h1, h2, h3, h4, h5⟩; exact ⟨h3, h4, h1, h2, h5⟩
  · rintro ⟨h3, h4, h1, h2, h5⟩; exact ⟨h1, h2, h3, h4, h5⟩

theorem append_prefix_unique {α : Type} {a b c d : List α} (h : a ++ b = c ++ d) (hl : a.length = c.length) : a = c ∧ b = d :=
  List.append_inj h hl

/-- The program does what the machine does. -/
theorem MachSim.step (hx : Ctx p rules start fresh) (h : MachSim p rules idx input start fresh c m) {o : MOut N T E}
    (ho : MStep rules ((gram rules start).aug fresh) rules.length start idx input m o) :
    MachOut p rules idx input start fresh (Par.step idx p c) o := by
  obtain ⟨i, hs, hi⟩ := h.step_eq hx
  obtain ⟨hl, hbuf⟩ := h.look
  have hw := h.seg.walk
  obtain ⟨s1, s2, s3, s4⟩ := fill_same (idx := idx) (c := c)
  have hreach : ∀ c', Par.step idx p c = .more c' → Reach p rules idx input start fresh c' := by
    intro c' hc'
    rcases h.reach.step hx with ⟨c'', e1, e2⟩ | e1
    · rw [e1] at hc'; cases hc'; exact e2
    · rw [hc'] at e1; cases e1
  have hnp : Par.step idx p c = .panic → input = [] := by
    intro hc'
    rcases h.reach.step hx with ⟨c'', e1, e2⟩ | e1
    · rw [e1] at hc'; cases hc'
    · rw [hc'] at e1; cases e1; assumption
  have hahead : ∀ t, input[m.pos]? = some t → m.ahead idx input = .sym (idx t) := by
    intro t ht; unfold Mach.ahead; rw [ht]
  have hahead' : input[m.pos]? = none → m.ahead idx input = .eoi := by
    intro ht; unfold Mach.ahead; rw [ht]
  -- reductions
  have hred : ∀ r rule ps cs, Reduces ((gram rules start).aug fresh) rules.length start (m.read idx) (m.ahead idx input) r →
      rules[r]? = some rule → m.pieces = ps ++ cs → cs.map (Piece.sym idx) = rule.rhs →
      Par.step idx p c = onReduce p (fill idx c) r ∧ PSeg p idx input (fill idx c).stack (fill idx c).state (ps ++ cs) := by
    intro r rule ps cs h1 h2 h3 h4
    rw [(reduces_iff hx hw _ r).1 h1] at hs
    refine ⟨hs, ?_⟩
    rw [s1, s2, ← h3]
    exact h.seg
  cases ho with
  | shift t ht he =>
    obtain ⟨s, hg⟩ := (hx.canon.goes _ _ _ hw).2 he
    rw [hahead t ht, shift_of_goes hg] at hs
    simp only at hs
    rcases hbuf with ⟨t', k1, k2, k3⟩ | ⟨k1, _⟩
    · rw [ht] at k1
      cases k1
      have hi' : i = m.pos := by
        rcases hi with ⟨_, _, hi⟩ | ⟨hi, _⟩
        · exact hi
        · rw [ht] at hi; cases hi
      subst hi'
      rw [hs]
      refine ⟨hreach _ hs, ?_, hl.read, Or.inl ⟨by simp [k2], ?_⟩, ?_, hl.seen, hl.pending, hl.calls⟩
      · exact .push _ _ _ _ (.tok t m.pos) h.seg hg ht
      · rcases hl.buf with ⟨_, k4⟩ | ⟨k4, _⟩
        · exact k4
        · rw [k2] at k4; cases k4
      · rw [List.getElem?_eq_some_iff] at k3
        exact k3.1
    · rw [ht] at k1; cases k1
  | accept v i' ht hp =>
    have hacc : p.tab.act c.state .eoi = some .accept :=
      (hx.canon.accept _ _ _ hw).2 ⟨rfl, (accepts_iff_start hx).2 (by rw [hp]; rfl)⟩
    rw [hahead' ht, hacc] at hs
    simp only at hs
    have hst : ∃ q, c.stack = [(q, .nt v i')] := by
      have hseg := h.seg
      rw [hp] at hseg
      obtain ⟨st0, st1, q0, e1, e2, e3, _⟩ := PSeg.split (ps0 := []) hseg
      generalize hn : ([] : List (Piece N T)) = pn at e2
      cases e2 with
      | nil =>
        simp at e1
        rw [e1]
        have hl1 : st1.length = 1 := by simpa using congrArg List.length e3
        obtain ⟨⟨q, y⟩, rfl⟩ := List.length_eq_one_iff.1 hl1
        simp [Piece.ssym] at e3
        exact ⟨q, by rw [e3]⟩
      | push => simp at hn
    obtain ⟨q, hst⟩ := hst
    rw [hst] at hs
    simp only at hs
    rw [hs]
    exact ⟨rfl, hl.calls.symm, hl.pulls⟩
  | reduce r rule ps cs v h1 h2 h3 h4 h5 h6 =>
    obtain ⟨e1, e2⟩ := hred r rule ps cs h1 h2 h3 h4
    obtain ⟨st0, q0, e3, e4, e5⟩ := reduce_eq hx h2 e2 h4
    rw [e5] at e1
    cases hm : mkArgs (fill idx c).read 0 (cs.map (Piece.ssym idx)) with
    | none =>
      rw [hm] at e1
      have hin := hnp e1
      subst hin
      have hrd : (fill idx c).read = [] := by
        have := hl.read
        exact (List.append_eq_nil_iff.1 this).1
      obtain ⟨args, ha⟩ := mkArgs_empty (idx := idx) 0 cs e4 h5
      rw [hrd, ha] at hm
      cases hm
    | some args =>
      rw [hm] at e1
      obtain ⟨rfl, _⟩ := mkArgs_pieces hl.read 0 cs args e4 hm
      simp only [h6] at e1
      obtain ⟨γ0, prule, c1, c2, c3⟩ := h1.2.2.2.1.split ⟨_, by simp [Gram.aug, gram]; rfl⟩ h1.2.2.1
      have hpr : prule = rule.plain := by
        have hrl : r < rules.length := by rw [List.getElem?_eq_some_iff] at h2; exact h2.1
        simp only [Gram.aug, gram] at c1
        rw [List.getElem?_append_left (by simpa using hrl), List.getElem?_map, h2] at c1
        cases c1
        rfl
      subst hpr
      have hγ0 : γ0 = ps.map (Piece.sym idx) := by
        unfold Mach.read at c2
        rw [h3, List.map_append, h4] at c2
        exact (List.append_inj' c2 rfl).1.symm
      obtain ⟨s, hg⟩ := (hx.canon.goes _ q0 (.nt rule.lhs) e3.walk).2 (by rw [← hγ0]; exact c3)
      have hg' : (get q0 p.tab.goto).bind (get rule.lhs) = some s := hg
      rw [hg'] at e1
      simp only at e1
      rw [e1]
      refine ⟨hreach _ e1, ?_, hl.read, hl.buf, hl.ple, hl.seen, ?_, ?_⟩
      · have := PSeg.push _ _ _ _ (.nt rule.lhs v (startOf (fill idx c).read.length cs)) e3 hg trivial
        rw [show (m.look input).seen = (fill idx c).read.length from hl.seen]
        exact this
      · intro r'
        have hpend := hl.pending
        have hpm : ∀ r, m.pending r ↔ r ∈ (fill idx c).recov := hpend
        simp only
        rw [hpm r', hpm r]
        split
        · rename_i hc; rw [List.contains_iff_mem] at hc; simp [hc]
        · rename_i hc; rw [List.contains_iff_mem] at hc; simp [hc]
      · simp only [List.reverse_cons]
        rw [← hl.calls]
        rfl
  | fail r rule ps cs e h1 h2 h3 h4 h5 h6 =>
    obtain ⟨e1, e2⟩ := hred r rule ps cs h1 h2 h3 h4
    obtain ⟨st0, q0, e3, e4, e5⟩ := reduce_eq hx h2 e2 h4
    rw [e5] at e1
    cases hm : mkArgs (fill idx c).read 0 (cs.map (Piece.ssym idx)) with
    | none =>
      rw [hm] at e1
      have hin := hnp e1
      subst hin
      have hrd : (fill idx c).read = [] := by
        have := hl.read
        exact (List.append_eq_nil_iff.1 this).1
      obtain ⟨args, ha⟩ := mkArgs_empty (idx := idx) 0 cs e4 h5
      rw [hrd, ha] at hm
      cases hm
    | some args =>
      rw [hm] at e1
      obtain ⟨rfl, _⟩ := mkArgs_pieces hl.read 0 cs args e4 hm
      simp only [h6] at e1
      rw [e1]
      refine ⟨rfl, ?_, hl.pulls⟩
      simp only [List.reverse_cons]
      rw [← hl.calls]
      rfl
  | bad r rule ps cs P h1 h2 h3 h4 h5 h6 =>
    obtain ⟨e1, e2⟩ := hred r rule ps cs h1 h2 h3 h4
    obtain ⟨st0, q0, e3, e4, e5⟩ := reduce_eq hx h2 e2 h4
    rw [e5, mkArgs_bad hl.read 0 cs P h5 h6 e4] at e1
    rw [e1]
    trivial
  | recover t keep drop ht hst hk hch hmax =>
    rw [hahead t ht, (stuck_iff hx hw _).1 hst] at hs
    simp only at hs
    have hi' : i = m.pos := by
      rcases hi with ⟨_, _, hi⟩ | ⟨hi, _⟩
      · exact hi
      · rw [ht] at hi; cases hi
    subst hi'
    rcases hbuf with ⟨t', k1, k2, k3⟩ | ⟨k1, _⟩
    · rw [ht] at k1
      cases k1
      have hpos : m.pos < (fill idx c).read.length := by rw [List.getElem?_eq_some_iff] at k3; exact k3.1
      rcases recover_pieces hx hl.pending hl.seg m.pos m.pos false with ⟨_, e2⟩ | ⟨keep', drop', st', q', rs, e1, e2, e3, e4, e5, e6⟩
      · obtain ⟨r, hr⟩ := hch
        exact absurd hr (e2 keep drop hk r)
      · have hk' : m.pieces = keep' ++ drop' := e1
        have hlen : keep'.length = keep.length := by
          rcases Nat.lt_trichotomy keep'.length keep.length with hlt | heq | hlt
          · obtain ⟨r, hr⟩ := hch
            exact absurd hr (e4 keep drop hk hlt r)
          · exact heq
          · obtain ⟨r, hr⟩ := e3
            exact absurd hr (hmax keep' drop' hk' hlt r)
        obtain ⟨rfl, rfl⟩ := append_prefix_unique (hk'.symm.trans hk) hlen
        -- the rest of the step
        have hexp : Expects ((gram rules start).aug fresh) rules.length (keep'.map (Piece.sym idx)) (.tm .err) := by
          obtain ⟨r, ⟨i, rule, a1, a2, a3, a4⟩, _⟩ := hch
          subst a2
          exact ⟨i, rule, a1, a3, a4⟩
        obtain ⟨row, hrow⟩ := hx.canon.row _ q' e2.walk
        obtain ⟨s, hg⟩ := (hx.canon.goes _ q' _ e2.walk).2 hexp
        have hsh : get .err row = some (.shift s) := by
          have := shift_of_goes hg
          simpa [Tables.act, hrow] using this
        have hb2 : (fill idx c).buffer = bufOf idx (fill idx c).read m.pos := by rw [k2, bufOf_cons k3]
        have hne : ((Term.sym (idx t)) == Term.eoi) = false := rfl
        have hone : onError idx p (fill idx c) (.sym (idx t)) m.pos = .more { fill idx c with
            state := s
            stack := (q', .err (min (startOf m.pos drop') (errStartOf m.pos drop')) m.pos) :: st'
            buffer := bufOf idx (fill idx c).read (if drop'.isEmpty then m.pos else min (startOf m.pos drop') m.pos + 1)
            recov := rs } := by
          have hrep : repush idx (fill idx c).read (startOf m.pos drop') m.pos (fill idx c).buffer =
              some (bufOf idx (fill idx c).read (min (startOf m.pos drop') m.pos)) := by
            rw [hb2, repush_bufOf (by omega)]
          unfold onError
          rw [hne, e6]
          simp only [hrep, hrow, hsh]
          cases drop' with
          | nil => simp [startOf]
          | cons P l =>
            have hlt' : min (startOf m.pos (P :: l)) m.pos < (fill idx c).read.length := by omega
            simp only [List.isEmpty_cons, Bool.not_false, Bool.or_true, if_true, Bool.false_eq_true, if_false]
            rw [bufOf_cons (List.getElem?_eq_getElem hlt')]
            rfl
        rw [hone] at hs
        rw [hs]
        refine ⟨hreach _ hs, ?_, hl.read, Or.inl ⟨rfl, ?_⟩, ?_, hl.seen, fun r => (e5 r).symm, hl.calls⟩
        · exact .push _ _ _ _ (.err (min (startOf m.pos drop') (errStartOf m.pos drop')) m.pos) e2 hg trivial
        · rcases hl.buf with ⟨_, k4⟩ | ⟨k4, _⟩
          · exact k4
          · rw [k2] at k4; cases k4
        · simp only
          split <;> omega
    · rw [ht] at k1; cases k1
  | recoverEnd ht hst hch =>
    rw [hahead' ht, (stuck_iff hx hw _).1 hst] at hs
    simp only at hs
    have hi' : i = 0 := by
      rcases hi with ⟨_, hi, _⟩ | ⟨_, hi⟩
      · rw [ht] at hi; cases hi
      · exact hi
    subst hi'
    rcases hbuf with ⟨t', k1, _⟩ | ⟨k1, k2, k3, k4⟩
    · rw [ht] at k1; cases k1
    · have hpm : ∀ r, m.pending r ↔ r ∈ (fill idx c).recov := hl.pending
      have hw' : p.tab.walk (m.read idx) = some (fill idx c).state := by rw [s1]; exact hw
      rcases recovRules_some (isEoi := true) (back := false) rfl (choice_iff hx hpm hw')
        (hx.canon.errors_ne (fill idx c).state) with ⟨_, e2⟩ | ⟨rs, e1, e2, e3, e4⟩
      · obtain ⟨r, hr⟩ := hch; exact absurd hr (e2 r)
      · have hrec : recover p.tab.errors true (fill idx c).recov (fill idx c).stack (fill idx c).state 0 0 false =
            some ((fill idx c).state, (fill idx c).stack, rs, 0, 0, false) := by
          cases hst' : (fill idx c).stack with
          | nil => simp [recover, e1]
          | cons e st => obtain ⟨a, b⟩ := e; simp [recover, e1]
        have hexp : Expects ((gram rules start).aug fresh) rules.length (m.read idx) (.tm .err) := by
          obtain ⟨r, ⟨i, rule, a1, a2, a3, a4⟩, _⟩ := hch
          subst a2
          exact ⟨i, rule, a1, a3, a4⟩
        obtain ⟨row, hrow⟩ := hx.canon.row _ _ hw'
        obtain ⟨s, hg⟩ := (hx.canon.goes _ _ _ hw').2 hexp
        have hsh : get .err row = some (.shift s) := by
          have := shift_of_goes hg
          simpa [Tables.act, hrow] using this
        have hrep : repush idx (fill idx c).read 0 0 (fill idx c).buffer = some (fill idx c).buffer := rfl
        have hone : onError idx p (fill idx c) .eoi 0 = .more { fill idx c with
            state := s
            stack := ((fill idx c).state, .err 0 0) :: (fill idx c).stack
            recov := rs } := by
          unfold onError
          have hee : (Term.eoi == Term.eoi) = true := rfl
          rw [hee, hrec]
          simp only [hrep, hrow, hsh]
          rfl
        rw [hone] at hs
        rw [hs]
        refine ⟨hreach _ hs, ?_, hl.read, hl.buf, hl.ple, hl.seen, fun r => (e3 r).symm, hl.calls⟩
        exact .push _ _ _ _ (.err 0 0) hl.seg hg trivial
  | giveUp t ht hst hno =>
    rw [hahead t ht, (stuck_iff hx hw _).1 hst] at hs
    simp only at hs
    have hi' : i = m.pos := by
      rcases hi with ⟨_, _, hi⟩ | ⟨hi, _⟩
      · exact hi
      · rw [ht] at hi; cases hi
    subst hi'
    rcases recover_pieces hx hl.pending hl.seg m.pos m.pos false with ⟨e1, _⟩ | ⟨keep', drop', st', q', rs, e1, e2, e3, e4, e5, e6⟩
    · have hone : onError idx p (fill idx c) (.sym (idx t)) m.pos = .done (.error .noRecovery) { fill idx c with stack := [] } := by
        unfold onError
        have hne : ((Term.sym (idx t)) == Term.eoi) = false := rfl
        rw [hne, e1]
      rw [hone] at hs
      rw [hs]
      exact ⟨rfl, hl.calls.symm, hl.pulls⟩
    · obtain ⟨r, hr⟩ := e3
      exact absurd hr (hno keep' drop' e1 r)
  | giveUpEnd ht hst hno =>
    rw [hahead' ht, (stuck_iff hx hw _).1 hst] at hs
    simp only at hs
    have hi' : i = 0 := by
      rcases hi with ⟨_, hi, _⟩ | ⟨_, hi⟩
      · rw [ht] at hi; cases hi
      · exact hi
    subst hi'
    have hpm : ∀ r, m.pending r ↔ r ∈ (fill idx c).recov := hl.pending
    have hw' : p.tab.walk (m.read idx) = some (fill idx c).state := by rw [s1]; exact hw
    rcases recovRules_some (isEoi := true) (back := false) rfl (choice_iff hx hpm hw')
      (hx.canon.errors_ne (fill idx c).state) with ⟨e1, _⟩ | ⟨rs, e1, e2, e3, ⟨r, e4⟩⟩
    · have hrec : recover p.tab.errors true (fill idx c).recov (fill idx c).stack (fill idx c).state 0 0 false = none := by
        cases hst' : (fill idx c).stack with
        | nil => simp [recover, e1]
        | cons e st =>
          obtain ⟨a, b⟩ := e
          simp only [recover, e1]
          cases b <;> exact recover_end _ _ _ _ _ _
      have hone : onError idx p (fill idx c) .eoi 0 = .done (.error .noRecovery) { fill idx c with stack := [] } := by
        unfold onError
        have hee : (Term.eoi == Term.eoi) = true := rfl
        rw [hee, hrec]
      rw [hone] at hs
      rw [hs]
      exact ⟨rfl, hl.calls.symm, hl.pulls⟩
    · exact absurd e4 (hno r)

/-- The machine can always go on. -/
theorem MachSim.progress (hx : Ctx p rules start fresh) (h : MachSim p rules idx input start fresh c m) :
    ∃ o, MStep rules ((gram rules start).aug fresh) rules.length start idx input m o := by
  have hw := h.seg.walk
  have hsr : ((gram rules start).aug fresh)[rules.length]? = some ⟨fresh, [.nt start]⟩ := by simp [Gram.aug, gram]
  cases hact : p.tab.act c.state (m.ahead idx input) with
  | none =>
    have hst := (stuck_iff hx hw _).2 hact
    cases ht : input[m.pos]? with
    | some t =>
      have ha : m.ahead idx input = .sym (idx t) := by unfold Mach.ahead; rw [ht]
      rw [ha] at hst
      rcases recover_pieces hx h.pending h.seg m.pos m.pos false with ⟨_, e2⟩ | ⟨keep, drop, st', q', rs, e1, e2, e3, e4, e5, e6⟩
      · exact ⟨_, .giveUp t ht hst e2⟩
      · exact ⟨_, .recover t keep drop ht hst e1 e3 e4⟩
    | none =>
      have ha : m.ahead idx input = .eoi := by unfold Mach.ahead; rw [ht]
      rw [ha] at hst
      by_cases hch : ∃ r, Choice ((gram rules start).aug fresh) rules.length m.pending (m.read idx) r
      · exact ⟨_, .recoverEnd ht hst hch⟩
      · exact ⟨_, .giveUpEnd ht hst fun r hr => hch ⟨r, hr⟩⟩
  | some x =>
    cases x with
    | shift s =>
      have he := (hx.canon.goes _ _ _ hw).1 ⟨s, goes_of_shift hact⟩
      cases ht : input[m.pos]? with
      | some t =>
        have ha : m.ahead idx input = .sym (idx t) := by unfold Mach.ahead; rw [ht]
        rw [ha] at he
        exact ⟨_, .shift t ht he⟩
      | none =>
        have ha : m.ahead idx input = .eoi := by unfold Mach.ahead; rw [ht]
        rw [ha] at he
        exact absurd he (hx.no_eoi _)
    | accept =>
      obtain ⟨h1, h2⟩ := (hx.canon.accept _ _ _ hw).1 hact
      rw [accepts_iff_start hx] at h2
      have ht : input[m.pos]? = none := by
        cases ht : input[m.pos]? with
        | none => rfl
        | some t => unfold Mach.ahead at h1; rw [ht] at h1; cases h1
      match hps : m.pieces, h2 with
      | [.nt n v i], h2 =>
        simp [Piece.sym] at h2
        subst h2
        exact ⟨_, .accept v i ht hps⟩
    | reduce r =>
      have hred := (reduces_iff hx hw _ r).2 hact
      obtain ⟨γ0, prule, c1, c2, c3⟩ := hred.2.2.2.1.split ⟨_, hsr⟩ hred.2.2.1
      have hrl : r < rules.length := by
        have : r < ((gram rules start).aug fresh).length := by rw [List.getElem?_eq_some_iff] at c1; exact c1.1
        simp [Gram.aug, gram] at this
        have := hred.2.2.1
        omega
      obtain ⟨rule, hrule⟩ : ∃ rule, rules[r]? = some rule := ⟨_, List.getElem?_eq_getElem hrl⟩
      have hpr : prule = rule.plain := by
        simp only [Gram.aug, gram] at c1
        rw [List.getElem?_append_left (by simpa using hrl), List.getElem?_map, hrule] at c1
        cases c1
        rfl
      subst hpr
      obtain ⟨ps, cs, hps, h1, h2⟩ := List.map_eq_append_iff.1 c2
      by_cases hb : ∃ P ∈ cs, P.Bad input
      · obtain ⟨P, hP, hb⟩ := hb
        exact ⟨_, .bad r rule ps cs P hred hrule hps h2 hP hb⟩
      · have hb' : ∀ P ∈ cs, ¬ P.Bad input := fun P hP hbad => hb ⟨P, hP, hbad⟩
        cases hg : rule.gen (cs.map (Piece.arg input)) with
        | ok v => exact ⟨_, .reduce r rule ps cs v hred hrule hps h2 hb' hg⟩
        | error e => exact ⟨_, .fail r rule ps cs e hred hrule hps h2 hb' hg⟩

theorem MachSim.init : MachSim p rules idx input start fresh (Cfg.init p input) (Mach.init : Mach N T) where
  reach := Reach.init
  seg := .nil
  read := rfl
  buf := Or.inl ⟨rfl, rfl⟩
  ple := Nat.le_refl _
  seen := rfl
  pending := by intro r; simp [Mach.init, Cfg.init]
  calls := rfl

theorem MachSim.run (hx : Ctx p rules start fresh) (h : MachSim p rules idx input start fresh c m) (n : Nat) :
    (∃ o, MRun rules ((gram rules start).aug fresh) rules.length start idx input n m o) ∧
    ∀ o, MRun rules ((gram rules start).aug fresh) rules.length start idx input n m o →
      MachOut p rules idx input start fresh (Par.run idx p n c) o := by
  induction n generalizing c m with
  | zero =>
    refine ⟨⟨_, .zero m⟩, ?_⟩
    intro o ho
    cases ho
    exact h
  | succ n ih =>
    constructor
    · obtain ⟨o, ho⟩ := h.progress hx
      have hs := h.step hx ho
      cases o with
      | more m' =>
        cases hc : Par.step idx p c with
        | more c' =>
          rw [hc] at hs
          obtain ⟨o, ho'⟩ := (ih hs).1
          exact ⟨o, .more n m m' o ho ho'⟩
        | done x c' => rw [hc] at hs; exact absurd hs id
        | panic => rw [hc] at hs; exact absurd hs id
      | done x m' => exact ⟨_, .done n m x m' ho⟩
      | panic => exact ⟨_, .panic n m ho⟩
    · intro o ho
      cases ho with
      | more _ _ m' _ h1 h2 =>
        have hs := h.step hx h1
        cases hc : Par.step idx p c with
        | more c' =>
          rw [hc] at hs
          simp only [Par.run, hc]
          exact (ih hs).2 o h2
        | done x c' => rw [hc] at hs; exact absurd hs id
        | panic => rw [hc] at hs; exact absurd hs id
      | done _ _ x m' h1 =>
        have hs := h.step hx h1
        cases hc : Par.step idx p c with
        | more c' => rw [hc] at hs; exact absurd hs id
        | done x c' => rw [hc] at hs; simp only [Par.run, hc]; exact hs
        | panic => rw [hc] at hs; exact absurd hs id
      | panic _ _ h1 =>
        have hs := h.step hx h1
        cases hc : Par.step idx p c with
        | more c' => rw [hc] at hs; exact absurd hs id
        | done x c' => rw [hc] at hs; exact absurd hs id
        | panic => simp only [Par.run, hc]; trivial

end

end Verif.Par
