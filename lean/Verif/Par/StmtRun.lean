import Verif.Par.StmtProof

/-!
# The machine on lists of statements
-/

namespace Verif.Par

variable {N T E : Type} {S : Stmts N T E} {fresh : Nat} {idx : T → Nat} {input : List T}

theorem MRun.then {rules : List (Rule N T E)} {R : List PRule} {s start n k : Nat} {m m' : Mach N T} {o : MOut N T E}
    (h : MRun rules R s start idx input n m (.more m')) (h' : MRun rules R s start idx input k m' o) :
    MRun rules R s start idx input (n + k) m o := by
  generalize ho : MOut.more m' = o1 at h
  induction h with
  | zero m => cases ho; simpa using h'
  | more n m m1 o1 h1 _ ih =>
    rw [Nat.add_right_comm]
    exact .more _ _ _ _ h1 (ih ho)
  | done => cases ho
  | panic => cases ho

/-- What is known about a state of the machine. -/
def Stmts.St (S : Stmts N T E) (m : Mach N T) (ps : List (Piece N T)) (pos : Nat) (calls : List (Call N T)) : Prop :=
  m.pieces = ps ∧ m.pos = pos ∧ m.calls = calls ∧ ∀ r, m.pending r → r = S.badRule

def Stmts.Reach (S : Stmts N T E) (fresh : Nat) (idx : T → Nat) (input : List T) (m : Mach N T) (ps : List (Piece N T)) (pos : Nat)
    (calls : List (Call N T)) : Prop :=
  ∃ n m', MRun S.rules (S.aug fresh) S.rules.length 0 idx input n m (.more m') ∧ S.St m' ps pos calls

def Stmts.Ends (S : Stmts N T E) (fresh : Nat) (idx : T → Nat) (input : List T) (m : Mach N T) (x : Except (PErr E) N) (calls : List (Call N T)) : Prop :=
  ∃ n m', MRun S.rules (S.aug fresh) S.rules.length 0 idx input n m (.done x m') ∧ m'.calls = calls

theorem Stmts.St.reach {m : Mach N T} {ps : List (Piece N T)} {pos : Nat} {calls : List (Call N T)} (h : S.St m ps pos calls) :
    S.Reach fresh idx input m ps pos calls := ⟨0, m, .zero m, h⟩

theorem Stmts.reach_step {m m' : Mach N T} {ps : List (Piece N T)} {pos : Nat} {calls : List (Call N T)}
    (h : MStep S.rules (S.aug fresh) S.rules.length 0 idx input m (.more m')) (h' : S.St m' ps pos calls) :
    S.Reach fresh idx input m ps pos calls := ⟨1, m', .more _ _ _ _ h (.zero _), h'⟩

theorem Stmts.ends_step {m m' : Mach N T} {x : Except (PErr E) N}
    (h : MStep S.rules (S.aug fresh) S.rules.length 0 idx input m (.done x m')) : S.Ends fresh idx input m x m'.calls :=
  ⟨1, m', .done _ _ _ _ h, rfl⟩

theorem Stmts.Reach.trans {m : Mach N T} {ps ps' : List (Piece N T)} {pos pos' : Nat} {calls calls' : List (Call N T)}
    (h : S.Reach fresh idx input m ps pos calls) (h' : ∀ m', S.St m' ps pos calls → S.Reach fresh idx input m' ps' pos' calls') :
    S.Reach fresh idx input m ps' pos' calls' := by
  obtain ⟨n, m1, h1, h2⟩ := h
  obtain ⟨k, m2, h3, h4⟩ := h' m1 h2
  exact ⟨n + k, m2, h1.then h3, h4⟩

theorem Stmts.Reach.ends {m : Mach N T} {ps : List (Piece N T)} {pos : Nat} {calls calls' : List (Call N T)} {x : Except (PErr E) N}
    (h : S.Reach fresh idx input m ps pos calls) (h' : ∀ m', S.St m' ps pos calls → S.Ends fresh idx input m' x calls') :
    S.Ends fresh idx input m x calls' := by
  obtain ⟨n, m1, h1, h2⟩ := h
  obtain ⟨k, m2, h3, h4⟩ := h' m1 h2
  exact ⟨n + k, m2, h1.then h3, h4⟩

/-- The list so far. -/
def listP (i : Nat) : Option N → List (Piece N T)
  | none => []
  | some v => [.nt 0 v i]

theorem listP_front (i : Nat) (v : Option N) : Front ((listP i v : List (Piece N T)).map (Piece.sym idx)) := by
  cases v
  · exact .inl rfl
  · exact .inr rfl

/-- Tokens from position `b` on. -/
def tokP (b : Nat) : List T → List (Piece N T)
  | [] => []
  | t :: l => .tok t b :: tokP (b + 1) l

theorem tokP_append (b : Nat) (l l' : List T) : (tokP b (l ++ l') : List (Piece N T)) = tokP b l ++ tokP (b + l.length) l' := by
  induction l generalizing b with
  | nil => simp [tokP]
  | cons t l ih => simp [tokP, ih, Nat.add_assoc, Nat.add_comm 1]

def kinds (idx : T → Nat) (l : List T) : List Sym := l.map fun t => .tm (.sym (idx t))

theorem tokP_sym (b : Nat) (l : List T) : (tokP b l : List (Piece N T)).map (Piece.sym idx) = kinds idx l := by
  induction l generalizing b with
  | nil => rfl
  | cons t l ih => simp [tokP, kinds, Piece.sym, ih] <;> rfl

theorem tokP_arg (b : Nat) (l : List T) : (tokP b l : List (Piece N T)).map (Piece.arg input) = l.map .tok := by
  induction l generalizing b with
  | nil => rfl
  | cons t l ih => simp [tokP, Piece.arg, ih]

theorem tokP_good (b : Nat) (l : List T) : ∀ P ∈ (tokP b l : List (Piece N T)), ¬ P.Bad input := by
  induction l generalizing b with
  | nil => intro P hP; cases hP
  | cons t l ih =>
    intro P hP
    rcases List.mem_cons.1 hP with rfl | hP
    · exact id
    · exact ih _ P hP

theorem kinds_noNt (l : List T) : NoNt (kinds idx l) := by
  intro n h
  simp [kinds] at h

theorem kinds_append (l l' : List T) : kinds idx (l ++ l') = kinds idx l ++ kinds idx l' := by simp [kinds]

/-- The tokens begin a statement. -/
def Stmts.Pre (S : Stmts N T E) (w : List Nat) : Prop := ∃ b ∈ S.bodies, w <+: b.1 ++ [S.sync]

theorem Stmts.starts_iff {t : T} : S.Starts idx t ↔ S.Pre [idx t] := by
  unfold Starts Pre
  constructor
  · rintro ⟨b, hb, h⟩
    refine ⟨b, hb, ?_⟩
    cases hl : b.1 ++ [S.sync] with
    | nil => simp at hl
    | cons x l => rw [hl] at h; simp at h; exact ⟨l, by simp [h]⟩
  · rintro ⟨b, hb, l, h⟩
    exact ⟨b, hb, by rw [← h]; rfl⟩

theorem map_tm_inj {w w' : List Nat} (h : (w.map fun a => Sym.tm (.sym a)) = w'.map fun a => Sym.tm (.sym a)) : w = w' := by
  induction w generalizing w' with
  | nil => cases w' with
    | nil => rfl
    | cons => simp at h
  | cons a w ih => cases w' with
    | nil => simp at h
    | cons b w' => simp at h; rw [h.1, ih (by simpa using h.2)]

theorem kinds_map (l : List T) : kinds idx l = (l.map idx).map fun a => Sym.tm (.sym a) := by simp [kinds]

/-- Which item a string of tokens begins. -/
theorem Stmts.prefix_iff {l : List T} {t : T} : (∃ k rhs, S.IRule k rhs ∧ kinds idx l ++ [.tm (.sym (idx t))] <+: rhs) ↔ S.Pre ((l ++ [t]).map idx) := by
  have he : kinds idx l ++ [.tm (.sym (idx t))] = ((l ++ [t]).map idx).map fun a => Sym.tm (.sym a) := by simp [kinds]
  rw [he]
  constructor
  · rintro ⟨k, rhs, h1, z, hz⟩
    cases h1 with
    | stmt j b hb =>
      refine ⟨b, List.mem_of_getElem? hb, ?_⟩
      rw [List.prefix_iff_eq_take]
      have := congrArg (List.take ((l ++ [t]).map idx).length) hz
      rw [List.take_append_of_le_length (by simp), List.take_of_length_le (by simp), ← List.map_take] at this
      exact map_tm_inj this
    | bad =>
      cases l <;> simp at hz
  · rintro ⟨b, hb, z, hz⟩
    obtain ⟨j, hj⟩ := List.getElem?_of_mem hb
    exact ⟨_, _, .stmt j b hj, z.map fun a => .tm (.sym a), by rw [← hz]; simp⟩

theorem Stmts.la_iff {t : T} : S.La (.sym (idx t)) ↔ S.Starts idx t := by
  have := S.prefix_iff (idx := idx) (l := []) (t := t)
  rw [S.starts_iff]
  constructor
  · rintro (h | ⟨k, rhs, h⟩)
    · cases h
    · exact this.1 ⟨k, _, h, rhs, rfl⟩
  · intro h
    obtain ⟨k, rhs, h1, z, hz⟩ := this.2 h
    exact .inr ⟨k, z, by rw [show Sym.tm (.sym (idx t)) :: z = rhs from hz]; exact h1⟩

/-- The tokens are a whole statement. -/
theorem Stmts.body_iff {l : List T} {t : T} {r : Nat} (ht : idx t = S.sync) :
    S.IRule r (kinds idx (l ++ [t])) ↔ ∃ (j : Nat) (b : _), r = j + 2 ∧ S.bodies[j]? = some b ∧ b.1 = l.map idx := by
  rw [kinds_map]
  constructor
  · intro h
    generalize he : ((l ++ [t]).map idx).map (fun a => Sym.tm (.sym a)) = rhs at h
    cases h with
    | stmt j b hb =>
      have := map_tm_inj he
      simp [ht] at this
      exact ⟨j, b, rfl, hb, this.symm⟩
    | bad =>
      cases l <;> simp at he
  · rintro ⟨j, b, rfl, hb, h⟩
    have := IRule.stmt (S := S) j b hb
    rw [h] at this
    simpa [ht] using this

theorem Stmts.body_none {l : List T} {r : Nat} (hl : ∀ t ∈ l, idx t ≠ S.sync) : ¬ S.IRule r (kinds idx l) := by
  rw [kinds_map]
  intro h
  generalize he : (l.map idx).map (fun a => Sym.tm (.sym a)) = rhs at h
  cases h with
  | stmt j b hb =>
    have := map_tm_inj he
    have hm : S.sync ∈ l.map idx := by rw [this]; simp
    obtain ⟨t, h1, h2⟩ := List.mem_map.1 hm
    exact hl t h1 h2
  | bad => cases l <;> simp at he

theorem Stmts.Ok.pre_end (hS : S.Ok) {l : List T} {t t' : T} (ht : idx t = S.sync) : ¬ S.Pre ((l ++ [t] ++ [t']).map idx) := by
  rintro ⟨b, hb, z, hz⟩
  apply hS b hb
  have : (l ++ [t] ++ [t']).map idx ++ z = l.map idx ++ S.sync :: (idx t' :: z) := by simp [ht]
  rw [this] at hz
  have h1 := congrArg List.dropLast hz
  rw [List.dropLast_append_of_ne_nil (by simp), List.dropLast_concat, List.dropLast_cons_of_ne_nil (by simp)] at h1
  rw [← h1]
  simp

theorem Stmts.Ok.pre_whole (hS : S.Ok) {l : List T} {t : T} (ht : idx t = S.sync) (h : S.Pre ((l ++ [t]).map idx)) :
    ∃ b ∈ S.bodies, b.1 = l.map idx := by
  obtain ⟨b, hb, z, hz⟩ := h
  refine ⟨b, hb, ?_⟩
  rcases List.eq_nil_or_concat z with rfl | ⟨z', x, rfl⟩
  · simp [ht] at hz
    exact hz.symm
  · exfalso
    apply hS b hb
    simp only [List.concat_eq_append, ← List.append_assoc] at hz
    have := List.append_inj_left' hz rfl
    rw [← this]
    simp [ht]

theorem Stmts.Pre.of_prefix {w w' : List Nat} (h : S.Pre w) (hp : w' <+: w) : S.Pre w' := by
  obtain ⟨b, hb, h⟩ := h
  exact ⟨b, hb, hp.trans h⟩

theorem drop_cons {b : Nat} {t : T} {z : List T} (h : input.drop b = t :: z) : input[b]? = some t ∧ input.drop (b + 1) = z := by
  refine ⟨?_, ?_⟩
  · have := congrArg List.head? h
    simpa using this
  · have := congrArg List.tail h
    simpa [List.tail_drop] using this

section steps

variable (hf : fresh ≠ 0 ∧ fresh ≠ 1)
include hf

theorem Stmts.noMove {γ0 y : List Sym} {a : Term} (hγ : Front γ0) (hy : NoNt y)
    (h1 : ∀ k rhs, S.IRule k rhs → ¬ y ++ [.tm a] <+: rhs) (h2 : ∀ r, S.IRule r y → ¬ S.La a) (h3 : a = .eoi → γ0 ++ y ≠ [.nt 0]) :
    NoMove (S.aug fresh) S.rules.length 0 (γ0 ++ y) a := by
  refine ⟨fun h => ?_, fun h => h3 h.1 h.2, fun r hr h => ?_⟩
  · obtain ⟨k, rhs, h4, h5⟩ := (S.expects_iff hf hγ hy).1 h
    exact h1 k rhs h4 h5
  · obtain ⟨h4, h5⟩ := (S.complete_iff hf hγ hy hr).1 h
    exact h2 r h4 h5

theorem Stmts.shift {m : Mach N T} {v : Option N} {i pos : Nat} {Y : List (Piece N T)} {calls : List (Call N T)} {t : T}
    (h : S.St m (listP i v ++ Y) pos calls) (ht : input[pos]? = some t) (hy : NoNt (Y.map (Piece.sym idx)))
    (hk : ∃ k rhs, S.IRule k rhs ∧ Y.map (Piece.sym idx) ++ [.tm (.sym (idx t))] <+: rhs) :
    S.Reach fresh idx input m (listP i v ++ (Y ++ [.tok t pos])) (pos + 1) calls := by
  obtain ⟨h1, rfl, h3, h4⟩ := h
  refine S.reach_step (.shift t ht ?_) ⟨?_, rfl, h3, h4⟩
  · rw [Mach.read, h1, List.map_append]
    exact (S.expects_iff hf (listP_front i v) hy).2 hk
  · simp [h1]

theorem Stmts.recover {m : Mach N T} {v : Option N} {i pos : Nat} {Y : List (Piece N T)} {calls : List (Call N T)} {t : T}
    (h : S.St m (listP i v ++ Y) pos calls) (ht : input[pos]? = some t) (hy : NoNt (Y.map (Piece.sym idx)))
    (hk : ∀ k rhs, S.IRule k rhs → ¬ Y.map (Piece.sym idx) ++ [.tm (.sym (idx t))] <+: rhs)
    (hc : ∀ r, S.IRule r (Y.map (Piece.sym idx)) → ¬ S.Starts idx t) :
    S.Reach fresh idx input m (listP i v ++ [.err (min (startOf pos Y) (errStartOf pos Y)) pos])
      (if Y.isEmpty then pos else min (startOf pos Y) pos + 1) calls := by
  obtain ⟨h1, rfl, h3, h4⟩ := h
  have hch : ∀ γ r, Choice (S.aug fresh) S.rules.length m.pending γ r ↔ Front γ ∧ r = S.badRule := by
    intro γ r
    unfold Choice
    rw [S.errRule_iff hf]
    refine ⟨And.left, fun h => ⟨h, ?_⟩⟩
    by_cases hp : ∃ r', m.pending r'
    · obtain ⟨r', hr'⟩ := hp
      rw [h.2, ← h4 r' hr']
      exact .inr hr'
    · exact .inl fun r' hr' => hp ⟨r', hr'⟩
  refine S.reach_step (.recover t (listP i v) Y ht ?_ h1 ⟨S.badRule, (hch _ _).2 ⟨listP_front i v, rfl⟩⟩ ?_) ⟨rfl, rfl, h3, ?_⟩
  · rw [Mach.read, h1, List.map_append]
    refine S.noMove hf (listP_front i v) hy hk (fun r hr hla => hc r hr (S.la_iff.1 hla)) (fun h => by cases h)
  · intro keep' drop' he hlt r hr
    have hfr := ((hch _ _).1 hr).1
    rw [h1] at he
    obtain ⟨Y', hY', rfl⟩ : ∃ Y', Y = Y' ++ drop' ∧ keep' = listP i v ++ Y' := by
      refine ⟨keep'.drop (listP i v : List (Piece N T)).length, ?_, ?_⟩
      · have := congrArg (List.drop (listP i v : List (Piece N T)).length) he
        rw [List.drop_left, List.drop_append_of_le_length (by omega)] at this
        exact this
      · have := congrArg (List.take (listP i v : List (Piece N T)).length) he
        rw [List.take_left, List.take_append_of_le_length (by omega)] at this
        conv => lhs; rw [← List.take_append_drop (listP i v : List (Piece N T)).length keep', ← this]
    have hn : NoNt (Y'.map (Piece.sym idx)) := by
      intro n hn
      exact hy n (by rw [hY', List.map_append]; exact List.mem_append_left _ hn)
    rw [List.map_append] at hfr
    have hY0 : Y'.map (Piece.sym idx) = [] :=
      (front_inj (listP_front (idx := idx) i v) hfr hn (fun n h => by cases h) (List.append_nil _).symm).2
    simp at hY0
    subst hY0
    simp at hlt
  · intro r hr
    exact ((hch _ _).1 hr).2

/-- Reducing an item. -/
theorem Stmts.reduces {γ0 y : List Sym} {a : Term} {r : Nat} (hγ : Front γ0) (hy : NoNt y) (hr : S.IRule r y) (ha : S.La a)
    (h1 : ∀ k rhs, S.IRule k rhs → ¬ y ++ [.tm a] <+: rhs) (hmin : ∀ r', S.IRule r' y → r ≤ r') :
    Reduces (S.aug fresh) S.rules.length 0 (γ0 ++ y) a r := by
  have hne : y ≠ [] := by
    rintro rfl
    generalize hl : ([] : List Sym) = rhs at hr
    cases hr <;> simp at hl
  refine ⟨fun h => ?_, fun h => ?_, hr.ne.2.2, (S.complete_iff hf hγ hy hr.ne.2.2).2 ⟨hr, ha⟩, fun r' hr' h => ?_⟩
  · obtain ⟨k, rhs, h4, h5⟩ := (S.expects_iff hf hγ hy).1 h
    exact h1 k rhs h4 h5
  · have := front_inj hγ (.inr rfl) hy (fun n h => by cases h) (h.2.trans (List.append_nil _).symm)
    exact hne this.2
  · exact hmin r' ((S.complete_iff hf hγ hy hr').1 h).1

theorem Stmts.item {m : Mach N T} {v : Option N} {i pos : Nat} {Y : List (Piece N T)} {calls : List (Call N T)} {r : Nat} {rule : Rule N T E}
    (h : S.St m (listP i v ++ Y) pos calls) (hy : NoNt (Y.map (Piece.sym idx))) (hr : S.IRule r (Y.map (Piece.sym idx)))
    (ha : ∀ t, input[pos]? = some t → S.Starts idx t)
    (h1 : ∀ t, input[pos]? = some t → ∀ k rhs, S.IRule k rhs → ¬ Y.map (Piece.sym idx) ++ [.tm (.sym (idx t))] <+: rhs)
    (hmin : ∀ r', S.IRule r' (Y.map (Piece.sym idx)) → r ≤ r') (hrule : S.rules[r]? = some rule) (hgood : ∀ P ∈ Y, ¬ P.Bad input) :
    (∀ w, rule.gen (Y.map (Piece.arg input)) = .ok w →
      ∃ i', S.Reach fresh idx input m (listP i v ++ [.nt 1 w i']) pos (calls ++ [(r, Y.map (Piece.arg input))])) ∧
    ∀ x, rule.gen (Y.map (Piece.arg input)) = .error x → S.Ends fresh idx input m (.error (.reducer x)) (calls ++ [(r, Y.map (Piece.arg input))]) := by
  obtain ⟨hm, rfl, h3, h4⟩ := h
  have hl : rule.lhs = 1 ∧ rule.rhs = Y.map (Piece.sym idx) := by
    rcases S.rules_at.1 hrule with ⟨h5, _⟩ | ⟨h5, _⟩ | ⟨j, b, h5, h6, rfl⟩ | ⟨h5, rfl⟩
    · exact absurd h5 hr.ne.1
    · exact absurd h5 hr.ne.2.1
    · subst h5
      have e1 := (S.aug_at (fresh := fresh) (r := ⟨1, _⟩)).2 (.inr (.inr (.inl ⟨hr, rfl⟩)))
      have e2 := (S.aug_at (fresh := fresh) (r := ⟨1, _⟩)).2 (.inr (.inr (.inl ⟨.stmt j b h6, rfl⟩)))
      rw [e1] at e2
      simp only [Option.some.injEq, PRule.mk.injEq, true_and] at e2
      exact ⟨rfl, e2.symm⟩
    · subst h5
      have e1 := (S.aug_at (fresh := fresh) (r := ⟨1, _⟩)).2 (.inr (.inr (.inl ⟨hr, rfl⟩)))
      have e2 := (S.aug_at (fresh := fresh) (r := ⟨1, _⟩)).2 (.inr (.inr (.inl ⟨.bad, rfl⟩)))
      rw [e1] at e2
      simp only [Option.some.injEq, PRule.mk.injEq, true_and] at e2
      exact ⟨rfl, e2.symm⟩
  have hred : Reduces (S.aug fresh) S.rules.length 0 (m.read idx) (m.ahead idx input) r := by
    rw [Mach.read, hm, List.map_append]
    unfold Mach.ahead
    cases hp : input[m.pos]? with
    | none =>
      refine S.reduces hf (listP_front i v) hy hr (.inl rfl) ?_ hmin
      intro k rhs hI hpre
      have hm' : Sym.tm .eoi ∈ rhs := hpre.subset (by simp)
      cases hI <;> simp at hm'
    | some t => exact S.reduces hf (listP_front i v) hy hr (S.la_iff.2 (ha t hp)) (h1 t hp) hmin
  constructor
  · intro w hw
    refine ⟨startOf (m.look input).seen Y, S.reach_step (.reduce r rule (listP i v) Y w hred hrule hm hl.2.symm hgood hw) ⟨?_, rfl, ?_, ?_⟩⟩
    · simp [hl.1]
    · simp [h3]
    · intro r' hr'
      exact h4 r' hr'.1
  · intro x hx
    have := S.ends_step (MStep.fail r rule (listP i v) Y x hred hrule hm hl.2.symm hgood hx)
    simpa [h3] using this

theorem Stmts.list {m : Mach N T} {v : Option N} {i i' pos : Nat} {w : N} {calls : List (Call N T)}
    (h : S.St m (listP i v ++ [.nt 1 w i']) pos calls) (ha : ∀ t, input[pos]? = some t → S.Starts idx t) :
    (∀ v', (S.listCall w v).2 (S.listCall w v).1.2 = .ok v' →
      ∃ i', S.Reach fresh idx input m (listP i' (some v')) pos (calls ++ [(S.listCall w v).1])) ∧
    ∀ x, (S.listCall w v).2 (S.listCall w v).1.2 = .error x →
      S.Ends fresh idx input m (.error (.reducer x)) (calls ++ [(S.listCall w v).1]) := by
  obtain ⟨hm, rfl, h3, h4⟩ := h
  have hI := S.item_read hf (listP_front (idx := idx) (T := T) i v)
  have hlen := S.length_rules
  have hla : S.La (m.ahead idx input) := by
    unfold Mach.ahead
    cases hp : input[m.pos]? with
    | none => exact .inl rfl
    | some t => exact S.la_iff.2 (ha t hp)
  have hred : Reduces (S.aug fresh) S.rules.length 0 (m.read idx) (m.ahead idx input) (S.listCall (T := T) w v).1.1 := by
    rw [Mach.read, hm, List.map_append]
    have hr : (S.listCall (T := T) w v).1.1 = (if (listP i v : List (Piece N T)).map (Piece.sym idx) = [] then 1 else 0) := by
      cases v <;> rfl
    have hne : (S.listCall (T := T) w v).1.1 ≠ S.rules.length := by
      rw [hlen]
      cases v <;> simp [listCall]
    refine ⟨hI.1 _, fun h => ?_, hne, (hI.2 _ _ hne).2 ⟨hr, hla⟩, fun r' hr' h => ?_⟩
    · have := congrArg (Sym.nt 1 ∈ ·) h.2
      simp [Piece.sym] at this
    · rw [((hI.2 _ _ hr').1 h).1, hr]
      exact Nat.le_refl _
  have hrule : ∃ rule, S.rules[(S.listCall (T := T) w v).1.1]? = some rule ∧ rule.lhs = 0 ∧ rule.gen = (S.listCall w v).2 ∧
      (listP i v ++ [.nt 1 w i'] : List (Piece N T)).map (Piece.sym idx) = rule.rhs ∧ (listP i v ++ [.nt 1 w i'] : List (Piece N T)).map (Piece.arg input) = (S.listCall w v).1.2 ∧
      ∀ P ∈ (listP i v ++ [.nt 1 w i'] : List (Piece N T)), ¬ P.Bad input := by
    cases v with
    | none => exact ⟨_, S.rules_at.2 (.inr (.inl ⟨rfl, rfl⟩)), rfl, rfl, rfl, rfl, fun P hP => by simp [listP] at hP; subst hP; exact id⟩
    | some v => exact ⟨_, S.rules_at.2 (.inl ⟨rfl, rfl⟩), rfl, rfl, rfl, rfl, fun P hP => by
        simp [listP] at hP; rcases hP with rfl | rfl <;> exact id⟩
  obtain ⟨rule, k1, k2, k3, k4, k5, k6⟩ := hrule
  constructor
  · intro v' hv
    refine ⟨startOf (m.look input).seen (listP i v ++ [.nt 1 w i'] : List (Piece N T)), S.reach_step (.reduce _ rule [] (listP i v ++ [.nt 1 w i']) v' hred k1 (by simpa using hm) k4 k6 (by rw [k3, k5]; exact hv)) ⟨?_, rfl, ?_, ?_⟩⟩
    · simp [k2, listP]
    · rw [k5]; simp [h3]
    · intro r' hr'
      exact h4 r' hr'.1
  · intro x hx
    have := S.ends_step (MStep.fail _ rule [] (listP i v ++ [.nt 1 w i']) x hred k1 (by simpa using hm) k4 k6 (by rw [k3, k5]; exact hx))
    rw [k5] at this
    simpa [h3] using this

theorem Stmts.giveUp {m : Mach N T} {v : Option N} {i pos : Nat} {Y : List (Piece N T)} {calls : List (Call N T)}
    (h : S.St m (listP i v ++ Y) pos calls) (he : input[pos]? = none) (hne : Y ≠ []) (hy : NoNt (Y.map (Piece.sym idx)))
    (hk : ∀ r, ¬ S.IRule r (Y.map (Piece.sym idx))) :
    S.Ends fresh idx input m (.error .noRecovery) calls := by
  obtain ⟨h1, rfl, h3, h4⟩ := h
  have hfr : ¬ Front ((listP i v : List (Piece N T)).map (Piece.sym idx) ++ Y.map (Piece.sym idx)) := by
    intro hf'
    have := (front_inj (listP_front i v) hf' hy (fun n h => by cases h) (List.append_nil _).symm).2
    simp at this
    exact hne this
  have := S.ends_step (MStep.giveUpEnd (rules := S.rules) (R := S.aug fresh) (s := S.rules.length) (start := 0) (idx := idx) he ?_ ?_)
  · simpa [Mach.look, h3] using this
  · rw [Mach.read, h1, List.map_append]
    refine S.noMove hf (listP_front i v) hy ?_ (fun r hr => absurd hr (hk r)) (fun _ h => hfr (.inr h))
    intro k rhs hI hpre
    have hm' : Sym.tm .eoi ∈ rhs := hpre.subset (by simp)
    cases hI <;> simp at hm'
  · intro r hr
    rw [Mach.read, h1, List.map_append] at hr
    exact hfr ((S.errRule_iff hf).1 hr.1).1

theorem Stmts.finish {m : Mach N T} {v : Option N} {i pos : Nat} {calls : List (Call N T)}
    (h : S.St m (listP i v) pos calls) (he : input[pos]? = none) :
    S.Ends fresh idx input m (match v with | some v => .ok v | none => .error .noRecovery) calls := by
  cases v with
  | some v =>
    obtain ⟨h1, rfl, h3, h4⟩ := h
    have := S.ends_step (MStep.accept (rules := S.rules) (R := S.aug fresh) (s := S.rules.length) (start := 0) (idx := idx) v i he h1)
    simpa [Mach.look, h3] using this
  | none =>
    have hr : S.Reach fresh idx input m (listP i none ++ [.err 0 0]) pos calls := by
      obtain ⟨h1, rfl, h3, h4⟩ := h
      have hch : ∀ γ r, Choice (S.aug fresh) S.rules.length m.pending γ r ↔ Front γ ∧ r = S.badRule := by
        intro γ r
        unfold Choice
        rw [S.errRule_iff hf]
        refine ⟨And.left, fun h => ⟨h, ?_⟩⟩
        by_cases hp : ∃ r', m.pending r'
        · obtain ⟨r', hr'⟩ := hp
          rw [h.2, ← h4 r' hr']
          exact .inr hr'
        · exact .inl fun r' hr' => hp ⟨r', hr'⟩
      have h1 : m.pieces = [] := h1
      refine S.reach_step (.recoverEnd he ?_ ⟨S.badRule, (hch _ _).2 ⟨?_, rfl⟩⟩) ⟨?_, rfl, h3, ?_⟩
      · rw [Mach.read, h1]
        refine S.noMove hf (γ0 := []) (y := []) (.inl rfl) (fun n h => by cases h) ?_ ?_ (fun _ h => by cases h)
        · intro k rhs hI hpre
          have hm' : Sym.tm .eoi ∈ rhs := hpre.subset (by simp)
          cases hI <;> simp at hm'
        · intro r hI
          generalize hl : ([] : List Sym) = rhs at hI
          cases hI <;> simp at hl
      · rw [Mach.read, h1]; exact .inl rfl
      · simp [h1, listP]
      · intro r hr
        exact ((hch _ _).1 hr).2
    refine hr.ends fun m' h' => S.giveUp hf h' he (by simp) (fun n h => by simp [Piece.sym] at h) ?_
    intro r hI
    generalize hl : ([Piece.err 0 0] : List (Piece N T)).map (Piece.sym idx) = rhs at hI
    cases hI with
    | stmt j b hb => cases hb' : b.1 <;> simp [hb', Piece.sym] at hl
    | bad => simp at hl

end steps

end Verif.Par
