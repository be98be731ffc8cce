import Verif.Par.EmbedProof
import Verif.Par.Machine

/-!
# The machine of `Par/Machine` on grammars that are the same up to names
-/

namespace Verif.Par

variable {N T E : Type}

def Piece.rename (a : Nat → Nat) : Piece N T → Piece N T
  | .nt n v i => .nt (a n) v i
  | .tok t i => .tok t i
  | .err lo hi => .err lo hi

def Mach.rename (a σ : Nat → Nat) (m : Mach N T) : Mach N T :=
  { pieces := m.pieces.map (Piece.rename a)
    pos := m.pos
    seen := m.seen
    polled := m.polled
    pending := fun r' => ∃ r, m.pending r ∧ r' = σ r
    calls := m.calls.map fun c => (σ c.1, c.2) }

def MOut.rename (a σ : Nat → Nat) : MOut N T E → MOut N T E
  | .more m => .more (m.rename a σ)
  | .done x m => .done x (m.rename a σ)
  | .panic => .panic

/-- Everything needed to run the machine on both grammars. -/
structure EmbM (a b σ : Nat → Nat) (Nm Tm : Nat → Prop) (rules rules' : List (Rule N T E)) (R R' : List PRule) (s s' start start' : Nat)
    (idx idx' : T → Nat) : Prop where
  emb : Emb a b σ Nm Tm R R' s s'
  plain : ∀ (i : Nat) (r : Rule N T E), rules[i]? = some r → R[i]? = some r.plain
  there : ∀ (i : Nat) (r : Rule N T E), rules[i]? = some r → Nm r.lhs → rules'[σ i]? = some (r.rename a b)
  begins : start' = a start
  beginsNm : Nm start
  tok : ∀ t x, Tm x → (idx' t = b x ↔ idx t = x)
  ord : ∀ γ t r r2, r ≠ s → r2 ≠ s → Complete R s γ r t → Complete R s γ r2 t → r ≤ r2 → σ r ≤ σ r2

structure Mach.Good (Nm Tm : Nat → Prop) (R : List PRule) (idx : T → Nat) (m : Mach N T) : Prop where
  pieces : ∀ P ∈ m.pieces, (P.sym idx).Good Nm Tm
  pending : ∀ r, m.pending r → ∃ rule, R[r]? = some rule ∧ Nm rule.lhs

theorem MStep.cast {rules : List (Rule N T E)} {R : List PRule} {s start : Nat} {idx : T → Nat} {input : List T} {m : Mach N T}
    {x y : MOut N T E} (h : MStep rules R s start idx input m x) (e : x = y) : MStep rules R s start idx input m y := e ▸ h

/-- The same terminal ahead. -/
def LaRel (idx idx' : T → Nat) (t t' : Term) : Prop := (t = .eoi ∧ t' = .eoi) ∨ ∃ x, t = .sym (idx x) ∧ t' = .sym (idx' x)

namespace EmbM

variable {a b σ : Nat → Nat} {Nm Tm : Nat → Prop} {rules rules' : List (Rule N T E)} {R R' : List PRule} {s s' start start' : Nat}
  {idx idx' : T → Nat} {input : List T}

theorem la (h : EmbM a b σ Nm Tm rules rules' R R' s s' start start' idx idx') {t t' : Term} (hl : LaRel idx idx' t t') {u : Term}
    (hu : Sym.Good Nm Tm (.tm u)) : t' = u.rename b ↔ t = u := by
  rcases hl with ⟨rfl, rfl⟩ | ⟨x, rfl, rfl⟩
  · cases u <;> simp [Term.rename]
  · cases u with
    | sym y => simp only [Term.rename, Term.sym.injEq]; exact h.tok x y hu
    | err => simp [Term.rename]
    | eoi => simp [Term.rename]

theorem expects (h : EmbM a b σ Nm Tm rules rules' R R' s s' start start' idx idx') {γ : List Sym} (hγ : ∀ X ∈ γ, X.Good Nm Tm)
    {t t' : Term} (hl : LaRel idx idx' t t') : Expects R' s' (γ.map (Sym.rename a b)) (.tm t') ↔ Expects R s γ (.tm t) := by
  rw [h.emb.expects hγ]
  constructor
  · rintro ⟨X, e, hX, he⟩
    cases X with
    | nt n => simp [Sym.rename] at e
    | tm u =>
      simp only [Sym.rename, Sym.tm.injEq] at e
      rw [(h.la hl hX).1 e]
      exact he
  · intro he
    obtain ⟨i, r, hv, hr, hX⟩ := id he
    obtain ⟨_, _, _, r0, hr0, hn⟩ := h.emb.valid hv
    rw [hr] at hr0
    cases hr0
    have hg := h.emb.good _ r hr hn _ (List.mem_of_getElem? hX)
    refine ⟨.tm t, ?_, hg, he⟩
    simp only [Sym.rename, Sym.tm.injEq]
    exact (h.la hl hg).2 rfl

theorem complete (h : EmbM a b σ Nm Tm rules rules' R R' s s' start start' idx idx') {γ : List Sym} (hγ : ∀ X ∈ γ, X.Good Nm Tm)
    {t t' : Term} (hl : LaRel idx idx' t t') {r' : Nat} :
    Complete R' s' (γ.map (Sym.rename a b)) r' t' ↔ ∃ r, r' = σ r ∧ Complete R s γ r t := by
  rw [h.emb.complete hγ]
  constructor
  · rintro ⟨r, u, rfl, e, hu, hc⟩
    rw [(h.la hl hu).1 e]
    exact ⟨r, rfl, hc⟩
  · rintro ⟨r, rfl, hc⟩
    obtain ⟨rule, hr, hv⟩ := id hc
    have hu := (h.emb.valid hv).2.la
    exact ⟨r, t, rfl, (h.la hl hu).2 rfl, hu, hc⟩

theorem accepts (h : EmbM a b σ Nm Tm rules rules' R R' s s' start start' idx idx') {γ : List Sym} (hγ : ∀ X ∈ γ, X.Good Nm Tm)
    {t t' : Term} (hl : LaRel idx idx' t t') :
    (t' = .eoi ∧ γ.map (Sym.rename a b) = [.nt start']) ↔ (t = .eoi ∧ γ = [.nt start]) := by
  have h1 : t' = .eoi ↔ t = .eoi := h.la hl (u := .eoi) trivial
  rw [h1, h.begins]
  constructor
  · rintro ⟨e, e'⟩
    exact ⟨e, h.emb.list_inj hγ (by intro X hX; simp at hX; subst hX; exact h.beginsNm) (by simpa [Sym.rename] using e')⟩
  · rintro ⟨e, rfl⟩
    exact ⟨e, rfl⟩

theorem reduces (h : EmbM a b σ Nm Tm rules rules' R R' s s' start start' idx idx') {γ : List Sym} (hγ : ∀ X ∈ γ, X.Good Nm Tm)
    {t t' : Term} (hl : LaRel idx idx' t t') {r : Nat} (hr : Reduces R s start γ t r) :
    Reduces R' s' start' (γ.map (Sym.rename a b)) t' (σ r) := by
  obtain ⟨h1, h2, h3, h4, h5⟩ := hr
  refine ⟨fun he => h1 ((h.expects hγ hl).1 he), fun he => h2 ((h.accepts hγ hl).1 he), (h.emb.σ_ne h4).2 h3,
    (h.complete hγ hl).2 ⟨r, rfl, h4⟩, ?_⟩
  intro r2' hne hc
  obtain ⟨r2, rfl, hc2⟩ := (h.complete hγ hl).1 hc
  have hne2 := (h.emb.σ_ne hc2).1 hne
  exact h.ord γ t r r2 h3 hne2 h4 hc2 (h5 r2 hne2 hc2)

theorem noMove (h : EmbM a b σ Nm Tm rules rules' R R' s s' start start' idx idx') {γ : List Sym} (hγ : ∀ X ∈ γ, X.Good Nm Tm)
    {t t' : Term} (hl : LaRel idx idx' t t') (hr : NoMove R s start γ t) : NoMove R' s' start' (γ.map (Sym.rename a b)) t' := by
  obtain ⟨h1, h2, h3⟩ := hr
  refine ⟨fun he => h1 ((h.expects hγ hl).1 he), fun he => h2 ((h.accepts hγ hl).1 he), ?_⟩
  intro r2' hne hc
  obtain ⟨r2, rfl, hc2⟩ := (h.complete hγ hl).1 hc
  exact h3 r2 ((h.emb.σ_ne hc2).1 hne) hc2

theorem errRule (h : EmbM a b σ Nm Tm rules rules' R R' s s' start start' idx idx') {γ : List Sym} (hγ : ∀ X ∈ γ, X.Good Nm Tm)
    {r' : Nat} : ErrRule R' s' (γ.map (Sym.rename a b)) r' ↔ ∃ r, r' = σ r ∧ ErrRule R s γ r := by
  constructor
  · rintro ⟨i', rule', hv, rfl, hr', hX'⟩
    obtain ⟨i, rfl, hw⟩ := (h.emb.valid_iff hγ).1 hv
    obtain ⟨_, _, _, r, hr, hn⟩ := h.emb.valid hw
    simp only [Item.rename] at hr' hX'
    rw [h.emb.there _ r hr hn] at hr'
    cases hr'
    simp only [PRule.rename, List.getElem?_map, Option.map_eq_some_iff] at hX'
    obtain ⟨X, hX, e⟩ := hX'
    refine ⟨i.rule, rfl, i, r, hw, rfl, hr, ?_⟩
    match X, e with
    | .tm .err, _ => exact hX
    | .tm .eoi, e => simp [Sym.rename, Term.rename] at e
    | .tm (.sym x), e => simp [Sym.rename, Term.rename] at e
    | .nt n, e => simp [Sym.rename] at e
  · rintro ⟨_, rfl, i, r, hv, rfl, hr, hX⟩
    obtain ⟨h1, _, _, r0, hr0, hn⟩ := h.emb.valid hv
    rw [hr] at hr0
    cases hr0
    exact ⟨i.rename b σ, r.rename a b, h1, rfl, h.emb.there _ r hr hn, by simp [PRule.rename, Item.rename, hX, Sym.rename, Term.rename]⟩

theorem errRule_good (h : EmbM a b σ Nm Tm rules rules' R R' s s' start start' idx idx') {γ : List Sym} {r : Nat} (he : ErrRule R s γ r) :
    ∃ rule, R[r]? = some rule ∧ Nm rule.lhs := by
  obtain ⟨i, rule, hv, rfl, _⟩ := he
  exact (h.emb.valid hv).2.rule

theorem pend_iff (h : EmbM a b σ Nm Tm rules rules' R R' s s' start start' idx idx') {m : Mach N T} (hm : m.Good Nm Tm R idx) {r : Nat}
    (hr : ∃ rule, R[r]? = some rule ∧ Nm rule.lhs) : (m.rename a σ).pending (σ r) ↔ m.pending r := by
  obtain ⟨rule, hr, hn⟩ := hr
  constructor
  · rintro ⟨r2, hp, e⟩
    obtain ⟨rule2, hr2, hn2⟩ := hm.pending r2 hp
    rw [h.emb.σ_inj _ _ _ _ hr hn hr2 hn2 e]
    exact hp
  · intro hp; exact ⟨r, hp, rfl⟩

theorem choice (h : EmbM a b σ Nm Tm rules rules' R R' s s' start start' idx idx') {m : Mach N T} (hm : m.Good Nm Tm R idx)
    {γ : List Sym} (hγ : ∀ X ∈ γ, X.Good Nm Tm) {r' : Nat} :
    Choice R' s' (m.rename a σ).pending (γ.map (Sym.rename a b)) r' ↔ ∃ r, Choice R s m.pending γ r ∧ r' = σ r := by
  have hnone : (∀ r', ¬ (m.rename a σ).pending r') ↔ ∀ r, ¬ m.pending r := by
    constructor
    · intro hn r hp; exact hn (σ r) ⟨r, hp, rfl⟩
    · rintro hn r' ⟨r, hp, _⟩; exact hn r hp
  unfold Choice
  rw [h.errRule hγ, hnone]
  constructor
  · rintro ⟨⟨r, rfl, he⟩, hp⟩
    refine ⟨r, ⟨he, ?_⟩, rfl⟩
    rcases hp with hp | hp
    · exact .inl hp
    · exact .inr ((h.pend_iff hm (h.errRule_good he)).1 hp)
  · rintro ⟨r, ⟨he, hp⟩, rfl⟩
    refine ⟨⟨r, rfl, he⟩, ?_⟩
    rcases hp with hp | hp
    · exact .inl hp
    · exact .inr ⟨r, hp, rfl⟩

theorem sym (h : EmbM a b σ Nm Tm rules rules' R R' s s' start start' idx idx') {P : Piece N T} (hP : (P.sym idx).Good Nm Tm) :
    (P.rename a).sym idx' = (P.sym idx).rename a b := by
  cases P with
  | nt n v i => rfl
  | tok t i => simp only [Piece.rename, Piece.sym, Sym.rename, Term.rename]; rw [(h.tok t (idx t) hP).2 rfl]
  | err lo hi => rfl

theorem syms (h : EmbM a b σ Nm Tm rules rules' R R' s s' start start' idx idx') {ps : List (Piece N T)}
    (hP : ∀ P ∈ ps, (P.sym idx).Good Nm Tm) : (ps.map (Piece.rename a)).map (Piece.sym idx') = (ps.map (Piece.sym idx)).map (Sym.rename a b) := by
  induction ps with
  | nil => rfl
  | cons P ps ih =>
    simp only [List.map_cons]
    rw [h.sym (hP P (by simp))]
    congr 1
    have := ih (fun P hP' => hP P (by simp [hP']))
    simpa using this

theorem good_syms {ps : List (Piece N T)} (hP : ∀ P ∈ ps, (P.sym idx).Good Nm Tm) : ∀ X ∈ ps.map (Piece.sym idx), X.Good Nm Tm := by
  intro X hX
  obtain ⟨P, hP', rfl⟩ := List.mem_map.1 hX
  exact hP P hP'

theorem startOf_ren (dflt : Nat) : ∀ (ps : List (Piece N T)), startOf dflt (ps.map (Piece.rename a)) = startOf dflt ps
  | [] => rfl
  | .nt _ _ _ :: _ => rfl
  | .tok _ _ :: _ => rfl
  | .err _ _ :: l => startOf_ren dflt l

theorem errStartOf_ren (dflt : Nat) : ∀ (ps : List (Piece N T)), errStartOf dflt (ps.map (Piece.rename a)) = errStartOf dflt ps
  | [] => rfl
  | .nt _ _ _ :: l => errStartOf_ren dflt l
  | .tok _ _ :: l => errStartOf_ren dflt l
  | .err _ _ :: _ => rfl

theorem args_ren (ps : List (Piece N T)) : (ps.map (Piece.rename a)).map (Piece.arg input) = ps.map (Piece.arg input) := by
  rw [List.map_map]
  apply List.map_congr_left
  intro P _
  cases P <;> rfl

theorem bad_ren (P : Piece N T) : (P.rename a).Bad input ↔ P.Bad input := by cases P <;> rfl

theorem ahead_la (m : Mach N T) : LaRel idx idx' (m.ahead idx input) ((m.rename a σ).ahead idx' input) := by
  unfold Mach.ahead
  simp only [Mach.rename]
  cases input[m.pos]? with
  | none => exact .inl ⟨rfl, rfl⟩
  | some t => exact .inr ⟨t, rfl, rfl⟩

theorem step (h : EmbM a b σ Nm Tm rules rules' R R' s s' start start' idx idx') {m : Mach N T} (hm : m.Good Nm Tm R idx)
    {x : MOut N T E} (hs : MStep rules R s start idx input m x) :
    MStep rules' R' s' start' idx' input (m.rename a σ) (x.rename a σ) ∧ ∀ m', x = .more m' → m'.Good Nm Tm R idx := by
  have hγ : ∀ X ∈ m.read idx, X.Good Nm Tm := good_syms hm.pieces
  have hread : (m.rename a σ).read idx' = (m.read idx).map (Sym.rename a b) := h.syms hm.pieces
  cases hs with
  | shift t ht he =>
    have hl : LaRel idx idx' (.sym (idx t)) (.sym (idx' t)) := .inr ⟨t, rfl, rfl⟩
    refine ⟨?_, ?_⟩
    · have := MStep.shift (rules := rules') (R := R') (s := s') (start := start') (idx := idx') (input := input) (m := m.rename a σ) t ht
        (by rw [hread]; exact (h.expects hγ hl).2 he)
      exact this.cast (by simp [MOut.rename, Mach.rename, Mach.look, Piece.rename]; rfl)
    · rintro m' e
      cases e
      obtain ⟨i, r, hv, hr, hX⟩ := he
      obtain ⟨_, _, _, r0, hr0, hn⟩ := h.emb.valid hv
      rw [hr] at hr0
      cases hr0
      have hg := h.emb.good _ r hr hn _ (List.mem_of_getElem? hX)
      refine ⟨?_, hm.pending⟩
      intro P hP
      simp only [List.mem_append, List.mem_singleton] at hP
      rcases hP with hP | rfl
      · exact hm.pieces P hP
      · exact hg
  | accept v i ht hp =>
    refine ⟨?_, by intro m' e; cases e⟩
    have := MStep.accept (rules := rules') (R := R') (s := s') (start := start') (idx := idx') (input := input) (m := m.rename a σ) v i ht
      (by simp [Mach.rename, hp, Piece.rename, h.begins])
    exact this.cast (by simp [MOut.rename, Mach.rename, Mach.look]; rfl)
  | reduce r rule ps cs v hred hr hps hcs hbad hgen =>
    have hred' := h.reduces hγ (ahead_la (a := a) (σ := σ) m) hred
    obtain ⟨rule0, hr0, hn⟩ := h.emb.complete_inReach hred.2.2.2.1
    rw [h.plain r rule hr] at hr0
    cases hr0
    have hgood : ∀ P ∈ cs, (P.sym idx).Good Nm Tm := fun P hP => hm.pieces P (by rw [hps]; simp [hP])
    refine ⟨?_, ?_⟩
    · have := MStep.reduce (rules := rules') (R := R') (s := s') (start := start') (idx := idx') (input := input) (m := m.rename a σ) (σ r)
        (rule.rename a b) (ps.map (Piece.rename a)) (cs.map (Piece.rename a)) v (by rw [hread]; exact hred') (h.there r rule hr hn)
        (by simp [Mach.rename, hps]) (by rw [h.syms hgood, hcs]; rfl)
        (by intro P hP; obtain ⟨P, hP2, rfl⟩ := List.mem_map.1 hP; rw [bad_ren]; exact hbad P hP2)
        (by rw [args_ren]; exact hgen)
      have hpend : (fun r' => (m.rename a σ).pending r' ∧ ¬ (m.rename a σ).pending (σ r)) =
          fun r' => ∃ r2, (m.pending r2 ∧ ¬ m.pending r) ∧ r' = σ r2 := by
        funext r'
        apply propext
        rw [h.pend_iff hm ⟨_, h.plain r rule hr, hn⟩]
        constructor
        · rintro ⟨⟨r2, h1, h2⟩, h3⟩; exact ⟨r2, ⟨h1, h3⟩, h2⟩
        · rintro ⟨r2, ⟨h1, h3⟩, h2⟩; exact ⟨⟨r2, h1, h2⟩, h3⟩
      rw [hpend, startOf_ren, args_ren] at this
      exact this.cast (by simp [MOut.rename, Mach.rename, Mach.look, Piece.rename, Rule.rename]; rfl)
    · rintro m' e
      cases e
      refine ⟨?_, fun r' hp => hm.pending r' hp.1⟩
      intro P hP
      simp only [List.mem_append, List.mem_singleton] at hP
      rcases hP with hP | rfl
      · exact hm.pieces P (by rw [hps]; simp [hP])
      · exact hn
  | fail r rule ps cs e hred hr hps hcs hbad hgen =>
    have hred' := h.reduces hγ (ahead_la (a := a) (σ := σ) m) hred
    obtain ⟨rule0, hr0, hn⟩ := h.emb.complete_inReach hred.2.2.2.1
    rw [h.plain r rule hr] at hr0
    cases hr0
    have hgood : ∀ P ∈ cs, (P.sym idx).Good Nm Tm := fun P hP => hm.pieces P (by rw [hps]; simp [hP])
    refine ⟨?_, by intro m' e; cases e⟩
    have := MStep.fail (rules := rules') (R := R') (s := s') (start := start') (idx := idx') (input := input) (m := m.rename a σ) (σ r)
      (rule.rename a b) (ps.map (Piece.rename a)) (cs.map (Piece.rename a)) e (by rw [hread]; exact hred') (h.there r rule hr hn)
      (by simp [Mach.rename, hps]) (by rw [h.syms hgood, hcs]; rfl)
      (by intro P hP; obtain ⟨P, hP2, rfl⟩ := List.mem_map.1 hP; rw [bad_ren]; exact hbad P hP2)
      (by rw [args_ren]; exact hgen)
    rw [args_ren] at this
    exact this.cast (by simp [MOut.rename, Mach.rename, Mach.look]; rfl)
  | bad r rule ps cs P hred hr hps hcs hP hbad =>
    have hred' := h.reduces hγ (ahead_la (a := a) (σ := σ) m) hred
    obtain ⟨rule0, hr0, hn⟩ := h.emb.complete_inReach hred.2.2.2.1
    rw [h.plain r rule hr] at hr0
    cases hr0
    have hgood : ∀ P ∈ cs, (P.sym idx).Good Nm Tm := fun P hP => hm.pieces P (by rw [hps]; simp [hP])
    refine ⟨?_, by intro m' e; cases e⟩
    exact MStep.bad (rules := rules') (R := R') (s := s') (start := start') (idx := idx') (input := input) (m := m.rename a σ) (σ r)
      (rule.rename a b) (ps.map (Piece.rename a)) (cs.map (Piece.rename a)) (P.rename a) (by rw [hread]; exact hred') (h.there r rule hr hn)
      (by simp [Mach.rename, hps]) (by rw [h.syms hgood, hcs]; rfl) (List.mem_map_of_mem hP) ((bad_ren P).2 hbad)
  | recover t keep drop ht hno hps hch hmin =>
    have hl : LaRel idx idx' (.sym (idx t)) (.sym (idx' t)) := .inr ⟨t, rfl, rfl⟩
    have hkeep : ∀ P ∈ keep, (P.sym idx).Good Nm Tm := fun P hP => hm.pieces P (by rw [hps]; simp [hP])
    have hchoice : Choice R' s' (m.rename a σ).pending ((keep.map (Piece.rename a)).map (Piece.sym idx')) =
        fun r' => ∃ r, Choice R s m.pending (keep.map (Piece.sym idx)) r ∧ r' = σ r := by
      funext r'
      rw [h.syms hkeep]
      exact propext (h.choice hm (good_syms hkeep))
    refine ⟨?_, ?_⟩
    · have := MStep.recover (rules := rules') (R := R') (s := s') (start := start') (idx := idx') (input := input) (m := m.rename a σ) t
        (keep.map (Piece.rename a)) (drop.map (Piece.rename a)) ht (by rw [hread]; exact h.noMove hγ hl hno) (by simp [Mach.rename, hps])
        (by obtain ⟨r, hr⟩ := hch; exact ⟨σ r, by rw [hchoice]; exact ⟨r, hr, rfl⟩⟩)
        (by
          intro keep' drop' e hlen r' hc
          obtain ⟨k0, d0, e0, rfl, rfl⟩ := List.map_eq_append_iff.1 (show m.pieces.map (Piece.rename a) = keep' ++ drop' from e)
          have hk0 : ∀ P ∈ k0, (P.sym idx).Good Nm Tm := fun P hP => hm.pieces P (by rw [e0]; simp [hP])
          rw [h.syms hk0, h.choice hm (good_syms hk0)] at hc
          obtain ⟨r, hc, _⟩ := hc
          exact hmin k0 d0 e0 (by simpa using hlen) r hc)
      rw [hchoice, startOf_ren, errStartOf_ren] at this
      exact this.cast (by simp [MOut.rename, Mach.rename, Mach.look, Piece.rename]; rfl)
    · rintro m' e
      cases e
      refine ⟨?_, fun r hc => h.errRule_good hc.1⟩
      intro P hP
      simp only [List.mem_append, List.mem_singleton] at hP
      rcases hP with hP | rfl
      · exact hkeep P hP
      · exact trivial
  | recoverEnd ht hno hch =>
    have hl : LaRel idx idx' .eoi .eoi := .inl ⟨rfl, rfl⟩
    have hchoice : Choice R' s' (m.rename a σ).pending ((m.rename a σ).read idx') =
        fun r' => ∃ r, Choice R s m.pending (m.read idx) r ∧ r' = σ r := by
      funext r'
      rw [hread]
      exact propext (h.choice hm hγ)
    refine ⟨?_, ?_⟩
    · have := MStep.recoverEnd (rules := rules') (R := R') (s := s') (start := start') (idx := idx') (input := input) (m := m.rename a σ) ht
        (by rw [hread]; exact h.noMove hγ hl hno)
        (by obtain ⟨r, hr⟩ := hch; exact ⟨σ r, by rw [hchoice]; exact ⟨r, hr, rfl⟩⟩)
      rw [hchoice] at this
      exact this.cast (by simp [MOut.rename, Mach.rename, Mach.look, Piece.rename]; rfl)
    · rintro m' e
      cases e
      refine ⟨?_, fun r hc => h.errRule_good hc.1⟩
      intro P hP
      simp only [List.mem_append, List.mem_singleton] at hP
      rcases hP with hP | rfl
      · exact hm.pieces P hP
      · exact trivial
  | giveUp t ht hno hnone =>
    have hl : LaRel idx idx' (.sym (idx t)) (.sym (idx' t)) := .inr ⟨t, rfl, rfl⟩
    refine ⟨?_, by intro m' e; cases e⟩
    have := MStep.giveUp (rules := rules') (R := R') (s := s') (start := start') (idx := idx') (input := input) (m := m.rename a σ) t ht
      (by rw [hread]; exact h.noMove hγ hl hno)
      (by
        intro keep' drop' e r' hc
        obtain ⟨k0, d0, e0, rfl, rfl⟩ := List.map_eq_append_iff.1 (show m.pieces.map (Piece.rename a) = keep' ++ drop' from e)
        have hk0 : ∀ P ∈ k0, (P.sym idx).Good Nm Tm := fun P hP => hm.pieces P (by rw [e0]; simp [hP])
        rw [h.syms hk0, h.choice hm (good_syms hk0)] at hc
        obtain ⟨r, hc, _⟩ := hc
        exact hnone k0 d0 e0 r hc)
    exact this.cast (by simp [MOut.rename, Mach.rename, Mach.look]; rfl)
  | giveUpEnd ht hno hnone =>
    have hl : LaRel idx idx' .eoi .eoi := .inl ⟨rfl, rfl⟩
    refine ⟨?_, by intro m' e; cases e⟩
    have := MStep.giveUpEnd (rules := rules') (R := R') (s := s') (start := start') (idx := idx') (input := input) (m := m.rename a σ) ht
      (by rw [hread]; exact h.noMove hγ hl hno)
      (by
        intro r' hc
        rw [hread, h.choice hm hγ] at hc
        obtain ⟨r, hc, _⟩ := hc
        exact hnone r hc)
    exact this.cast (by simp [MOut.rename, Mach.rename, Mach.look]; rfl)

theorem run (h : EmbM a b σ Nm Tm rules rules' R R' s s' start start' idx idx') {n : Nat} {m : Mach N T} (hm : m.Good Nm Tm R idx)
    {x : MOut N T E} (hs : MRun rules R s start idx input n m x) : MRun rules' R' s' start' idx' input n (m.rename a σ) (x.rename a σ) := by
  induction hs with
  | zero m => exact .zero _
  | more n m m' o hst _ ih =>
    obtain ⟨h1, h2⟩ := h.step hm hst
    exact .more _ _ _ _ h1 (ih (h2 m' rfl))
  | done n m x m' hst => exact .done _ _ _ _ (h.step hm hst).1
  | panic n m hst => exact .panic _ _ (h.step hm hst).1

theorem init_good : (Mach.init : Mach N T).Good Nm Tm R idx := ⟨by simp [Mach.init], by simp [Mach.init]⟩

theorem init_ren : (Mach.init : Mach N T).rename a σ = Mach.init := by
  simp [Mach.init, Mach.rename]

end EmbM
end Verif.Par
