import Verif.Par.EmbedMach
import Verif.Par.RecMain

/-!
# Grammars that are the same up to names, with the start rules
-/

namespace Verif.Par

variable {N T E : Type} {a b σ : Nat → Nat} {rules rules' : List (Rule N T E)} {start start' fresh fresh' : Nat}

/-- `σ` for rules, and the number of the one start rule to that of the other. -/
def withStart (σ : Nat → Nat) (s s' : Nat) (i : Nat) : Nat := if i = s then s' else σ i

theorem gram_rule {i : Nat} {r : PRule} (h : (gram rules start).rules[i]? = some r) : ∃ r0, rules[i]? = some r0 ∧ r = r0.plain := by
  simp only [gram, List.getElem?_map, Option.map_eq_some_iff] at h
  obtain ⟨r0, h1, rfl⟩ := h
  exact ⟨r0, h1, rfl⟩

theorem Derives.nt_used {R : List PRule} {u v : List Sym} (h : Derives R u v) {n : Nat} (hn : Sym.nt n ∈ v) :
    Sym.nt n ∈ u ∨ ∃ r ∈ R, Sym.nt n ∈ r.rhs := by
  induction h with
  | refl => exact .inl hn
  | step x y r _ hr ih =>
    simp only [List.mem_append] at hn
    rcases hn with (hn | hn) | hn
    · exact ih (by simp [hn])
    · exact .inr ⟨r, hr, hn⟩
    · exact ih (by simp [hn])

theorem Gram.InReach.used {g : Gram} {n : Nat} (h : g.InReach n) (hst : ∃ r ∈ g.rules, r.lhs = g.start) : g.Used n := by
  obtain ⟨x, y, hd⟩ := h
  rcases hd.nt_used (n := n) (by simp) with h | ⟨r, hr, h⟩
  · simp only [List.mem_singleton, Sym.nt.injEq] at h
    subst h
    obtain ⟨r, hr, e⟩ := hst
    exact ⟨r, hr, .inl e⟩
  · exact ⟨r, hr, .inr h⟩

theorem Gram.InReach.begin {g : Gram} : g.InReach g.start := ⟨[], [], .refl _⟩

theorem Gram.InReach.rhs {g : Gram} {r : PRule} (h : g.InReach r.lhs) (hr : r ∈ g.rules) {n : Nat} (hn : Sym.nt n ∈ r.rhs) : g.InReach n := by
  obtain ⟨x, y, hd⟩ := h
  obtain ⟨u, v, e⟩ := List.append_of_mem hn
  refine ⟨x ++ u, v ++ y, ?_⟩
  have := Derives.step _ x y r hd hr
  rw [e] at this
  simpa using this

theorem Gram.RuleInReach.get {i : Nat} (h : (gram rules start).RuleInReach i) :
    ∃ r, rules[i]? = some r ∧ (gram rules start).InReach r.lhs := by
  obtain ⟨r, h1, h2⟩ := h
  obtain ⟨r0, h3, rfl⟩ := gram_rule h1
  exact ⟨r0, h3, h2⟩

namespace SameUpTo

theorem derives (h : SameUpTo a b σ rules start rules' start') {v : List Sym} (hd : Derives (gram rules start).rules [.nt start] v) :
    Derives (gram rules' start').rules [.nt start'] (v.map (Sym.rename a b)) := by
  generalize hu : [Sym.nt start] = u at hd
  induction hd with
  | refl => subst hu; rw [h.begins]; exact .refl _
  | step x y r hd hr ih =>
    subst hu
    obtain ⟨i, hi⟩ := List.getElem?_of_mem hr
    obtain ⟨r0, hr0, rfl⟩ := gram_rule hi
    have := List.mem_of_getElem? (h.there i r0 hr0 ⟨x, y, hd⟩)
    have hm : (r0.rename a b).plain ∈ (gram rules' start').rules := List.mem_map_of_mem this
    have := Derives.step _ (x.map (Sym.rename a b)) (y.map (Sym.rename a b)) _ (by simpa [Sym.rename, Rule.plain, Rule.rename] using ih) hm
    simpa [Rule.plain, Rule.rename] using this

theorem inReach (h : SameUpTo a b σ rules start rules' start') {n : Nat} (hn : (gram rules start).InReach n) :
    (gram rules' start').InReach (a n) := by
  obtain ⟨x, y, hd⟩ := hn
  have := h.derives hd
  simp only [List.map_append, List.map_cons] at this
  exact ⟨_, _, this⟩

theorem emb (h : SameUpTo a b σ rules start rules' start') (hst : ∃ r ∈ rules, r.lhs = start)
    (hf : ¬ (gram rules start).Used fresh) (hf' : ¬ (gram rules' start').Used fresh') :
    Emb (fun n => if n = fresh then fresh' else a n) b (withStart σ rules.length rules'.length) (fun n => n = fresh ∨ (gram rules start).InReach n)
      (gram rules start).TermInReach ((gram rules start).aug fresh) ((gram rules' start').aug fresh') rules.length rules'.length := by
  have hstg : ∃ r ∈ (gram rules start).rules, r.lhs = (gram rules start).start := by
    obtain ⟨r, hr, e⟩ := hst
    exact ⟨r.plain, List.mem_map_of_mem hr, e⟩
  have hstg' : ∃ r ∈ (gram rules' start').rules, r.lhs = (gram rules' start').start := by
    obtain ⟨r, hr, e⟩ := hst
    obtain ⟨i, hi⟩ := List.getElem?_of_mem hr
    have := List.mem_of_getElem? (h.there i r hi (by rw [e]; exact Gram.InReach.begin (g := gram rules start)))
    refine ⟨_, List.mem_map_of_mem this, ?_⟩
    show a r.lhs = start'
    rw [e, h.begins]
  have hne : ∀ n, (gram rules start).InReach n → n ≠ fresh := by
    rintro n hn rfl
    exact hf (hn.used hstg)
  have hne' : ∀ n, (gram rules start).InReach n → a n ≠ fresh' := by
    intro n hn e
    exact hf' (e ▸ (h.inReach hn).used hstg')
  have hlen : (gram rules start).rules.length = rules.length := by simp [gram]
  have hlen' : (gram rules' start').rules.length = rules'.length := by simp [gram]
  -- the rules of the augmented grammar
  have cases_rule : ∀ {rs : List (Rule N T E)} {st fr i : Nat} {r : PRule}, ((gram rs st).aug fr)[i]? = some r →
      (∃ r0, rs[i]? = some r0 ∧ r = r0.plain) ∨ (i = rs.length ∧ r = ⟨fr, [.nt st]⟩) := by
    intro rs st fr i r hi
    by_cases hlt : i < rs.length
    · left
      rw [Gram.aug, List.getElem?_append_left (by simpa [gram] using hlt)] at hi
      exact gram_rule hi
    · right
      rw [Gram.aug, List.getElem?_append_right (by simp [gram]; omega)] at hi
      have hl : (gram rs st).rules.length = rs.length := by simp [gram]
      rw [hl] at hi
      match hk : i - rs.length, hi with
      | 0, hi => simp at hi; exact ⟨by omega, hi.symm⟩
      | k + 1, hi => simp at hi
  have plain_rule : ∀ {rs : List (Rule N T E)} {st fr i : Nat} {r : Rule N T E}, rs[i]? = some r → ((gram rs st).aug fr)[i]? = some r.plain := by
    intro rs st fr i r hi
    have hlt := (List.getElem?_eq_some_iff.1 hi).1
    rw [Gram.aug, List.getElem?_append_left (by simpa [gram] using hlt)]
    simp [gram, hi]
  have start_rule : ∀ {rs : List (Rule N T E)} {st fr : Nat}, ((gram rs st).aug fr)[rs.length]? = some ⟨fr, [.nt st]⟩ := by
    intro rs st fr
    simp [Gram.aug, gram]
  have lhs_ne : ∀ {i : Nat} {r : Rule N T E}, rules[i]? = some r → r.lhs ≠ fresh := by
    intro i r hi e
    exact hf ⟨r.plain, List.mem_map_of_mem (List.mem_of_getElem? hi), .inl e⟩
  have lhs_ne' : ∀ {i : Nat} {r : Rule N T E}, rules'[i]? = some r → r.lhs ≠ fresh' := by
    intro i r hi e
    exact hf' ⟨r.plain, List.mem_map_of_mem (List.mem_of_getElem? hi), .inl e⟩
  have σlt : ∀ {i : Nat} {r : Rule N T E}, rules[i]? = some r → withStart σ rules.length rules'.length i = σ i := by
    intro i r hi
    have hlt := (List.getElem?_eq_some_iff.1 hi).1
    simp [withStart, Nat.ne_of_lt hlt]
  have ren_eq : ∀ {i : Nat} {r : Rule N T E}, rules[i]? = some r → (gram rules start).InReach r.lhs →
      (r.rename a b).plain = r.plain.rename (fun n => if n = fresh then fresh' else a n) b := by
    intro i r hi hr
    simp only [Rule.plain, Rule.rename, PRule.rename, PRule.mk.injEq]
    refine ⟨(if_neg (lhs_ne hi)).symm, ?_⟩
    apply List.map_congr_left
    intro X hX
    cases X with
    | tm t => rfl
    | nt n =>
      have : n ≠ fresh := hne n (hr.rhs (r := r.plain) (List.mem_map_of_mem (List.mem_of_getElem? hi)) hX)
      simp [Sym.rename, this]
  have start_ne : start ≠ fresh := hne start (Gram.InReach.begin (g := gram rules start))
  constructor
  · simp [withStart]
  · exact ⟨_, start_rule, .inl rfl⟩
  · -- there
    intro i r hi hn
    rcases cases_rule hi with ⟨r0, hr0, rfl⟩ | ⟨rfl, rfl⟩
    · have hre : (gram rules start).InReach r0.lhs := by
        rcases hn with hn | hn
        · exact absurd hn (lhs_ne hr0)
        · exact hn
      rw [σlt hr0, plain_rule (h.there i r0 hr0 hre), ren_eq hr0 hre]
    · rw [show withStart σ rules.length rules'.length rules.length = rules'.length by simp [withStart], start_rule]
      simp [PRule.rename, Sym.rename, start_ne, h.begins]
  · -- back
    intro j r' n hj hlhs hn
    rcases hn with rfl | hn
    · rw [if_pos rfl] at hlhs
      rcases cases_rule hj with ⟨r0, hr0, rfl⟩ | ⟨rfl, rfl⟩
      · exact absurd hlhs (lhs_ne' hr0)
      · exact ⟨rules.length, _, start_rule, rfl, by simp [withStart]⟩
    · rw [if_neg (hne n hn)] at hlhs
      rcases cases_rule hj with ⟨r0, hr0, rfl⟩ | ⟨rfl, rfl⟩
      · have hre' : (gram rules' start').InReach r0.lhs := by
          rw [show r0.lhs = a n from hlhs]; exact h.inReach hn
        obtain ⟨i, hi, rfl⟩ := h.back j r0 hr0 hre'
        obtain ⟨r, hr, hre⟩ := hi.get
        have e := h.there i r hr hre
        rw [hr0] at e
        cases e
        refine ⟨i, r.plain, plain_rule hr, ?_, (σlt hr).symm⟩
        exact h.a_inj _ _ hre hn hlhs
      · exact absurd hlhs.symm (hne' n hn)
  · -- good
    intro i r hi hn X hX
    rcases cases_rule hi with ⟨r0, hr0, rfl⟩ | ⟨rfl, rfl⟩
    · have hre : (gram rules start).InReach r0.lhs := by
        rcases hn with hn | hn
        · exact absurd hn (lhs_ne hr0)
        · exact hn
      have hm : r0.plain ∈ (gram rules start).rules := List.mem_map_of_mem (List.mem_of_getElem? hr0)
      match X, hX with
      | .nt n, hX => exact .inr (hre.rhs (r := r0.plain) hm hX)
      | .tm (.sym t), hX => exact ⟨r0.plain, hm, hre, hX⟩
      | .tm .err, _ => trivial
      | .tm .eoi, _ => trivial
    · simp only [List.mem_singleton] at hX
      subst hX
      exact .inr (Gram.InReach.begin (g := gram rules start))
  · intro m n hm hn e
    rcases hm with rfl | hm <;> rcases hn with rfl | hn
    · rfl
    · simp only [if_true, if_neg (hne n hn)] at e
      exact absurd e.symm (hne' n hn)
    · simp only [if_true, if_neg (hne m hm)] at e
      exact absurd e (hne' m hm)
    · simp only [if_neg (hne m hm), if_neg (hne n hn)] at e
      exact h.a_inj m n hm hn e
  · exact h.b_inj
  · intro i j r r' hi hn hj hn' e
    have key : ∀ {i : Nat} {r : PRule}, ((gram rules start).aug fresh)[i]? = some r → (r.lhs = fresh ∨ (gram rules start).InReach r.lhs) →
        (i = rules.length) ∨ ((gram rules start).RuleInReach i ∧ i ≠ rules.length ∧ σ i ≠ rules'.length) := by
      intro i r hi hn
      rcases cases_rule hi with ⟨r0, hr0, rfl⟩ | ⟨rfl, rfl⟩
      · right
        have hre : (gram rules start).InReach r0.lhs := by
          rcases hn with hn | hn
          · exact absurd hn (lhs_ne hr0)
          · exact hn
        have h1 := (List.getElem?_eq_some_iff.1 hr0).1
        have h2 := (List.getElem?_eq_some_iff.1 (h.there i r0 hr0 hre)).1
        exact ⟨⟨r0.plain, by simp [gram, hr0], hre⟩, by omega, by omega⟩
      · exact .inl rfl
    rcases key hi hn with rfl | ⟨h1, h2, h3⟩ <;> rcases key hj hn' with rfl | ⟨h4, h5, h6⟩
    · rfl
    · simp only [withStart, if_true, if_neg h5] at e
      exact absurd e.symm h6
    · simp only [withStart, if_true, if_neg h2] at e
      exact absurd e h3
    · simp only [withStart, if_neg h2, if_neg h5] at e
      exact h.σ_inj i j h1 h4 e

theorem complete_rule (h : SameUpTo a b σ rules start rules' start') (hst : ∃ r ∈ rules, r.lhs = start)
    (hf : ¬ (gram rules start).Used fresh) (hf' : ¬ (gram rules' start').Used fresh') {γ : List Sym} {r : Nat} {t : Term} (hr : r ≠ rules.length)
    (hc : Complete ((gram rules start).aug fresh) rules.length γ r t) :
    (gram rules start).RuleInReach r ∧ withStart σ rules.length rules'.length r = σ r := by
  obtain ⟨rule, h1, h2⟩ := (h.emb hst hf hf').complete_inReach hc
  have hlen : (gram rules start).rules.length = rules.length := by simp [gram]
  have hlt := (List.getElem?_eq_some_iff.1 h1).1
  simp only [Gram.aug, List.length_append, hlen, List.length_singleton] at hlt
  rw [Gram.aug, List.getElem?_append_left (by omega)] at h1
  refine ⟨⟨rule, h1, ?_⟩, by simp [withStart, hr]⟩
  rcases h2 with h2 | h2
  · exact absurd ⟨rule, List.mem_of_getElem? h1, .inl h2⟩ hf
  · exact h2

end SameUpTo

/-! ## Warnings and panics -/

/-- Two things to do. -/
def Clash (R : List PRule) (s : Nat) : Prop :=
  ∃ γ t r, r ≠ s ∧ Complete R s γ r t ∧ (Expects R s γ (.tm t) ∨ ∃ r2, r2 ≠ s ∧ r2 ≠ r ∧ Complete R s γ r2 t)

theorem warn_iff {R : List PRule} {s : Nat} {r0 : PRule} (hs : R[s]? = some r0) {ws : List Warning} (hw : WarnExact R s ws) : ws = [] ↔ ¬ Clash R s := by
  constructor
  · rintro rfl ⟨γ, t, r, h1, h2, h3⟩
    obtain ⟨h4, h5⟩ := no_clash hs hw γ t r h1 h2
    rcases h3 with h3 | ⟨r2, h6, h7, h8⟩
    · exact h4 h3
    · exact h7 (h5 r2 h6 h8)
  · intro hc
    cases ws with
    | nil => rfl
    | cons w ws =>
      exfalso
      cases w with
      | shiftReduce S S' r =>
        obtain ⟨γ, t, _, _, h1, h2, h3⟩ := (hw.shiftReduce S S' r).1 List.mem_cons_self
        exact hc ⟨γ, t, r, h1, h2, .inl h3⟩
      | reduceReduce S r r' =>
        obtain ⟨γ, t, _, h1, h2, h3, h4, h5, _⟩ := (hw.reduceReduce S r r').1 List.mem_cons_self
        exact hc ⟨γ, t, r, h1, h4, .inr ⟨r', h2, by omega, h5⟩⟩

/-- A non-terminal without rule is needed. -/
def NoRuleFor (R : List PRule) (s : Nat) : Prop :=
  ∃ γ i r B b ρ, Valid R s γ i ∧ R[i.rule]? = some r ∧ r.rhs[i.pos]? = some (.nt B) ∧
    (∀ r' ∈ R, r'.lhs ≠ B) ∧ Derives R (r.rhs.drop (i.pos + 1) ++ [.tm i.la]) (.tm b :: ρ)

namespace Emb

variable {Nm Tm : Nat → Prop} {R R' : List PRule} {s s' : Nat}

theorem expects_good (h : Emb a b σ Nm Tm R R' s s') {γ : List Sym} {X : Sym} (he : Expects R s γ X) : X.Good Nm Tm := by
  obtain ⟨i, r, hv, hr, hX⟩ := he
  obtain ⟨_, _, _, r0, hr0, hn⟩ := h.valid hv
  rw [hr] at hr0
  cases hr0
  exact h.good _ r hr hn X (List.mem_of_getElem? hX)

theorem complete_good (h : Emb a b σ Nm Tm R R' s s') {γ : List Sym} {r : Nat} {t : Term} (hc : Complete R s γ r t) :
    (∀ X ∈ γ, X.Good Nm Tm) ∧ Sym.Good Nm Tm (.tm t) := by
  obtain ⟨rule, _, hv⟩ := hc
  exact ⟨(h.valid hv).2.path, (h.valid hv).2.la⟩

theorem complete_back (h : Emb a b σ Nm Tm R R' s s') {γ' : List Sym} {r' : Nat} {t' : Term} (hc : Complete R' s' γ' r' t') :
    ∃ γ r t, γ' = γ.map (Sym.rename a b) ∧ r' = σ r ∧ t' = t.rename b ∧ Complete R s γ r t := by
  obtain ⟨rule', hr', hv⟩ := id hc
  obtain ⟨γ, i, rfl, _, hw⟩ := h.valid_back hv
  obtain ⟨r, t, h1, h2, _, h3⟩ := (h.complete (h.valid hw).2.path).1 hc
  exact ⟨γ, r, t, rfl, h1, h2, h3⟩

/-- `expects` and `complete` for the same terminal. -/
theorem expects_ren (h : Emb a b σ Nm Tm R R' s s') {γ : List Sym} (hγ : ∀ X ∈ γ, X.Good Nm Tm) {t : Term} (ht : Sym.Good Nm Tm (.tm t)) :
    Expects R' s' (γ.map (Sym.rename a b)) (.tm (t.rename b)) ↔ Expects R s γ (.tm t) := by
  rw [h.expects hγ]
  constructor
  · rintro ⟨X, e, hX, he⟩
    rw [h.sym_inj (X := .tm t) (Y := X) ht hX e]
    exact he
  · intro he; exact ⟨.tm t, rfl, ht, he⟩

theorem complete_ren (h : Emb a b σ Nm Tm R R' s s') {γ : List Sym} (hγ : ∀ X ∈ γ, X.Good Nm Tm) {t : Term} (ht : Sym.Good Nm Tm (.tm t))
    {r' : Nat} : Complete R' s' (γ.map (Sym.rename a b)) r' (t.rename b) ↔ ∃ r, r' = σ r ∧ Complete R s γ r t := by
  rw [h.complete hγ]
  constructor
  · rintro ⟨r, u, rfl, e, hu, hc⟩
    have : Sym.tm t = .tm u := h.sym_inj ht hu (by simp [Sym.rename, e])
    cases this
    exact ⟨r, rfl, hc⟩
  · rintro ⟨r, rfl, hc⟩; exact ⟨r, t, rfl, rfl, ht, hc⟩

theorem clash (h : Emb a b σ Nm Tm R R' s s') : Clash R s ↔ Clash R' s' := by
  constructor
  · rintro ⟨γ, t, r, h1, h2, h3⟩
    obtain ⟨hγ, ht⟩ := h.complete_good h2
    refine ⟨γ.map (Sym.rename a b), t.rename b, σ r, (h.σ_ne h2).2 h1, (h.complete_ren hγ ht).2 ⟨r, rfl, h2⟩, ?_⟩
    rcases h3 with h3 | ⟨r2, h4, h5, h6⟩
    · exact .inl ((h.expects_ren hγ ht).2 h3)
    · refine .inr ⟨σ r2, (h.σ_ne h6).2 h4, ?_, (h.complete_ren hγ ht).2 ⟨r2, rfl, h6⟩⟩
      intro e
      obtain ⟨x, hx, hnx⟩ := h.complete_inReach h2
      obtain ⟨y, hy, hny⟩ := h.complete_inReach h6
      exact h5 (h.σ_inj _ _ _ _ hy hny hx hnx e)
  · rintro ⟨γ', t', r', h1, h2, h3⟩
    obtain ⟨γ, r, t, rfl, rfl, rfl, hc⟩ := h.complete_back h2
    obtain ⟨hγ, ht⟩ := h.complete_good hc
    refine ⟨γ, t, r, (h.σ_ne hc).1 h1, hc, ?_⟩
    rcases h3 with h3 | ⟨r2, h4, h5, h6⟩
    · exact .inl ((h.expects_ren hγ ht).1 h3)
    · obtain ⟨r2, rfl, hc2⟩ := (h.complete_ren hγ ht).1 h6
      exact .inr ⟨r2, (h.σ_ne hc2).1 h4, fun e => h5 (by rw [e]), hc2⟩

theorem stuck (h : Emb a b σ Nm Tm R R' s s') : NoRuleFor R s ↔ NoRuleFor R' s' := by
  have hu : ∀ {i : Item} {r : PRule}, R[i.rule]? = some r → Nm r.lhs → Sym.Good Nm Tm (.tm i.la) →
      ∀ X ∈ r.rhs.drop (i.pos + 1) ++ [.tm i.la], X.Good Nm Tm := by
    intro i r hr hn hla X hX
    simp only [List.mem_append, List.mem_singleton] at hX
    rcases hX with hX | rfl
    · exact h.good _ r hr hn X (List.mem_of_mem_drop hX)
    · exact hla
  constructor
  · rintro ⟨γ, i, r, B, b', ρ, hv, hr, hX, hno, hd⟩
    obtain ⟨h1, _, hla, r0, hr0, hn⟩ := h.valid hv
    rw [hr] at hr0
    cases hr0
    have hB : Nm B := h.good _ r hr hn (.nt B) (List.mem_of_getElem? hX)
    refine ⟨γ.map (Sym.rename a b), i.rename b σ, r.rename a b, a B, b'.rename b, ρ.map (Sym.rename a b), h1, h.there _ r hr hn,
      by simp [PRule.rename, Item.rename, hX, Sym.rename], ?_, ?_⟩
    · intro r' hr' e
      obtain ⟨j, hj⟩ := List.getElem?_of_mem hr'
      obtain ⟨k, rk, hk, e2, _⟩ := h.back j r' B hj e hB
      exact hno rk (List.mem_of_getElem? hk) e2
    · simpa [PRule.rename, Item.rename, List.map_drop, Sym.rename] using (h.derives (hu hr hn hla) hd).1
  · rintro ⟨γ', i', r', B', b', ρ, hv, hr', hX', hno, hd⟩
    obtain ⟨γ, i, rfl, rfl, hw⟩ := h.valid_back hv
    obtain ⟨_, hg, hla, r, hr, hn⟩ := h.valid hw
    simp only [Item.rename] at hr' hX' hd
    rw [h.there _ r hr hn] at hr'
    cases hr'
    simp only [PRule.rename, List.getElem?_map, Option.map_eq_some_iff] at hX'
    obtain ⟨X, hX, eX⟩ := hX'
    cases X with
    | tm t => simp [Sym.rename] at eX
    | nt n =>
      simp only [Sym.rename, Sym.nt.injEq] at eX
      subst eX
      obtain ⟨v, ev, hd', _⟩ := h.derives_back (hu hr hn hla) (v' := .tm b' :: ρ) (by simpa [PRule.rename, List.map_drop, Sym.rename] using hd)
      obtain ⟨Y, ρ0, rfl, eY, rfl⟩ := List.map_eq_cons_iff.1 ev.symm
      cases Y with
      | nt n => simp [Sym.rename] at eY
      | tm t =>
        refine ⟨γ, i, r, n, t, ρ0, hw, hr, hX, ?_, hd'⟩
        rintro r2 hr2 rfl
        obtain ⟨k, hk⟩ := List.getElem?_of_mem hr2
        have hN : Nm r2.lhs := h.good _ r hr hn (.nt r2.lhs) (List.mem_of_getElem? hX)
        exact hno _ (List.mem_of_getElem? (h.there k r2 hk hN)) rfl

end Emb
end Verif.Par
