import Verif.Par.Embed
import Verif.Par.LrSpec

/-!
# Valid items of grammars that are the same up to names
-/

namespace Verif.Par

def Item.rename (b σ : Nat → Nat) (i : Item) : Item := ⟨σ i.rule, i.pos, i.la.rename b⟩

def Sym.Good (Nm Tm : Nat → Prop) : Sym → Prop
  | .nt n => Nm n
  | .tm (.sym t) => Tm t
  | .tm _ => True

/-- The rules whose left sides are in `Nm` are the same in `R` and `R'`. -/
structure Emb (a b σ : Nat → Nat) (Nm Tm : Nat → Prop) (R R' : List PRule) (s s' : Nat) : Prop where
  start : s' = σ s
  startRule : ∃ r, R[s]? = some r ∧ Nm r.lhs
  there : ∀ i r, R[i]? = some r → Nm r.lhs → R'[σ i]? = some (r.rename a b)
  back : ∀ j r' n, R'[j]? = some r' → r'.lhs = a n → Nm n → ∃ i r, R[i]? = some r ∧ r.lhs = n ∧ j = σ i
  good : ∀ (i : Nat) r, R[i]? = some r → Nm r.lhs → ∀ X ∈ r.rhs, X.Good Nm Tm
  a_inj : ∀ m n, Nm m → Nm n → a m = a n → m = n
  b_inj : ∀ x y, Tm x → Tm y → b x = b y → x = y
  σ_inj : ∀ i j r r', R[i]? = some r → Nm r.lhs → R[j]? = some r' → Nm r'.lhs → σ i = σ j → i = j

namespace Emb

variable {a b σ : Nat → Nat} {Nm Tm : Nat → Prop} {R R' : List PRule} {s s' : Nat}

theorem sym_inj (h : Emb a b σ Nm Tm R R' s s') {X Y : Sym} (hX : X.Good Nm Tm) (hY : Y.Good Nm Tm) (e : X.rename a b = Y.rename a b) : X = Y := by
  match X, Y with
  | .nt m, .nt n => simp only [Sym.rename, Sym.nt.injEq] at e; rw [h.a_inj m n hX hY e]
  | .nt m, .tm t => simp [Sym.rename] at e
  | .tm t, .nt n => simp [Sym.rename] at e
  | .tm (.sym x), .tm (.sym y) => simp only [Sym.rename, Term.rename, Sym.tm.injEq, Term.sym.injEq] at e; rw [h.b_inj x y hX hY e]
  | .tm (.sym x), .tm .err => simp [Sym.rename, Term.rename] at e
  | .tm (.sym x), .tm .eoi => simp [Sym.rename, Term.rename] at e
  | .tm .err, .tm (.sym x) => simp [Sym.rename, Term.rename] at e
  | .tm .err, .tm .err => rfl
  | .tm .err, .tm .eoi => simp [Sym.rename, Term.rename] at e
  | .tm .eoi, .tm (.sym x) => simp [Sym.rename, Term.rename] at e
  | .tm .eoi, .tm .err => simp [Sym.rename, Term.rename] at e
  | .tm .eoi, .tm .eoi => rfl

theorem list_inj (h : Emb a b σ Nm Tm R R' s s') : ∀ {γ δ : List Sym}, (∀ X ∈ γ, X.Good Nm Tm) → (∀ X ∈ δ, X.Good Nm Tm) →
    γ.map (Sym.rename a b) = δ.map (Sym.rename a b) → γ = δ
  | [], [], _, _, _ => rfl
  | [], _ :: _, _, _, e => by simp at e
  | _ :: _, [], _, _, e => by simp at e
  | X :: γ, Y :: δ, h1, h2, e => by
    simp only [List.map_cons, List.cons.injEq] at e
    rw [h.sym_inj (h1 X (by simp)) (h2 Y (by simp)) e.1,
      h.list_inj (fun Z hZ => h1 Z (by simp [hZ])) (fun Z hZ => h2 Z (by simp [hZ])) e.2]

theorem derives (h : Emb a b σ Nm Tm R R' s s') {u v : List Sym} (hu : ∀ X ∈ u, X.Good Nm Tm) (hd : Derives R u v) :
    Derives R' (u.map (Sym.rename a b)) (v.map (Sym.rename a b)) ∧ ∀ X ∈ v, X.Good Nm Tm := by
  induction hd with
  | refl => exact ⟨.refl _, hu⟩
  | step x y r hd hr ih =>
    obtain ⟨h1, h2⟩ := ih
    obtain ⟨i, hi⟩ := List.getElem?_of_mem hr
    have hn : Nm r.lhs := h2 (.nt r.lhs) (by simp)
    have hr' := List.mem_of_getElem? (h.there i r hi hn)
    constructor
    · have := Derives.step _ (x.map (Sym.rename a b)) (y.map (Sym.rename a b)) (r.rename a b) (by simpa [Sym.rename, PRule.rename] using h1) hr'
      simpa [PRule.rename] using this
    · intro X hX
      simp only [List.mem_append] at hX
      rcases hX with (hX | hX) | hX
      · exact h2 X (by simp [hX])
      · exact h.good i r hi hn X hX
      · exact h2 X (by simp [hX])

theorem derives_back (h : Emb a b σ Nm Tm R R' s s') {u : List Sym} (hu : ∀ X ∈ u, X.Good Nm Tm) {v' : List Sym}
    (hd : Derives R' (u.map (Sym.rename a b)) v') : ∃ v, v' = v.map (Sym.rename a b) ∧ Derives R u v ∧ ∀ X ∈ v, X.Good Nm Tm := by
  generalize hu' : u.map (Sym.rename a b) = u' at hd
  induction hd with
  | refl => exact ⟨u, hu'.symm, .refl _, hu⟩
  | step x y r hd hr ih =>
    obtain ⟨v, e, hd', hg⟩ := ih
    obtain ⟨x0, y1, rfl, rfl, e1⟩ := List.append_eq_map_iff.1 e
    obtain ⟨X, y0, rfl, eX, rfl⟩ := List.map_eq_cons_iff.1 e1
    cases X with
    | tm t => simp [Sym.rename] at eX
    | nt n =>
      simp only [Sym.rename, Sym.nt.injEq] at eX
      have hn : Nm n := hg (.nt n) (by simp)
      obtain ⟨j, hj⟩ := List.getElem?_of_mem hr
      obtain ⟨i, r0, hi, rfl, rfl⟩ := h.back j r n hj eX.symm hn
      rw [h.there i r0 hi hn] at hj
      cases hj
      refine ⟨x0 ++ r0.rhs ++ y0, by simp [PRule.rename], Derives.step _ _ _ _ hd' (List.mem_of_getElem? hi), ?_⟩
      intro X hX
      simp only [List.mem_append] at hX
      rcases hX with (hX | hX) | hX
      · exact hg X (by simp [hX])
      · exact h.good i r0 hi hn X hX
      · exact hg X (by simp [hX])

/-- What is true of valid items. -/
structure VGood (Nm Tm : Nat → Prop) (R : List PRule) (γ : List Sym) (i : Item) : Prop where
  path : ∀ X ∈ γ, X.Good Nm Tm
  la : Sym.Good Nm Tm (.tm i.la)
  rule : ∃ r, R[i.rule]? = some r ∧ Nm r.lhs

theorem valid (h : Emb a b σ Nm Tm R R' s s') {γ : List Sym} {i : Item} (hv : Valid R s γ i) :
    Valid R' s' (γ.map (Sym.rename a b)) (i.rename b σ) ∧ VGood Nm Tm R γ i := by
  induction hv with
  | start => exact ⟨by rw [h.start]; exact .start, by simp, trivial, h.startRule⟩
  | advance γ i r X _ hr hX ih =>
    obtain ⟨h1, h2, h3, r0, h4, h5⟩ := ih
    rw [hr] at h4
    cases h4
    refine ⟨?_, ?_, h3, r, hr, h5⟩
    · have := Valid.advance _ (i.rename b σ) (r.rename a b) (X.rename a b) h1 (h.there _ r hr h5) (by simp [PRule.rename, Item.rename, hX])
      simpa [Item.rename] using this
    · intro Y hY
      simp only [List.mem_append, List.mem_singleton] at hY
      rcases hY with hY | rfl
      · exact h2 Y hY
      · exact h.good _ r hr h5 Y (List.mem_of_getElem? hX)
  | expand γ i r B j r' b' ρ _ hr hX hj hB hd ih =>
    obtain ⟨h1, h2, h3, r0, h4, h5⟩ := ih
    rw [hr] at h4
    cases h4
    have hN : Nm B := h.good _ r hr h5 (.nt B) (List.mem_of_getElem? hX)
    subst hB
    have hu : ∀ X ∈ r.rhs.drop (i.pos + 1) ++ [.tm i.la], X.Good Nm Tm := by
      intro X hX
      simp only [List.mem_append, List.mem_singleton] at hX
      rcases hX with hX | rfl
      · exact h.good _ r hr h5 X (List.mem_of_mem_drop hX)
      · exact h3
    obtain ⟨d1, d2⟩ := h.derives hu hd
    refine ⟨?_, h2, d2 _ (by simp), r', hj, hN⟩
    exact Valid.expand _ (i.rename b σ) (r.rename a b) (a r'.lhs) (σ j) (r'.rename a b) (b'.rename b) (ρ.map (Sym.rename a b)) h1 (h.there _ r hr h5)
      (by simp [PRule.rename, Item.rename, hX, Sym.rename]) (h.there j r' hj hN) rfl
      (by simpa [PRule.rename, Item.rename, List.map_drop, Sym.rename] using d1)

theorem valid_back (h : Emb a b σ Nm Tm R R' s s') {γ' : List Sym} {i' : Item} (hv : Valid R' s' γ' i') :
    ∃ γ i, γ' = γ.map (Sym.rename a b) ∧ i' = i.rename b σ ∧ Valid R s γ i := by
  induction hv with
  | start => exact ⟨[], ⟨s, 0, .eoi⟩, rfl, by simp [Item.rename, h.start, Term.rename], .start⟩
  | advance γ' i' r' X' _ hr' hX' ih =>
    obtain ⟨γ, i, rfl, rfl, hv⟩ := ih
    obtain ⟨_, _, _, r, hr, hn⟩ := h.valid hv
    have e := h.there _ r hr hn
    simp only [Item.rename] at hr' hX'
    rw [e] at hr'
    cases hr'
    simp only [PRule.rename, List.getElem?_map, Option.map_eq_some_iff] at hX'
    obtain ⟨X, hX, rfl⟩ := hX'
    exact ⟨γ ++ [X], ⟨i.rule, i.pos + 1, i.la⟩, by simp, rfl, hv.advance _ _ _ _ hr hX⟩
  | expand γ' i' r' B j r1' b' ρ _ hr' hX' hj hB hd ih =>
    obtain ⟨γ, i, rfl, rfl, hv⟩ := ih
    obtain ⟨_, hg, hla, r, hr, hn⟩ := h.valid hv
    have e := h.there _ r hr hn
    simp only [Item.rename] at hr' hX' hd
    rw [e] at hr'
    cases hr'
    simp only [PRule.rename, List.getElem?_map, Option.map_eq_some_iff] at hX'
    obtain ⟨X, hX, eX⟩ := hX'
    cases X with
    | tm t => simp [Sym.rename] at eX
    | nt n =>
      simp only [Sym.rename, Sym.nt.injEq] at eX
      subst eX
      have hN : Nm n := h.good _ r hr hn (.nt n) (List.mem_of_getElem? hX)
      obtain ⟨k, r1, hk, rfl, rfl⟩ := h.back j r1' n hj hB hN
      have hu : ∀ X ∈ r.rhs.drop (i.pos + 1) ++ [.tm i.la], X.Good Nm Tm := by
        intro X hX
        simp only [List.mem_append, List.mem_singleton] at hX
        rcases hX with hX | rfl
        · exact h.good _ r hr hn X (List.mem_of_mem_drop hX)
        · exact hla
      obtain ⟨v, ev, hd', _⟩ := h.derives_back hu (v' := .tm b' :: ρ) (by simpa [PRule.rename, List.map_drop, Sym.rename] using hd)
      obtain ⟨Y, ρ0, rfl, eY, rfl⟩ := List.map_eq_cons_iff.1 ev.symm
      cases Y with
      | nt n => simp [Sym.rename] at eY
      | tm t =>
        simp only [Sym.rename, Sym.tm.injEq] at eY
        subst eY
        exact ⟨γ, ⟨k, 0, t⟩, rfl, rfl, hv.expand _ _ _ _ _ _ _ _ hr hX hk rfl hd'⟩

theorem valid_iff (h : Emb a b σ Nm Tm R R' s s') {γ : List Sym} (hγ : ∀ X ∈ γ, X.Good Nm Tm) {i' : Item} :
    Valid R' s' (γ.map (Sym.rename a b)) i' ↔ ∃ i, i' = i.rename b σ ∧ Valid R s γ i := by
  constructor
  · intro hv
    obtain ⟨γ0, i, e, rfl, hw⟩ := h.valid_back hv
    have := h.list_inj hγ (h.valid hw).2.path e
    subst this
    exact ⟨i, rfl, hw⟩
  · rintro ⟨i, rfl, hv⟩
    exact (h.valid hv).1

theorem expects (h : Emb a b σ Nm Tm R R' s s') {γ : List Sym} (hγ : ∀ X ∈ γ, X.Good Nm Tm) {X' : Sym} :
    Expects R' s' (γ.map (Sym.rename a b)) X' ↔ ∃ X, X' = X.rename a b ∧ X.Good Nm Tm ∧ Expects R s γ X := by
  constructor
  · rintro ⟨i', r', hv, hr', hX'⟩
    obtain ⟨i, rfl, hw⟩ := (h.valid_iff hγ).1 hv
    obtain ⟨_, _, _, r, hr, hn⟩ := h.valid hw
    simp only [Item.rename] at hr' hX'
    rw [h.there _ r hr hn] at hr'
    cases hr'
    simp only [PRule.rename, List.getElem?_map, Option.map_eq_some_iff] at hX'
    obtain ⟨X, hX, rfl⟩ := hX'
    exact ⟨X, rfl, h.good _ r hr hn X (List.mem_of_getElem? hX), i, r, hw, hr, hX⟩
  · rintro ⟨X, rfl, _, i, r, hv, hr, hX⟩
    obtain ⟨h1, _, _, r0, hr0, hn⟩ := h.valid hv
    rw [hr] at hr0
    cases hr0
    exact ⟨i.rename b σ, r.rename a b, h1, h.there _ r hr hn, by simp [PRule.rename, Item.rename, hX]⟩

theorem complete (h : Emb a b σ Nm Tm R R' s s') {γ : List Sym} (hγ : ∀ X ∈ γ, X.Good Nm Tm) {r' : Nat} {t' : Term} :
    Complete R' s' (γ.map (Sym.rename a b)) r' t' ↔ ∃ r t, r' = σ r ∧ t' = t.rename b ∧ Sym.Good Nm Tm (.tm t) ∧ Complete R s γ r t := by
  constructor
  · rintro ⟨rule', hr', hv⟩
    obtain ⟨i, e, hw⟩ := (h.valid_iff hγ).1 hv
    obtain ⟨_, _, hla, r, hr, hn⟩ := h.valid hw
    simp only [Item.rename, Item.mk.injEq] at e
    obtain ⟨rfl, e2, rfl⟩ := e
    rw [h.there _ r hr hn] at hr'
    cases hr'
    simp only [PRule.rename, List.length_map] at e2
    refine ⟨i.rule, i.la, rfl, rfl, hla, r, hr, ?_⟩
    rw [e2]
    exact hw
  · rintro ⟨r, t, rfl, rfl, _, rule, hr, hv⟩
    obtain ⟨h1, _, _, r0, hr0, hn⟩ := h.valid hv
    simp only at hr0
    rw [hr] at hr0
    cases hr0
    exact ⟨rule.rename a b, h.there _ rule hr hn, by simpa [Item.rename, PRule.rename] using h1⟩

theorem complete_inReach (h : Emb a b σ Nm Tm R R' s s') {γ : List Sym} {r : Nat} {t : Term} (hc : Complete R s γ r t) :
    ∃ rule, R[r]? = some rule ∧ Nm rule.lhs := by
  obtain ⟨rule, hr, hv⟩ := hc
  exact (h.valid hv).2.rule

theorem σ_ne (h : Emb a b σ Nm Tm R R' s s') {γ : List Sym} {r : Nat} {t : Term} (hc : Complete R s γ r t) : σ r ≠ s' ↔ r ≠ s := by
  rw [h.start]
  obtain ⟨rule, hr, hn⟩ := h.complete_inReach hc
  obtain ⟨r0, hr0, hn0⟩ := h.startRule
  constructor
  · rintro hne rfl; exact hne rfl
  · intro hne e; exact hne (h.σ_inj _ _ _ _ hr hn hr0 hn0 e)

theorem itemsOf (h : Emb a b σ Nm Tm R R' s s') {γ : List Sym} (hγ : ∀ X ∈ γ, X.Good Nm Tm) {S S' : State} (hS : ItemsOf R s γ S)
    (hS' : ItemsOf R' s' (γ.map (Sym.rename a b)) S') (i' : Item) : i' ∈ S' ↔ ∃ i ∈ S, i' = i.rename b σ := by
  rw [hS'.2, h.valid_iff hγ]
  constructor
  · rintro ⟨i, rfl, hv⟩; exact ⟨i, (hS.2 i).2 hv, rfl⟩
  · rintro ⟨i, hi, rfl⟩; exact ⟨i, rfl, (hS.2 i).1 hi⟩

end Emb
end Verif.Par
