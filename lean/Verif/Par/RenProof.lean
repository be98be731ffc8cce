import Verif.Par.NodupProof
import Verif.Par.BisimProof

/-!
# Renaming symbols
-/

namespace Verif.Par

/-- Renaming of terminals by `f`. -/
def Term.ren (f : Nat → Nat) : Term → Term
  | .sym t => .sym (f t)
  | .err => .err
  | .eoi => .eoi

/-- Renaming of symbols: terminals by `f`, non-terminals by `h`. -/
def Sym.ren (f h : Nat → Nat) : Sym → Sym
  | .nt n => .nt (h n)
  | .tm t => .tm (t.ren f)

def PRule.ren (f h : Nat → Nat) (r : PRule) : PRule := ⟨h r.lhs, r.rhs.map (Sym.ren f h)⟩

def Item.ren (f : Nat → Nat) (i : Item) : Item := ⟨i.rule, i.pos, i.la.ren f⟩

section
variable {f h : Nat → Nat} (hf : ∀ a b, f a = f b → a = b) (hh : ∀ a b, h a = h b → a = b)

include hf in
theorem Term.ren_inj {a b : Term} (e : a.ren f = b.ren f) : a = b := by
  cases a <;> cases b <;> simp_all [Term.ren]
  exact hf _ _ e

include hf hh in
theorem Sym.ren_inj {a b : Sym} (e : a.ren f h = b.ren f h) : a = b := by
  cases a <;> cases b <;> simp_all [Sym.ren]
  · exact hh _ _ e
  · exact Term.ren_inj hf e

include hf hh in
theorem rens_inj {a b : List Sym} (e : a.map (Sym.ren f h) = b.map (Sym.ren f h)) : a = b := by
  induction a generalizing b with
  | nil => cases b <;> simp_all
  | cons x a ih =>
    cases b with
    | nil => simp at e
    | cons y b =>
      simp only [List.map_cons, List.cons.injEq] at e
      rw [Sym.ren_inj hf hh e.1, ih e.2]

include hf in
theorem Item.ren_inj {a b : Item} (e : a.ren f = b.ren f) : a = b := by
  obtain ⟨a1, a2, a3⟩ := a
  obtain ⟨b1, b2, b3⟩ := b
  simp only [Item.ren, Item.mk.injEq] at e
  rw [e.1, e.2.1, Term.ren_inj hf e.2.2]

theorem Gen.ren {R : List PRule} {u v : List Sym} (g : Gen R u v) : Gen (R.map (PRule.ren f h)) (u.map (Sym.ren f h)) (v.map (Sym.ren f h)) := by
  induction g with
  | nil => exact .nil
  | keep X l w _ ih => exact .keep _ _ _ ih
  | expand r l u v hr _ _ ih1 ih2 =>
    rw [List.map_append]
    exact Gen.expand (r.ren f h) _ _ _ (List.mem_map.2 ⟨r, hr, rfl⟩) ih1 ih2

include hf hh in
theorem Gen.unren {R : List PRule} {u v' : List Sym} (g : Gen (R.map (PRule.ren f h)) (u.map (Sym.ren f h)) v') :
    ∃ v, v' = v.map (Sym.ren f h) ∧ Gen R u v := by
  generalize hu : u.map (Sym.ren f h) = u' at g
  induction g generalizing u with
  | nil => 
    simp only [List.map_eq_nil_iff] at hu
    subst hu
    exact ⟨[], rfl, .nil⟩
  | keep X l w _ ih =>
    obtain ⟨x, u1, rfl, rfl, rfl⟩ := List.map_eq_cons_iff.1 hu
    obtain ⟨v, rfl, hv⟩ := ih rfl
    exact ⟨x :: v, rfl, .keep _ _ _ hv⟩
  | expand r l w v hr _ _ ih1 ih2 =>
    obtain ⟨x, u1, rfl, hx, rfl⟩ := List.map_eq_cons_iff.1 hu
    obtain ⟨r0, hr0, rfl⟩ := List.mem_map.1 hr
    obtain ⟨v1, rfl, h1⟩ := ih1 (u := r0.rhs) rfl
    obtain ⟨v2, rfl, h2⟩ := ih2 rfl
    have : x = .nt r0.lhs := Sym.ren_inj hf hh (hx.trans rfl)
    subst this
    exact ⟨v1 ++ v2, by simp, .expand _ _ _ _ hr0 h1 h2⟩

theorem Valid.ren {R : List PRule} {s : Nat} {γ : List Sym} {i : Item} (v : Valid R s γ i) :
    Valid (R.map (PRule.ren f h)) s (γ.map (Sym.ren f h)) (i.ren f) := by
  induction v with
  | start => exact .start
  | advance γ i r X _ h1 h2 ih =>
    rw [List.map_append]
    exact Valid.advance _ (i.ren f) (r.ren f h) (X.ren f h) ih (by simp [Item.ren, h1]) (by simp [PRule.ren, Item.ren, h2])
  | expand γ i r B j r' b ρ _ h1 h2 h3 h4 h5 ih =>
    have := Gen.ren (f := f) (h := h) (gen_iff.2 h5)
    exact Valid.expand _ (i.ren f) (r.ren f h) (h B) j (r'.ren f h) (b.ren f) (ρ.map (Sym.ren f h)) ih (by simp [Item.ren, h1])
      (by simp [PRule.ren, Item.ren, h2, Sym.ren]) (by simp [h3]) (by simp [PRule.ren, h4])
      (gen_iff.1 (by simpa [PRule.ren, Item.ren, Sym.ren, List.map_drop] using this))

include hf hh in
theorem Valid.unren {R : List PRule} {s : Nat} {γ' : List Sym} {i' : Item} (v : Valid (R.map (PRule.ren f h)) s γ' i') :
    ∃ γ i, γ' = γ.map (Sym.ren f h) ∧ i' = i.ren f ∧ Valid R s γ i := by
  induction v with
  | start => exact ⟨[], ⟨s, 0, .eoi⟩, rfl, rfl, .start⟩
  | advance γ' i' r' X' _ h1 h2 ih =>
    obtain ⟨γ, i, rfl, rfl, v⟩ := ih
    simp only [List.getElem?_map, Option.map_eq_some_iff, Item.ren] at h1
    obtain ⟨r, h1, rfl⟩ := h1
    simp only [PRule.ren, List.getElem?_map, Option.map_eq_some_iff, Item.ren] at h2
    obtain ⟨X, h2, rfl⟩ := h2
    exact ⟨γ ++ [X], ⟨i.rule, i.pos + 1, i.la⟩, by simp, rfl, .advance _ _ _ _ v h1 h2⟩
  | expand γ' i' r' B' j r2' b' ρ' _ h1 h2 h3 h4 h5 ih =>
    obtain ⟨γ, i, rfl, rfl, v⟩ := ih
    simp only [List.getElem?_map, Option.map_eq_some_iff, Item.ren] at h1 h3
    obtain ⟨r, h1, rfl⟩ := h1
    obtain ⟨r2, h3, rfl⟩ := h3
    simp only [PRule.ren, List.getElem?_map, Option.map_eq_some_iff, Item.ren] at h2
    obtain ⟨X, h2, hX⟩ := h2
    have hg := gen_iff.2 h5
    have e : (PRule.ren f h r).rhs.drop ((i.ren f).pos + 1) ++ [Sym.tm (i.ren f).la] =
        (r.rhs.drop (i.pos + 1) ++ [Sym.tm i.la]).map (Sym.ren f h) := by
      simp [PRule.ren, Item.ren, Sym.ren, List.map_drop]
    rw [e] at hg
    obtain ⟨w, hw, hg'⟩ := Gen.unren hf hh hg
    obtain ⟨x, ρ, rfl, hx, rfl⟩ := List.map_eq_cons_iff.1 hw.symm
    cases x with
    | nt n => cases hx
    | tm b =>
      cases hx
      cases X with
      | tm t => cases hX
      | nt B =>
        simp only [Sym.ren, Sym.nt.injEq] at hX
        have : r2.lhs = B := hh _ _ (by rw [hX]; exact h4)
        exact ⟨γ, ⟨j, 0, b⟩, rfl, rfl, .expand γ i r B j r2 b ρ v h1 h2 h3 this (gen_iff.1 hg')⟩

include hf hh in
theorem valid_ren {R : List PRule} {s : Nat} {γ : List Sym} {i : Item} :
    Valid (R.map (PRule.ren f h)) s (γ.map (Sym.ren f h)) (i.ren f) ↔ Valid R s γ i := by
  constructor
  · intro v
    obtain ⟨γ', i', h1, h2, v⟩ := v.unren hf hh
    rw [rens_inj hf hh h1, Item.ren_inj hf h2]
    exact v
  · exact Valid.ren

/-- `B` is `A` with renamed keys. -/
structure TabRen (f h : Nat → Nat) (A B : Tables) : Prop where
  start : B.start = A.start
  act : ∀ q a' x, B.act q a' = some x ↔ ∃ a, a' = a.ren f ∧ A.act q a = some x
  goto : ∀ q n' r, (get q B.goto).bind (get n') = some r ↔ ∃ n, n' = h n ∧ (get q A.goto).bind (get n) = some r
  row : ∀ q row, get q A.action = some row → ∃ row', get q B.action = some row'
  errors : ∀ q r, r ∈ (get q B.errors).getD [] ↔ r ∈ (get q A.errors).getD []
  errors_ne : ∀ q es, get q B.errors = some es → es ≠ []

set_option linter.unusedSectionVars false

variable {A B : Tables} (ht : TabRen f h A B)
include hf hh ht

theorem TabRen.goes {q r : Nat} {X' : Sym} : B.goes q X' = some r ↔ ∃ X, X' = X.ren f h ∧ A.goes q X = some r := by
  cases X' with
  | nt n' =>
    simp only [Tables.goes, ht.goto]
    constructor
    · rintro ⟨n, rfl, h1⟩
      exact ⟨.nt n, rfl, h1⟩
    · rintro ⟨X, h1, h2⟩
      cases X with
      | nt n => cases h1; exact ⟨n, rfl, h2⟩
      | tm t => cases h1
  | tm a' =>
    rw [act_shift, ht.act]
    constructor
    · rintro ⟨a, rfl, h1⟩
      exact ⟨.tm a, rfl, act_shift.2 h1⟩
    · rintro ⟨X, h1, h2⟩
      cases X with
      | nt n => cases h1
      | tm a => cases h1; exact ⟨a, rfl, act_shift.1 h2⟩

theorem TabRen.goes_ren {q : Nat} {X : Sym} : B.goes q (X.ren f h) = A.goes q X := by
  cases hA : A.goes q X with
  | some r => exact (ht.goes hf hh).2 ⟨X, rfl, hA⟩
  | none =>
    cases hB : B.goes q (X.ren f h) with
    | none => rfl
    | some r =>
      obtain ⟨Y, h1, h2⟩ := (ht.goes hf hh).1 hB
      rw [← Sym.ren_inj hf hh h1, hA] at h2
      cases h2

theorem TabRen.act_ren {q : Nat} {a : Term} : B.act q (a.ren f) = A.act q a := by
  cases hA : A.act q a with
  | some r => exact (ht.act _ _ _).2 ⟨a, rfl, hA⟩
  | none =>
    cases hB : B.act q (a.ren f) with
    | none => rfl
    | some r =>
      obtain ⟨Y, h1, h2⟩ := (ht.act _ _ _).1 hB
      rw [← Term.ren_inj hf h1, hA] at h2
      cases h2

theorem TabRen.walk {γ' : List Sym} {q : Nat} : B.walk γ' = some q ↔ ∃ γ, γ' = γ.map (Sym.ren f h) ∧ A.walk γ = some q := by
  unfold Tables.walk
  rw [ht.start]
  generalize A.start = s
  induction γ' generalizing s with
  | nil =>
    constructor
    · intro h1; exact ⟨[], rfl, h1⟩
    · rintro ⟨γ, h1, h2⟩
      have : γ = [] := List.map_eq_nil_iff.1 h1.symm
      subst this
      exact h2
  | cons X' γ' ih =>
    simp only [Tables.walkFrom, Option.bind_eq_some_iff]
    constructor
    · rintro ⟨s', h1, h2⟩
      obtain ⟨X, rfl, h3⟩ := (ht.goes hf hh).1 h1
      obtain ⟨γ, rfl, h4⟩ := (ih s').1 h2
      exact ⟨X :: γ, rfl, by simp [Tables.walkFrom, h3, h4]⟩
    · rintro ⟨δ, h1, h2⟩
      obtain ⟨X, γ, rfl, rfl, rfl⟩ := List.map_eq_cons_iff.1 h1.symm
      simp only [Tables.walkFrom, Option.bind_eq_some_iff] at h2
      obtain ⟨s', h3, h4⟩ := h2
      exact ⟨s', (ht.goes hf hh).2 ⟨X, rfl, h3⟩, (ih s').2 ⟨γ, rfl, h4⟩⟩

omit ht in
theorem expects_ren {R : List PRule} {s : Nat} {γ : List Sym} {X' : Sym} :
    Expects (R.map (PRule.ren f h)) s (γ.map (Sym.ren f h)) X' ↔ ∃ X, X' = X.ren f h ∧ Expects R s γ X := by
  constructor
  · rintro ⟨i', r', v, h1, h2⟩
    obtain ⟨γ0, i, h3, rfl, v'⟩ := v.unren hf hh
    cases rens_inj hf hh h3
    simp only [List.getElem?_map, Option.map_eq_some_iff, Item.ren] at h1
    obtain ⟨r, h1, rfl⟩ := h1
    simp only [PRule.ren, List.getElem?_map, Option.map_eq_some_iff, Item.ren] at h2
    obtain ⟨X, h2, rfl⟩ := h2
    exact ⟨X, rfl, i, r, v', h1, h2⟩
  · rintro ⟨X, rfl, i, r, v, h1, h2⟩
    exact ⟨i.ren f, r.ren f h, v.ren, by simp [Item.ren, h1], by simp [PRule.ren, Item.ren, h2]⟩

omit ht in
theorem complete_ren {R : List PRule} {s : Nat} {γ : List Sym} {r : Nat} {a' : Term} :
    Complete (R.map (PRule.ren f h)) s (γ.map (Sym.ren f h)) r a' ↔ ∃ a, a' = a.ren f ∧ Complete R s γ r a := by
  constructor
  · rintro ⟨rule', h1, v⟩
    simp only [List.getElem?_map, Option.map_eq_some_iff] at h1
    obtain ⟨rule, h1, rfl⟩ := h1
    obtain ⟨γ0, i, h3, h4, v'⟩ := v.unren hf hh
    cases rens_inj hf hh h3
    obtain ⟨i1, i2, i3⟩ := i
    simp only [Item.ren, Item.mk.injEq, PRule.ren, List.length_map] at h4
    obtain ⟨rfl, rfl, rfl⟩ := h4
    exact ⟨i3, rfl, rule, h1, v'⟩
  · rintro ⟨a, rfl, rule, h1, v⟩
    exact ⟨rule.ren f h, by simp [h1], by simpa [PRule.ren, Item.ren] using v.ren (f := f) (h := h)⟩

omit ht in
theorem accepts_ren {R : List PRule} {s : Nat} {γ : List Sym} : Accepts (R.map (PRule.ren f h)) s (γ.map (Sym.ren f h)) ↔ Accepts R s γ := by
  constructor
  · rintro ⟨a', h1⟩
    obtain ⟨a, rfl, h2⟩ := (complete_ren hf hh).1 h1
    exact ⟨a, h2⟩
  · rintro ⟨a, h1⟩
    exact ⟨_, (complete_ren hf hh).2 ⟨a, rfl, h1⟩⟩

/-- Renamed canonical tables are canonical for the renamed grammar. -/
theorem Canonical.ren {R : List PRule} {s : Nat} (hc : Canonical R s A) : Canonical (R.map (PRule.ren f h)) s B where
  walk_iff γ' := by
    constructor
    · rintro ⟨q, hq⟩
      obtain ⟨γ, rfl, h1⟩ := (ht.walk hf hh).1 hq
      obtain ⟨i, hi⟩ := (hc.walk_iff γ).1 ⟨q, h1⟩
      exact ⟨_, hi.ren⟩
    · rintro ⟨i', hi⟩
      obtain ⟨γ, i, rfl, rfl, v⟩ := hi.unren hf hh
      obtain ⟨q, hq⟩ := (hc.walk_iff γ).2 ⟨i, v⟩
      exact ⟨q, (ht.walk hf hh).2 ⟨γ, rfl, hq⟩⟩
  same γ1 γ2 q1 q2 k1 k2 := by
    obtain ⟨γ, rfl, h1⟩ := (ht.walk hf hh).1 k1
    obtain ⟨γ', rfl, h2⟩ := (ht.walk hf hh).1 k2
    rw [hc.same γ γ' q1 q2 h1 h2]
    constructor
    · intro h3 i'
      constructor
      · intro v
        obtain ⟨γ0, i, h4, rfl, _⟩ := v.unren hf hh
        rw [valid_ren hf hh] at v ⊢
        exact (h3 i).1 v
      · intro v
        obtain ⟨γ0, i, h4, rfl, _⟩ := v.unren hf hh
        rw [valid_ren hf hh] at v ⊢
        exact (h3 i).2 v
    · intro h3 i
      rw [← valid_ren hf hh, h3, valid_ren hf hh]
  row γ' q k1 := by
    obtain ⟨γ, rfl, h1⟩ := (ht.walk hf hh).1 k1
    obtain ⟨row, h2⟩ := hc.row γ q h1
    exact ht.row q row h2
  goes γ' q X' k1 := by
    obtain ⟨γ, rfl, h1⟩ := (ht.walk hf hh).1 k1
    rw [expects_ren hf hh]
    constructor
    · rintro ⟨q', h2⟩
      obtain ⟨X, rfl, h3⟩ := (ht.goes hf hh).1 h2
      exact ⟨X, rfl, (hc.goes γ q X h1).1 ⟨q', h3⟩⟩
    · rintro ⟨X, rfl, h2⟩
      rw [ht.goes_ren hf hh]
      exact (hc.goes γ q X h1).2 h2
  accept γ' q a' k1 := by
    obtain ⟨γ, rfl, h1⟩ := (ht.walk hf hh).1 k1
    rw [accepts_ren hf hh, ht.act]
    constructor
    · rintro ⟨a, rfl, h2⟩
      obtain ⟨rfl, h3⟩ := (hc.accept γ q a h1).1 h2
      exact ⟨rfl, h3⟩
    · rintro ⟨rfl, h2⟩
      exact ⟨.eoi, rfl, (hc.accept γ q .eoi h1).2 ⟨rfl, h2⟩⟩
  reduce γ' q a' r k1 := by
    obtain ⟨γ, rfl, h1⟩ := (ht.walk hf hh).1 k1
    rw [accepts_ren hf hh]
    have key : ∀ a : Term, a' = a.ren f → (B.act q a' = some (.reduce r) ↔ r ≠ s ∧ Complete (R.map (PRule.ren f h)) s (γ.map (Sym.ren f h)) r a' ∧
        ¬ Expects (R.map (PRule.ren f h)) s (γ.map (Sym.ren f h)) (.tm a') ∧ ¬ (a' = .eoi ∧ Accepts R s γ) ∧
        ∀ r', r' ≠ s → Complete (R.map (PRule.ren f h)) s (γ.map (Sym.ren f h)) r' a' → r ≤ r') := by
      rintro a rfl
      have e1 : ∀ r, Complete (R.map (PRule.ren f h)) s (γ.map (Sym.ren f h)) r (a.ren f) ↔ Complete R s γ r a := by
        intro r
        rw [complete_ren hf hh]
        exact ⟨fun ⟨b, h2, h3⟩ => Term.ren_inj hf h2 ▸ h3, fun h2 => ⟨a, rfl, h2⟩⟩
      have e2 : Expects (R.map (PRule.ren f h)) s (γ.map (Sym.ren f h)) (.tm (a.ren f)) ↔ Expects R s γ (.tm a) := by
        rw [expects_ren hf hh]
        exact ⟨fun ⟨b, h2, h3⟩ => Sym.ren_inj hf hh (a := .tm a) h2 ▸ h3, fun h2 => ⟨.tm a, rfl, h2⟩⟩
      have e3 : a.ren f = .eoi ↔ a = .eoi := by cases a <;> simp [Term.ren]
      rw [ht.act_ren hf hh, hc.reduce γ q a r h1, e1, e2, e3]
      simp only [e1]
    constructor
    · intro h2
      obtain ⟨a, rfl, _⟩ := (ht.act _ _ _).1 h2
      exact (key a rfl).1 h2
    · intro h2
      obtain ⟨a, rfl, _⟩ := (complete_ren hf hh).1 h2.2.1
      exact (key a rfl).2 h2
  errors γ' q r k1 := by
    obtain ⟨γ, rfl, h1⟩ := (ht.walk hf hh).1 k1
    rw [ht.errors, hc.errors γ q r h1]
    constructor
    · rintro ⟨i, rule, v, h2, h3, h4⟩
      exact ⟨i.ren f, rule.ren f h, v.ren, h2, by simp [h3], by simp [PRule.ren, Item.ren, h4]; rfl⟩
    · rintro ⟨i', rule', v, h2, h3, h4⟩
      obtain ⟨γ0, i, h5, rfl, v'⟩ := v.unren hf hh
      cases rens_inj hf hh h5
      simp only [List.getElem?_map, Option.map_eq_some_iff] at h3
      obtain ⟨rule, h3, rfl⟩ := h3
      simp only [PRule.ren, List.getElem?_map, Option.map_eq_some_iff, Item.ren] at h4
      obtain ⟨X, h4, h6⟩ := h4
      refine ⟨i, rule, v', h2, h3, ?_⟩
      rw [h4]
      cases X with
      | nt n => cases h6
      | tm t => cases t <;> cases h6; rfl
  errors_ne := ht.errors_ne

end

/-! ## Another number for the appended start symbol -/

theorem Gen.refresh {g : Gram} {f1 f2 : Nat} (hf1 : ¬ g.Used f1) {u v : List Sym} (h : Gen (g.aug f1) u v) (hu : Sym.nt f1 ∉ u) :
    Gen (g.aug f2) u v := by
  induction h with
  | nil => exact .nil
  | keep X l w _ ih => exact .keep _ _ _ (ih (fun hm => hu (List.mem_cons_of_mem _ hm)))
  | expand r l u v hr _ _ ih1 ih2 =>
    have hr' : r ∈ g.rules := by
      rcases List.mem_append.1 hr with hr | hr
      · exact hr
      · simp at hr
        subst hr
        exact absurd List.mem_cons_self hu
    refine .expand r _ _ _ (List.mem_append.2 (Or.inl hr')) (ih1 ?_) (ih2 (fun hm => hu (List.mem_cons_of_mem _ hm)))
    exact fun hm => hf1 ⟨r, hr', Or.inr hm⟩

theorem Valid.refresh {g : Gram} {f1 f2 : Nat} (hf1 : ¬ g.Used f1) (hs : g.start ≠ f1) {γ : List Sym} {i : Item}
    (h : Valid (g.aug f1) g.rules.length γ i) : Valid (g.aug f2) g.rules.length γ i := by
  have hrule : ∀ {k : Nat} {r}, (g.aug f1)[k]? = some r → ∃ r', (g.aug f2)[k]? = some r' ∧ r'.rhs = r.rhs ∧ Sym.nt f1 ∉ r.rhs ∧ (r.lhs ≠ f1 → r'.lhs = r.lhs) := by
    intro k r hr
    rcases Nat.lt_or_ge k g.rules.length with hk | hk
    · rw [Gram.aug, List.getElem?_append_left hk] at hr
      refine ⟨r, by rw [Gram.aug, List.getElem?_append_left hk]; exact hr, rfl, fun hm => hf1 ⟨r, List.mem_of_getElem? hr, Or.inr hm⟩, fun _ => rfl⟩
    · have hk' := (List.getElem?_eq_some_iff.1 hr).1
      simp [Gram.aug] at hk'
      have : k = g.rules.length := by omega
      subst this
      simp [Gram.aug] at hr
      subst hr
      exact ⟨⟨f2, [.nt g.start]⟩, by simp [Gram.aug], rfl, by simpa using fun e => hs e.symm, fun e => absurd rfl e⟩
  induction h with
  | start => exact .start
  | advance γ i r X _ h1 h2 ih =>
    obtain ⟨r', k1, k2, _⟩ := hrule h1
    exact .advance γ i r' X ih k1 (k2 ▸ h2)
  | expand γ i r B j r2 b ρ _ h1 h2 h3 h4 h5 ih =>
    obtain ⟨r', k1, k2, k3, _⟩ := hrule h1
    obtain ⟨r2', l1, l2, _, l3⟩ := hrule h3
    have hB : B ≠ f1 := by
      rintro rfl
      exact k3 (List.mem_of_getElem? h2)
    refine .expand γ i r' B j r2' b ρ ih k1 (k2 ▸ h2) l1 ((l3 (h4 ▸ hB)).trans h4) ?_
    rw [k2]
    refine gen_iff.1 (Gen.refresh hf1 (gen_iff.2 h5) ?_)
    intro hm
    rcases List.mem_append.1 hm with hm | hm
    · exact k3 (List.mem_of_mem_drop hm)
    · simp at hm

theorem aug_rhs {g : Gram} {f1 f2 k : Nat} : ((g.aug f1)[k]?).map PRule.rhs = ((g.aug f2)[k]?).map PRule.rhs := by
  rcases Nat.lt_or_ge k g.rules.length with hk | hk
  · rw [Gram.aug, Gram.aug, List.getElem?_append_left hk, List.getElem?_append_left hk]
  · rw [Gram.aug, Gram.aug, List.getElem?_append_right hk, List.getElem?_append_right hk]
    cases k - g.rules.length <;> simp

/-- Being canonical depends on valid items and right-hand sides only. -/
theorem Canonical.congr {R R' : List PRule} {s : Nat} {T : Tables} (hc : Canonical R s T) (hv : ∀ γ i, Valid R s γ i ↔ Valid R' s γ i)
    (hr : ∀ k : Nat, (R[k]?).map PRule.rhs = (R'[k]?).map PRule.rhs) : Canonical R' s T := by
  have h1 : ∀ {k : Nat} {P : List Sym → Prop}, (∃ rule, R[k]? = some rule ∧ P rule.rhs) ↔ ∃ rule, R'[k]? = some rule ∧ P rule.rhs := by
    intro k P
    have := hr k
    constructor
    · rintro ⟨r, h1, h2⟩
      rw [h1] at this
      obtain ⟨r', h3, h4⟩ := Option.map_eq_some_iff.1 this.symm
      exact ⟨r', h3, h4 ▸ h2⟩
    · rintro ⟨r, h1, h2⟩
      rw [h1] at this
      obtain ⟨r', h3, h4⟩ := Option.map_eq_some_iff.1 this
      exact ⟨r', h3, h4 ▸ h2⟩
  have hcomp : ∀ γ r a, Complete R s γ r a ↔ Complete R' s γ r a := by
    intro γ r a
    unfold Complete
    simp only [hv]
    exact h1 (P := fun rhs => Valid R' s γ ⟨r, rhs.length, a⟩)
  have hexp : ∀ γ X, Expects R s γ X ↔ Expects R' s γ X := by
    intro γ X
    unfold Expects
    refine exists_congr fun i => ?_
    constructor
    · rintro ⟨r, k1, k2, k3⟩
      obtain ⟨r', k4, k5⟩ := (h1 (P := fun rhs => rhs[i.pos]? = some X)).1 ⟨r, k2, k3⟩
      exact ⟨r', (hv _ _).1 k1, k4, k5⟩
    · rintro ⟨r, k1, k2, k3⟩
      obtain ⟨r', k4, k5⟩ := (h1 (P := fun rhs => rhs[i.pos]? = some X)).2 ⟨r, k2, k3⟩
      exact ⟨r', (hv _ _).2 k1, k4, k5⟩
  have hacc : ∀ γ, Accepts R s γ ↔ Accepts R' s γ := fun γ => exists_congr fun a => hcomp γ s a
  exact {
    walk_iff := fun γ => by rw [hc.walk_iff]; exact exists_congr fun i => hv γ i
    same := fun γ γ' q q' k1 k2 => by rw [hc.same γ γ' q q' k1 k2]; simp only [hv]
    row := hc.row
    goes := fun γ q X k => by rw [hc.goes γ q X k, hexp]
    accept := fun γ q a k => by rw [hc.accept γ q a k, hacc]
    reduce := fun γ q a r k => by rw [hc.reduce γ q a r k, hacc, hexp]; simp only [hcomp]
    errors := fun γ q r k => by
      rw [hc.errors γ q r k]
      refine exists_congr fun i => ?_
      constructor
      · rintro ⟨rule, k1, k2, k3, k4⟩
        obtain ⟨r', k5, k6⟩ := (h1 (P := fun rhs => rhs[i.pos]? = some (.tm .err))).1 ⟨rule, k3, k4⟩
        exact ⟨r', (hv _ _).1 k1, k2, k5, k6⟩
      · rintro ⟨rule, k1, k2, k3, k4⟩
        obtain ⟨r', k5, k6⟩ := (h1 (P := fun rhs => rhs[i.pos]? = some (.tm .err))).2 ⟨rule, k3, k4⟩
        exact ⟨r', (hv _ _).2 k1, k2, k5, k6⟩
    errors_ne := hc.errors_ne }

theorem Canonical.refresh {g : Gram} {f1 f2 : Nat} (hf1 : ¬ g.Used f1) (hf2 : ¬ g.Used f2) (hs1 : g.start ≠ f1) (hs2 : g.start ≠ f2) {T : Tables}
    (hc : Canonical (g.aug f1) g.rules.length T) : Canonical (g.aug f2) g.rules.length T :=
  hc.congr (fun _ _ => ⟨Valid.refresh hf1 hs1, Valid.refresh hf2 hs2⟩) (fun _ => aug_rhs)

end Verif.Par
