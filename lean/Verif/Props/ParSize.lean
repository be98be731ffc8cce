import Verif.Par.SizeProof
import Verif.Props.ParTables

/-!
# Size of the parser tables (C75)
-/

namespace Verif.Par

/-- C75: the states are as many as there are different sets of valid items. -/
theorem c75_exact (o : Seeds) (ho : o.Fair) (g : Gram) (hok : g.Ok) (tab : Tables) (ws : List Warning) (h : NewGives o g (.ok (tab, ws))) :
    ∃ fresh, ¬ g.Used fresh ∧ ∃ L : List (List Sym), tab.HasStates L.length ∧
      (∀ γ ∈ L, ∃ i, Valid (g.aug fresh) g.rules.length γ i) ∧
      (L.Pairwise fun γ γ' => ¬ SameItems (g.aug fresh) g.rules.length γ γ') ∧
      ∀ γ, (∃ i, Valid (g.aug fresh) g.rules.length γ i) → ∃ γ' ∈ L, SameItems (g.aug fresh) g.rules.length γ γ' := by
  obtain ⟨fuel, h1, _⟩ := h
  obtain ⟨k, hk⟩ := (new_syms ho hok h1).numbers
  obtain ⟨L, rfl, h2⟩ := ((new_spec ho hok fuel).1 tab ws h1).1.prefixes (new_syms ho hok h1) hk
  exact ⟨_, freshSym_unused g, L, hk, h2⟩

/-- C75: the number of states is smaller than 2 to the number of items: places for the dot (two of them in the rule added
for the start symbol) times possible look-aheads (the terminals and the end of input). -/
theorem c75_upper (o : Seeds) (ho : o.Fair) (g : Gram) (hok : g.Ok) (tab : Tables) (ws : List Warning) (h : NewGives o g (.ok (tab, ws)))
    (ts : List Term) (hts : ∀ r ∈ g.rules, ∀ t, Sym.tm t ∈ r.rhs → t ∈ ts) (k : Nat) (hk : tab.HasStates k) :
    k < 2 ^ ((dots g.rules + 2) * (ts.length + 1)) := by
  obtain ⟨fuel, h1, _⟩ := h
  have := ((new_spec ho hok fuel).1 tab ws h1).1.upper (new_syms ho hok h1) hk (rules'_start g) (ts := ts) (by
    intro r hr t ht
    rcases List.mem_append.1 hr with hr | hr
    · exact hts r hr t ht
    · simp only [List.mem_singleton] at hr
      subst hr
      simp at ht)
  simpa [Gram.rules', Gram.aug, dots] using this

/-- C75: the tables have entries only for the terminals (and the end of input) and the non-terminals of the rules, and the
numbers in them are states. -/
theorem c75_entries (o : Seeds) (ho : o.Fair) (g : Gram) (hok : g.Ok) (tab : Tables) (ws : List Warning) (h : NewGives o g (.ok (tab, ws)))
    (k : Nat) (hk : tab.HasStates k) :
    (∀ q a act, tab.act q a = some act → q < k ∧ (a = .eoi ∨ ∃ r ∈ g.rules, Sym.tm a ∈ r.rhs) ∧ ∀ q', act = .shift q' → q' < k) ∧
    (∀ q m q', tab.goes q (.nt m) = some q' → q < k ∧ q' < k ∧ (m = g.start ∨ ∃ r ∈ g.rules, Sym.nt m ∈ r.rhs)) := by
  obtain ⟨fuel, h1, _⟩ := h
  have hs := new_syms ho hok h1
  have hc := ((new_spec ho hok fuel).1 tab ws h1).1
  have hgo : ∀ γ q X q', tab.walk γ = some q → tab.goes q X = some q' → q' < k := by
    intro γ q X q' hq hq'
    exact hc.lt hk (γ := γ ++ [X]) (by rw [walk_snoc, hq]; exact hq')
  constructor
  · intro q a act ha
    have hrow : ∃ row, get q tab.action = some row := by
      unfold Tables.act at ha
      cases hg : get q tab.action with
      | none => rw [hg] at ha; cases ha
      | some row => exact ⟨row, rfl⟩
    refine ⟨(hk q).1 hrow, ?_, ?_⟩
    · rcases hs.action q a act ha with h | ⟨r, hr, hm⟩
      · exact .inl h
      · rcases List.mem_append.1 hr with hr | hr
        · exact .inr ⟨r, hr, hm⟩
        · simp only [List.mem_singleton] at hr
          subst hr
          simp at hm
    · rintro q' rfl
      obtain ⟨row, hrow⟩ := hrow
      obtain ⟨γ, hγ⟩ := hs.rows q row hrow
      exact hgo γ q (.tm a) q' hγ (by simp [Tables.goes, ha])
  · intro q m q' hg
    have hrow : ∃ row, get q tab.goto = some row := by
      simp only [Tables.goes] at hg
      cases hg' : get q tab.goto with
      | none => rw [hg'] at hg; cases hg
      | some row => exact ⟨row, rfl⟩
    obtain ⟨row, hrow⟩ := hrow
    obtain ⟨γ, hγ⟩ := hs.gotoRows q row hrow
    refine ⟨hc.lt hk hγ, hgo γ q (.nt m) q' hγ hg, ?_⟩
    obtain ⟨r, hr, hm⟩ := hs.goto q m q' hg
    rcases List.mem_append.1 hr with hr | hr
    · exact .inr ⟨r, hr, hm⟩
    · simp only [List.mem_singleton] at hr
      subst hr
      simp only [List.mem_singleton, Sym.nt.injEq] at hm
      exact .inl hm

/-- C75: the grammar `S → a S | b S | a Q₀; Qᵢ → a Qᵢ₊₁ | b Qᵢ₊₁; Qₙ → ε` with `2 n + 4` short rules gives no warnings, but
has at least `2 ^ (n + 1)` states. -/
theorem c75_blowup (o : Seeds) (ho : o.Fair) (n : Nat) :
    (farGram n).rules.length = 2 * n + 4 ∧ ∃ tab k, NewGives o (farGram n) (.ok (tab, [])) ∧ tab.HasStates k ∧ 2 ^ (n + 1) ≤ k := by
  refine ⟨far_length, ?_⟩
  obtain ⟨tab, ws, fuel, h1, h2⟩ := c20_new_no_panic o ho (farGram n) far_ok far_closed
  obtain ⟨hc, hw, _⟩ := (new_spec ho far_ok fuel).1 tab ws h1
  obtain ⟨k, hk⟩ := (new_syms ho far_ok h1).numbers
  obtain rfl := (warn_iff (rules'_start _) hw).2 (far_no_clash (freshSym_unused _))
  exact ⟨tab, k, ⟨fuel, h1, h2⟩, hk, far_states (freshSym_unused _) hc hk⟩

/-! ## Examples -/

/-- `S → a S | b S | a Q₀; Q₀ → a Q₁ | b Q₁; Q₁ → ε`: 11 states, 4 of them after the letters. -/
example : (match newTables 200 idSeeds (farGram 1) with
    | .ok (tab, ws) => some (tab.action.length, ws.length)
    | _ => none) = some (11, 0) := by decide +kernel

/-- The same grammar has 16 places for the dot and two terminals, so `c75_upper` allows fewer than `2 ^ (18 * 3)` states. -/
example : dots (farGram 1).rules = 16 ∧ (∀ r ∈ (farGram 1).rules, ∀ t, Sym.tm t ∈ r.rhs → t ∈ [Term.sym 0, .sym 1]) := by
  refine ⟨by decide, ?_⟩
  intro r hr t ht
  cases mem_far.1 hr with
  | loop x hx => rcases hx with rfl | rfl <;> simp at ht <;> simp [ht]
  | enter => simp at ht; simp [ht]
  | next x i hx hi => rcases hx with rfl | rfl <;> simp at ht <;> simp [ht]
  | last => simp at ht

end Verif.Par
