import Verif.Par.Automata
import Verif.Tok.RewriteProof

/-!
# Finite automata as patterns

Specification: a regex for every finite automaton, made by leaving out one state after the other (Kleene).
-/

namespace Verif.Machine

open Verif.Tok

/-- The language of a regex that may be missing. -/
def LangO : Option Hir → List Nat → Prop
  | none, _ => False
  | some h, w => Lang h w

/-- Either of two regexes. -/
def orO : Option Hir → Option Hir → Option Hir
  | none, y => y
  | x, none => x
  | some x, some y => some (.alt [x, y])

/-- `x y* z`. -/
def throughO : Option Hir → Option Hir → Option Hir → Option Hir
  | some x, some y, some z => some (.concat [x, .rep .zeroOrMore y, z])
  | some x, none, some z => some (.concat [x, z])
  | _, _, _ => none

/-- One of some regexes. -/
def anyO : List (Option Hir) → Option Hir
  | [] => none
  | x :: l => orO x (anyO l)

namespace Machine

/-- A regex for the ways from a state to another one with at least one edge that meet only the listed states in between. -/
def between (M : Machine) : List Nat → Nat → Nat → Option Hir
  | [], i, j => anyO (M.edges.map fun e => if e.src = i ∧ e.dst = j then some (.literalU e.tok) else none)
  | q :: L, i, j => orO (M.between L i j) (throughO (M.between L i q) (M.between L q q) (M.between L q j))

/-- A regex for what the automaton reads. -/
def regex (M : Machine) : Option Hir :=
  orO (if M.start ∈ M.finals then some .empty else none)
    (anyO (M.finals.map fun q => M.between (M.edges.map Edge.dst) M.start q))

/-- A way with at least one edge that meets only the listed states in between. -/
inductive Via (M : Machine) (L : List Nat) : Nat → List Nat → Nat → Prop
  | one (e) : e ∈ M.edges → Via M L e.src [e.tok] e.dst
  | cons (e w j) : e ∈ M.edges → e.dst ∈ L → Via M L e.dst w j → Via M L e.src (e.tok :: w) j

end Machine

/-! ## Lemmas -/

theorem orO_lang (x y : Option Hir) (w : List Nat) : LangO (orO x y) w ↔ LangO x w ∨ LangO y w := by
  cases x <;> cases y <;> simp [orO, LangO, Lang, LangAny]

theorem anyO_lang (l : List (Option Hir)) (w : List Nat) : LangO (anyO l) w ↔ ∃ x ∈ l, LangO x w := by
  induction l with
  | nil => simp [anyO, LangO]
  | cons x l ih => simp [anyO, orO_lang, ih]

theorem pow_none {L : List Nat → Prop} (h : ∀ w, ¬ L w) {n : Nat} {w : List Nat} (hp : Pow L n w) : w = [] := by
  cases n with
  | zero => exact hp
  | succ n =>
    obtain ⟨u, _, _, h1, _⟩ := hp
    exact absurd h1 (h u)

theorem throughO_lang (x y z : Option Hir) (w : List Nat) :
    LangO (throughO x y z) w ↔ ∃ u v r n, w = u ++ (v ++ r) ∧ LangO x u ∧ Pow (LangO y) n v ∧ LangO z r := by
  constructor
  · intro h
    cases x with
    | none => exact h.elim
    | some x =>
      cases z with
      | none => cases y <;> exact h.elim
      | some z =>
        cases y with
        | none =>
          simp only [throughO, LangO, Lang, LangSeq] at h
          obtain ⟨u, v, rfl, h1, r, _, rfl, h2, rfl⟩ := h
          exact ⟨u, [], r, 0, by simp, h1, rfl, h2⟩
        | some y =>
          simp only [throughO, LangO, Lang, LangSeq] at h
          obtain ⟨u, _, rfl, h1, v, _, rfl, ⟨n, _, h2⟩, r, _, rfl, h3, rfl⟩ := h
          exact ⟨u, v, r, n, by simp, h1, h2, h3⟩
  · rintro ⟨u, v, r, n, rfl, h1, h2, h3⟩
    cases x with
    | none => exact h1.elim
    | some x =>
      cases z with
      | none => exact h3.elim
      | some z =>
        cases y with
        | none =>
          obtain rfl := pow_none (L := LangO none) (fun _ h => h) h2
          simp only [throughO, LangO, Lang, LangSeq]
          exact ⟨u, r, by simp, h1, r, [], by simp, h3, rfl⟩
        | some y =>
          simp only [throughO, LangO, Lang, LangSeq]
          exact ⟨u, v ++ r, rfl, h1, v, r, rfl, ⟨n, trivial, h2⟩, r, [], by simp, h3, rfl⟩

namespace Machine

variable {M : Machine} {L L' : List Nat} {i j q : Nat} {u v w : List Nat}

theorem Via.mono (h : M.Via L i w j) (hl : ∀ x ∈ L, x ∈ L') : M.Via L' i w j := by
  induction h with
  | one e he => exact .one e he
  | cons e w j he hd _ ih => exact .cons e w j he (hl _ hd) ih

theorem Via.join (h : M.Via L i u q) (hq : q ∈ L) (h' : M.Via L q v j) : M.Via L i (u ++ v) j := by
  induction h with
  | one e he => exact .cons e v j he hq h'
  | cons e w _ he hd _ ih => exact .cons e _ _ he hd (ih hq h')

theorem via_step : M.Via (q :: L) i w j ↔
    M.Via L i w j ∨ ∃ u v r n, w = u ++ (v ++ r) ∧ M.Via L i u q ∧ Pow (fun x => M.Via L q x q) n v ∧ M.Via L q r j := by
  constructor
  · intro h
    induction h with
    | one e he => exact .inl (.one e he)
    | cons e w j he hd _ ih =>
      rcases List.mem_cons.1 hd with hd | hd
      · rcases ih with ih | ⟨u, v, r, n, rfl, h1, h2, h3⟩
        · exact .inr ⟨[e.tok], [], w, 0, by simp, hd ▸ .one e he, rfl, hd ▸ ih⟩
        · exact .inr ⟨[e.tok], u ++ v, r, n + 1, by simp, hd ▸ .one e he, ⟨u, v, rfl, hd ▸ h1, h2⟩, h3⟩
      · rcases ih with ih | ⟨u, v, r, n, rfl, h1, h2, h3⟩
        · exact .inl (.cons e w j he hd ih)
        · exact .inr ⟨e.tok :: u, v, r, n, by simp, .cons e u q he hd h1, h2, h3⟩
  · have hm : ∀ {i w j}, M.Via L i w j → M.Via (q :: L) i w j := fun h => h.mono fun x hx => List.mem_cons_of_mem _ hx
    rintro (h | ⟨u, v, r, n, rfl, h1, h2, h3⟩)
    · exact hm h
    · refine (hm h1).join (by simp) ?_
      clear h1
      induction n generalizing v with
      | zero => rw [show v = [] from h2]; exact hm h3
      | succ n ih =>
        obtain ⟨x, y, rfl, h4, h5⟩ := h2
        rw [List.append_assoc]
        exact (hm h4).join (by simp) (ih _ h5)

theorem between_lang (L : List Nat) : ∀ i j w, LangO (M.between L i j) w ↔ M.Via L i w j := by
  induction L with
  | nil =>
    intro i j w
    rw [between, anyO_lang]
    constructor
    · rintro ⟨x, hx, hw⟩
      obtain ⟨e, he, rfl⟩ := List.mem_map.1 hx
      split at hw
      · rename_i h
        obtain ⟨rfl, rfl⟩ := h
        rw [show w = [e.tok] from hw]
        exact .one e he
      · exact hw.elim
    · intro h
      cases h with
      | one e he => exact ⟨_, List.mem_map_of_mem he, by simp [LangO, Lang]⟩
      | cons e w j he hd _ => cases hd
  | cons q L ih =>
    intro i j w
    rw [between, orO_lang, throughO_lang, via_step, ih]
    have e : LangO (M.between L q q) = fun x => M.Via L q x q := by
      funext x
      exact propext (ih q q x)
    simp only [ih, e]

theorem runs_empty (h : M.Runs i w j) (hw : w = []) : i = j := by
  cases h with
  | nil => rfl
  | cons => cases hw

theorem via_runs : M.Via (M.edges.map Edge.dst) i w j ↔ w ≠ [] ∧ M.Runs i w j := by
  constructor
  · intro h
    refine ⟨by cases h <;> simp, ?_⟩
    induction h with
    | one e he => exact .cons e _ _ he (.nil _)
    | cons e w j he _ _ ih => exact .cons e _ _ he ih
  · rintro ⟨hw, h⟩
    induction h with
    | nil => exact absurd rfl hw
    | cons e w q he h ih =>
      cases w with
      | nil => rw [← runs_empty h rfl]; exact .one e he
      | cons a w => exact .cons e _ _ he (List.mem_map_of_mem he) (ih (by simp))

theorem regex_lang (M : Machine) (w : List Nat) : LangO M.regex w ↔ M.Reads w := by
  rw [regex, orO_lang, anyO_lang]
  constructor
  · rintro (h | ⟨x, hx, h⟩)
    · split at h
      · rw [show w = [] from h]
        exact ⟨_, .nil _, by assumption⟩
      · exact h.elim
    · obtain ⟨q, hq, rfl⟩ := List.mem_map.1 hx
      rw [between_lang, via_runs] at h
      exact ⟨q, h.2, hq⟩
  · rintro ⟨q, h, hq⟩
    by_cases hw : w = []
    · subst hw
      left
      rw [if_pos (runs_empty h rfl ▸ hq)]
      rfl
    · exact .inr ⟨_, List.mem_map_of_mem hq, by rw [between_lang, via_runs]; exact ⟨hw, h⟩⟩

end Machine

/-! ### The regexes are supported -/

/-- A regex that the parser of regexes can give and that contains nothing unsupported. -/
def Good (x : Option Hir) : Prop := ∀ h, x = some h → h.ok = true ∧ ∀ e, ¬ Has e h

theorem good_none : Good none := fun _ h => by cases h

theorem good_or {x y : Option Hir} (hx : Good x) (hy : Good y) : Good (orO x y) := by
  cases x with
  | none => exact hy
  | some x =>
    cases y with
    | none => exact hx
    | some y =>
      intro h e
      cases e
      obtain ⟨a1, a2⟩ := hx x rfl
      obtain ⟨b1, b2⟩ := hy y rfl
      refine ⟨by simp [Hir.ok, Hir.okList, a1, b1], fun e he => ?_⟩
      cases he with
      | alt _ h hm he =>
        simp at hm
        rcases hm with rfl | rfl
        · exact a2 e he
        · exact b2 e he

theorem good_through {x y z : Option Hir} (hx : Good x) (hy : Good y) (hz : Good z) : Good (throughO x y z) := by
  cases x with
  | none => exact good_none
  | some x =>
    obtain ⟨a1, a2⟩ := hx x rfl
    cases z with
    | none => cases y <;> exact good_none
    | some z =>
      obtain ⟨c1, c2⟩ := hz z rfl
      cases y with
      | none =>
        intro h e
        cases e
        refine ⟨by simp [Hir.ok, Hir.okList, a1, c1], fun e he => ?_⟩
        cases he with
        | concat _ h hm he =>
          simp at hm
          rcases hm with rfl | rfl
          · exact a2 e he
          · exact c2 e he
      | some y =>
        obtain ⟨b1, b2⟩ := hy y rfl
        intro h e
        cases e
        refine ⟨by simp [Hir.ok, Hir.okList, a1, b1, c1], fun e he => ?_⟩
        cases he with
        | concat _ h hm he =>
          simp at hm
          rcases hm with rfl | rfl | rfl
          · exact a2 e he
          · cases he with
            | rep _ _ he => exact b2 e he
          · exact c2 e he

theorem good_any {l : List (Option Hir)} (h : ∀ x ∈ l, Good x) : Good (anyO l) := by
  induction l with
  | nil => exact good_none
  | cons x l ih => exact good_or (h x (by simp)) (ih fun y hy => h y (by simp [hy]))

theorem Machine.between_good (M : Machine) (L : List Nat) : ∀ i j, Good (M.between L i j) := by
  induction L with
  | nil =>
    intro i j
    refine good_any fun x hx => ?_
    obtain ⟨e, _, rfl⟩ := List.mem_map.1 hx
    split
    · intro h e
      cases e
      exact ⟨rfl, fun e he => by cases he⟩
    · exact good_none
  | cons q L ih =>
    intro i j
    exact good_or (ih i j) (good_through (ih i q) (ih q q) (ih q j))

theorem Machine.regex_good (M : Machine) : Good M.regex := by
  refine good_or ?_ (good_any fun x hx => ?_)
  · split
    · intro h e
      cases e
      exact ⟨rfl, fun e he => by cases he⟩
    · exact good_none
  · obtain ⟨q, _, rfl⟩ := List.mem_map.1 hx
    exact M.between_good _ _ _

end Verif.Machine
