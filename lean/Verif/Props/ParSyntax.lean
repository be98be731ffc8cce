import Verif.Par.Syntax
import Verif.Props.ParSeeds

/-!
# Properties of `Rule` and `Syntax`: C37, C40
-/

namespace Verif.Par

variable {N T E : Type}

/-! ## C37 -/

/-- What a symbol stands for in a rule. -/
def USym.means (idxN : N → Nat) (idxT : T → Nat) : USym N T → Sym
  | .nt n => .nt (idxN n)
  | .tok t => .tm (.sym (idxT t))
  | .error => .tm .err

theorem add_fold (idxN : N → Nat) (idxT : T → Nat) (l : List (USym N T)) (b : RuleBuilder) :
    l.foldl (RuleBuilder.add idxN idxT) b = ⟨b.lhs, b.syms ++ l.map (USym.means idxN idxT)⟩ := by
  induction l generalizing b with
  | nil => simp
  | cons x l ih =>
    rw [List.foldl_cons, ih]
    cases x <;> simp [RuleBuilder.add, RuleBuilder.nonTerminal, RuleBuilder.terminal, RuleBuilder.error, USym.means]

/-- C37: `Rule::new`, `Rule::builder` with one call per symbol, and `Rule::new_raw` on the enum indices give the same rule:
its symbols are the enum indices of the given ones, in the given order, and its callback is the given one. -/
theorem c37_rules_agree (idxN : N → Nat) (idxT : T → Nat) (start : N) (l : List (USym N T)) (gen : List (Arg N T) → Except E N) :
    ruleNew idxN idxT start l gen = ⟨idxN start, l.map (USym.means idxN idxT), gen⟩ ∧
    (l.foldl (RuleBuilder.add idxN idxT) (ruleBuilder idxN start)).build gen = ruleNew idxN idxT start l gen ∧
    ∀ raw : List (USym Nat Nat), raw.map (USym.means id id) = l.map (USym.means idxN idxT) →
      ruleNewRaw (idxN start) raw gen = ruleNew idxN idxT start l gen := by
  have h1 : ruleNew idxN idxT start l gen = ⟨idxN start, l.map (USym.means idxN idxT), gen⟩ := by
    simp only [ruleNew, Rule.mk.injEq, true_and, and_true]
    apply List.map_congr_left
    intro x _
    cases x <;> rfl
  refine ⟨h1, ?_, ?_⟩
  · rw [h1, add_fold]
    simp [RuleBuilder.build, ruleBuilder]
  · intro raw h
    rw [h1, ← h]
    simp only [ruleNewRaw, Rule.mk.injEq, true_and, and_true]
    apply List.map_congr_left
    intro x _
    cases x <;> rfl

/-- C37: no way of writing a rule puts the end of input into it, so the condition `Gram.Ok` of the other properties holds
for every syntax that can be built. -/
theorem c37_rules_ok (idxN : N → Nat) (idxT : T → Nat) (l : List (N × List (USym N T) × (List (Arg N T) → Except E N))) (start : N) :
    let s := syntaxBuild idxN (l.foldl (fun b x => syntaxRule b (ruleNew idxN idxT x.1 x.2.1 x.2.2)) []) start
    s.1.length = l.length ∧ (∀ i : Nat, s.1[i]? = (l[i]?).map fun x => ruleNew idxN idxT x.1 x.2.1 x.2.2) ∧ s.2 = idxN start ∧
      (gram s.1 s.2).Ok := by
  have h : ∀ b : List (Rule N T E), l.foldl (fun b x => syntaxRule b (ruleNew idxN idxT x.1 x.2.1 x.2.2)) b =
      b ++ l.map fun x => ruleNew idxN idxT x.1 x.2.1 x.2.2 := by
    induction l with
    | nil => simp
    | cons x l ih => intro b; rw [List.foldl_cons, ih]; simp [syntaxRule]
  rw [h []]
  simp only [syntaxBuild, List.nil_append]
  refine ⟨by simp, by simp, trivial, ?_⟩
  intro r hr hm
  simp only [gram, List.map_map, List.mem_map] at hr
  obtain ⟨x, _, rfl⟩ := hr
  simp only [Function.comp, Rule.plain, ruleNew, List.mem_map] at hm
  obtain ⟨y, _, h⟩ := hm
  cases y <;> cases h

example : ruleNew (E := Nat) (fun n : Nat => n + 5) (fun t : Nat => 2 * t) 1 [.nt 0, .tok 3, .error] (fun _ => .ok 0) =
    ((((ruleBuilder (fun n : Nat => n + 5) 1).nonTerminal (fun n : Nat => n + 5) 0).terminal (fun t : Nat => 2 * t) 3).error).build (fun _ => .ok 0) := rfl

/-! ## C40 -/

/-- The laws of `Ord` together with `Eq`. -/
structure LawfulCmp {α : Type} (f : α → α → Ordering) : Prop where
  eq : ∀ a b, f a b = .eq ↔ a = b
  swap : ∀ a b, f b a = (f a b).swap
  trans : ∀ a b c, f a b = .lt → f b c = .lt → f a c = .lt

theorem lawful_nat : LawfulCmp (compare : Nat → Nat → Ordering) where
  eq a b := Nat.compare_eq_eq
  swap a b := (Nat.compare_swap a b).symm
  trans a b c h1 h2 := by
    rw [Nat.compare_eq_lt] at *
    omega

theorem lawful_term : LawfulCmp Term.cmp where
  eq a b := by cases a <;> cases b <;> simp [Term.cmp, lawful_nat.eq]
  swap a b := by
    cases a <;> cases b <;> first | rfl | exact lawful_nat.swap _ _
  trans a b c := by
    cases a <;> cases b <;> cases c <;> simp [Term.cmp]
    exact lawful_nat.trans _ _ _

theorem lawful_sym : LawfulCmp Sym.cmp where
  eq a b := by cases a <;> cases b <;> simp [Sym.cmp, lawful_nat.eq, lawful_term.eq]
  swap a b := by
    cases a <;> cases b <;> simp only [Sym.cmp, Ordering.swap]
    · exact lawful_nat.swap _ _
    · exact lawful_term.swap _ _
  trans a b c := by
    cases a <;> cases b <;> cases c <;> simp [Sym.cmp]
    · exact lawful_nat.trans _ _ _
    · exact lawful_term.trans _ _ _

theorem lawful_list {α : Type} {f : α → α → Ordering} (h : LawfulCmp f) : LawfulCmp (cmpList f) where
  eq a b := by
    induction a generalizing b with
    | nil => cases b <;> simp [cmpList]
    | cons x a ih =>
      cases b with
      | nil => simp [cmpList]
      | cons y b =>
        simp only [cmpList, List.cons.injEq, ← h.eq, ← ih]
        cases f x y <;> simp
  swap a b := by
    induction a generalizing b with
    | nil => cases b <;> simp [cmpList]
    | cons x a ih =>
      cases b with
      | nil => simp [cmpList]
      | cons y b =>
        simp only [cmpList, h.swap x y]
        cases f x y <;> simp [Ordering.swap]
        exact ih b
  trans a b c := by
    induction a generalizing b c with
    | nil => cases b <;> cases c <;> simp [cmpList]
    | cons x a ih =>
      cases b with
      | nil => simp [cmpList]
      | cons y b =>
        cases c with
        | nil => simp [cmpList]
        | cons z c =>
          simp only [cmpList]
          cases h1 : f x y with
          | lt =>
            cases h2 : f y z with
            | lt => simp [h.trans x y z h1 h2]
            | eq => rw [(h.eq y z).1 h2] at h1; simp [h1]
            | gt => simp
          | eq => rw [(h.eq x y).1 h1]; cases f y z <;> simp; exact ih b c
          | gt => simp

/-- C40: `Rule`'s comparison is a total order on what `==` looks at: `cmp` gives `Equal` exactly for rules that are `==`,
exchanging the rules turns the answer around, and it is transitive; `partial_cmp` says the same; rules that are `==` hash
the same.  Two rules are `==` exactly if they have the same symbols on both sides, whatever their callbacks. -/
theorem c40_rule_order (a b c : Rule N T E) :
    (a.beq b = true ↔ a.lhs = b.lhs ∧ a.rhs = b.rhs) ∧
    (a.cmp b = .eq ↔ a.beq b = true) ∧ b.cmp a = (a.cmp b).swap ∧ (a.cmp b = .lt → b.cmp c = .lt → a.cmp c = .lt) ∧
    a.partialCmp b = some (a.cmp b) ∧ (a.beq b = true → a.hashKey = b.hashKey) := by
  have hb : ∀ a b : Rule N T E, a.beq b = true ↔ a.lhs = b.lhs ∧ a.rhs = b.rhs := by
    intro a b
    simp [Rule.beq]
  have hl := lawful_list lawful_sym
  have hn := lawful_nat
  refine ⟨hb a b, ?_, ?_, ?_, ?_, ?_⟩
  · rw [hb, ← hl.eq, ← hn.eq]
    unfold Rule.cmp
    cases compare a.lhs b.lhs <;> simp
  · unfold Rule.cmp
    rw [hn.swap a.lhs b.lhs]
    cases compare a.lhs b.lhs <;> simp [Ordering.swap]
    exact hl.swap _ _
  · unfold Rule.cmp
    cases h1 : compare a.lhs b.lhs with
    | lt =>
      cases h2 : compare b.lhs c.lhs with
      | lt => simp [hn.trans _ _ _ h1 h2]
      | eq => rw [(hn.eq _ _).1 h2] at h1; simp [h1]
      | gt => simp
    | eq => rw [(hn.eq _ _).1 h1]; cases compare b.lhs c.lhs <;> simp; exact hl.trans _ _ _
    | gt => simp
  · unfold Rule.partialCmp Rule.cmp
    cases compare a.lhs b.lhs <;> rfl
  · intro h
    obtain ⟨h1, h2⟩ := (hb a b).1 h
    simp [Rule.hashKey, h1, h2]

example : (⟨0, [.nt 1], fun _ => .ok 0⟩ : Rule Nat Nat Nat).beq ⟨0, [.nt 1], fun _ => .error 1⟩ = true ∧
    (⟨0, [.nt 1], fun _ => .ok 0⟩ : Rule Nat Nat Nat).cmp ⟨0, [.tm (.sym 0)], fun _ => .ok 0⟩ = .lt ∧
    (⟨0, [.tm .err], fun _ => .ok 0⟩ : Rule Nat Nat Nat).cmp ⟨0, [.tm (.sym 7)], fun _ => .ok 0⟩ = .gt := ⟨rfl, rfl, rfl⟩

end Verif.Par
