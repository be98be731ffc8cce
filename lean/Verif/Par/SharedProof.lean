import Verif.Par.Shared
import Verif.Par.EffectsValues
import Verif.Par.SourceProof
import Verif.Par.FullProof

/-!
# Source and callbacks that share a world: one round

`plainE p` is the parser without effects, values and tokens, that has the same tables.
-/

namespace Verif.Par

variable {S N T E : Type}

/-! ## Going through trees -/

def Went.bind {A B : Type} (x : Went S T A E) (f : A → Mid S T → Went S T B E) : Went S T B E :=
  match x with
  | .ok a m => f a m
  | .error e s => .error e s
  | .panic s => .panic s
  | .strays => .strays

theorem Went.bind_assoc {A B C : Type} (x : Went S T A E) (f : A → Mid S T → Went S T B E) (g : B → Mid S T → Went S T C E) :
    (x.bind f).bind g = x.bind fun a m => (f a m).bind g := by
  cases x <;> rfl

theorem Went.bind_ok {A : Type} (x : Went S T A E) : (x.bind fun a m => .ok a m) = x := by
  cases x <;> rfl

/-- The callback of a node. -/
def callX (rules : List (ERule S N T E)) (r : Nat) (args : List (Arg N T)) (m : Mid S T) : Went S T (Arg N T) E :=
  match rules[r]? with
  | none => .panic m.world
  | some rule =>
    match rule.act m.world args with
    | .error e s => .error e s
    | .panic s => .panic s
    | .ok v s => .ok (.nt v) { m with world := s }

section
variable {idx : T → Nat} {nxt : Source S T} {rules : List (ERule S N T E)}

theorem playX_node (r : Nat) (cs : List (Tree Nat)) (m : Mid S T) :
    (Tree.node r cs).playX idx nxt rules m = (playsX idx nxt rules cs m).bind (callX rules r) := by
  simp only [Tree.playX]
  cases playsX idx nxt rules cs m <;> rfl

theorem playsX_cons (f : Tree Nat) (fs : List (Tree Nat)) (m : Mid S T) :
    playsX idx nxt rules (f :: fs) m = (f.playX idx nxt rules m).bind fun a m => (playsX idx nxt rules fs m).bind fun as m => .ok (a :: as) m := by
  simp only [playsX]
  cases f.playX idx nxt rules m with
  | ok a m1 =>
    simp only [Went.bind]
    cases playsX idx nxt rules fs m1 <;> rfl
  | _ => rfl

theorem playsX_single (f : Tree Nat) (m : Mid S T) :
    playsX idx nxt rules [f] m = (f.playX idx nxt rules m).bind fun a m => .ok [a] m := by
  rw [playsX_cons]
  rfl

theorem playsX_append (fs gs : List (Tree Nat)) (m : Mid S T) :
    playsX idx nxt rules (fs ++ gs) m =
      (playsX idx nxt rules fs m).bind fun as m => (playsX idx nxt rules gs m).bind fun bs m => .ok (as ++ bs) m := by
  induction fs generalizing m with
  | nil =>
    simp only [List.nil_append, playsX, Went.bind]
    cases playsX idx nxt rules gs m <;> rfl
  | cons f fs ih =>
    rw [List.cons_append, playsX_cons, playsX_cons, Went.bind_assoc]
    congr 1
    funext a m1
    rw [ih, Went.bind_assoc, Went.bind_assoc]
    congr 1
    funext as m2
    simp only [Went.bind_assoc]
    rfl

theorem playsX_length {fs : List (Tree Nat)} {m m' : Mid S T} {as : List (Arg N T)} (h : playsX idx nxt rules fs m = .ok as m') :
    as.length = fs.length := by
  induction fs generalizing m as m' with
  | nil => cases h; rfl
  | cons f fs ih =>
    rw [playsX_cons] at h
    cases h1 : f.playX idx nxt rules m with
    | ok a m1 =>
      rw [h1] at h
      simp only [Went.bind] at h
      cases h2 : playsX idx nxt rules fs m1 with
      | ok as' m2 =>
        rw [h2] at h
        cases h
        simp [ih h2]
      | error e s => rw [h2] at h; cases h
      | panic s => rw [h2] at h; cases h
      | strays => rw [h2] at h; cases h
    | error e s => rw [h1] at h; cases h
    | panic s => rw [h1] at h; cases h
    | strays => rw [h1] at h; cases h

variable (idx nxt rules) in
/-- Going through the forest `fs'` begins with going through the forest `fs`. -/
def Cont (fs fs' : List (Tree Nat)) : Prop :=
  ∃ K, ∀ m, playsX idx nxt rules fs' m = (playsX idx nxt rules fs m).bind K

theorem Cont.refl (fs : List (Tree Nat)) : Cont idx nxt rules fs fs := ⟨fun as m => .ok as m, fun _ => (Went.bind_ok _).symm⟩

theorem Cont.trans {fs fs1 fs2 : List (Tree Nat)} (h : Cont idx nxt rules fs fs1) (h' : Cont idx nxt rules fs1 fs2) :
    Cont idx nxt rules fs fs2 := by
  obtain ⟨K, h⟩ := h
  obtain ⟨K', h'⟩ := h'
  exact ⟨_, fun m => by rw [h', h, Went.bind_assoc]⟩

theorem Cont.append (fs gs : List (Tree Nat)) : Cont idx nxt rules fs (fs ++ gs) := ⟨_, fun m => playsX_append fs gs m⟩

/-- After the children, the callback. -/
theorem playsX_reduce (fs0 fs1 : List (Tree Nat)) (r : Nat) (m : Mid S T) :
    playsX idx nxt rules (fs0 ++ [.node r fs1]) m = (playsX idx nxt rules (fs0 ++ fs1) m).bind fun as m =>
      (callX rules r (as.drop (as.length - fs1.length)) m).bind fun a m => .ok (as.take (as.length - fs1.length) ++ [a]) m := by
  rw [playsX_append, playsX_append, Went.bind_assoc]
  congr 1
  funext as m1
  rw [playsX_single, playX_node, Went.bind_assoc, Went.bind_assoc, Went.bind_assoc]
  cases h : playsX idx nxt rules fs1 m1 with
  | ok bs m2 =>
    simp only [Went.bind]
    have := playsX_length h
    have e : (as ++ bs).length - fs1.length = as.length := by simp [this]
    rw [e]
    simp
  | _ => rfl

theorem Cont.reduce (fs0 fs1 : List (Tree Nat)) (r : Nat) : Cont idx nxt rules (fs0 ++ fs1) (fs0 ++ [.node r fs1]) :=
  ⟨_, fun m => playsX_reduce fs0 fs1 r m⟩

end

/-! ## The stack -/

/-- The argument that a symbol on the stack stands for. -/
def argOf (read : List T) : SSym N → Option (Arg N T)
  | .nt n _ => some (.nt n)
  | .tok _ i => read[i]?.map .tok
  | .err lo hi => some (.err ((read.drop lo).take (hi + 1 - lo)))
  | .eoi _ => none

theorem mkArgs_argOf {read : List T} {l : List (SSym N)} {k : Nat} {args : List (Arg N T)} (h : mkArgs read k l = some args) :
    l.map (argOf read) = args.map some := by
  induction l generalizing k args with
  | nil => cases h; rfl
  | cons y l ih =>
    cases y with
    | nt n i =>
      simp only [mkArgs, Option.map_eq_some_iff] at h
      obtain ⟨as, h1, rfl⟩ := h
      simp [argOf, ih h1]
    | tok a i =>
      simp only [mkArgs] at h
      split at h
      · cases h
      · split at h
        · cases h
        · rename_i t ht
          simp only [Option.map_eq_some_iff] at h
          obtain ⟨as, h1, rfl⟩ := h
          simp [argOf, ih h1, ht]
    | err lo hi =>
      simp only [mkArgs] at h
      split at h
      · simp only [Option.map_eq_some_iff] at h
        obtain ⟨as, h1, rfl⟩ := h
        simp [argOf, ih h1]
      · cases h
    | eoi i => cases h

theorem map_some_inj {α : Type} {l l' : List α} (h : l.map some = l'.map some) : l = l' := by
  induction l generalizing l' with
  | nil => cases l' with
    | nil => rfl
    | cons => cases h
  | cons a l ih => cases l' with
    | nil => cases h
    | cons b l' => simp at h; rw [h.1, ih h.2]

/-! ## Without effects, values and tokens -/

def plainRulesE (rules : List (ERule S N T E)) : List (Rule Unit Nat Unit) := rules.map fun r => ⟨r.lhs, r.rhs, fun _ => .ok ()⟩

def plainE (p : EParser S N T E) : Parser Unit Nat Unit := ⟨plainRulesE p.rules, p.tab⟩

theorem plainE_plain (rules : List (ERule S N T E)) : (plainRulesE rules).map Rule.plain = rules.map ERule.plain := by
  simp [plainRulesE, Rule.plain, ERule.plain, Function.comp_def]

theorem plainE_gram (rules : List (ERule S N T E)) (start : Nat) : gram (plainRulesE rules) start = gramE rules start := by
  simp [gram, gramE, plainE_plain]

theorem makes_plainE {o : Seeds} {rules : List (ERule S N T E)} {start : Nat} {p : EParser S N T E} {ws : List Warning}
    (hp : MakesE o rules start p ws) : MakesParser o (plainRulesE rules) start (plainE p) ws := by
  obtain ⟨h1, dummy, h2⟩ := hp
  refine ⟨by rw [plainE_gram]; exact h1, fun _ => .ok (), ?_⟩
  rw [plainE_plain]
  simp [plainE, plainRulesE, h2]

theorem plainE_gen {rules : List (ERule S N T E)} : ∀ r ∈ plainRulesE rules, ∀ l, r.gen l = .ok () := by
  intro r hr l
  simp only [plainRulesE, List.mem_map] at hr
  obtain ⟨r', _, rfl⟩ := hr
  rfl

/-- The same with the tokens. -/
def unitE (p : EParser S N T E) : Parser Unit T Unit := ⟨p.rules.map fun r => ⟨r.lhs, r.rhs, fun _ => .ok ()⟩, p.tab⟩

theorem unitE_mim (p : EParser S N T E) : MimP (fun _ => ()) p (unitE p) where
  tab := rfl
  missing r h := by simpa [unitE] using h
  found r rule h := ⟨⟨rule.lhs, rule.rhs, fun _ => .ok ()⟩, by simp [unitE, h], rfl, rfl, fun _ => ⟨(), rfl⟩, fun _ _ _ _ _ => rfl⟩

theorem unitE_plainE (p : EParser S N T E) (idx : T → Nat) : Mimics (fun _ => ()) idx (unitE p) (plainE p) where
  tab := rfl
  missing r h := by
    simp only [unitE, List.getElem?_map, Option.map_eq_none_iff] at h
    simp [plainE, plainRulesE, h]
  found r rule h := by
    simp only [unitE, List.getElem?_map, Option.map_eq_some_iff] at h
    obtain ⟨rule', h1, rfl⟩ := h
    refine ⟨⟨rule'.lhs, rule'.rhs, fun _ => .ok ()⟩, by simp [plainE, plainRulesE, h1], rfl, rfl, ?_⟩
    intro args v _
    rfl

/-- A configuration as the parser `plainE p` has it on the list `w`. -/
def seenAs (idx : T → Nat) (w : List Nat) (c : Cfg N T) : Cfg Unit Nat := (c.map (fun _ => ()) idx).withSrc (w.drop c.read.length)

end Verif.Par
