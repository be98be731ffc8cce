import Verif.Par.Ops
import Verif.Par.ChosenProof

/-!
# The tables of operator grammars
-/

namespace Verif.Par

/-- The rules. -/
inductive OpRule (o : Ops) (s : Nat) : List Sym → Prop
  | atom (t) : t ∈ o.atoms → OpRule o s [tk t]
  | pre (t) : t ∈ o.pres → OpRule o s [tk t, .nt s]
  | post (t) : t ∈ o.posts → OpRule o s [.nt s, tk t]
  | bin (t) : t ∈ o.bins → OpRule o s [.nt s, tk t, .nt s]
  | par (t c) : (t, c) ∈ o.pars → OpRule o s [tk t, .nt s, tk c]
  | cond (t e) : (t, e) ∈ o.ites → OpRule o s [tk t, .nt s]
  | ite (t e) : (t, e) ∈ o.ites → OpRule o s [tk t, .nt s, tk e, .nt s]

theorem Ops.mem_rules {o : Ops} {s : Nat} {r : PRule} : r ∈ o.rules s ↔ r.lhs = s ∧ OpRule o s r.rhs := by
  obtain ⟨l, rhs⟩ := r
  constructor
  · intro h
    simp only [Ops.rules, List.mem_append, List.mem_map] at h
    rcases h with (((((⟨t, h, e⟩ | ⟨t, h, e⟩) | ⟨t, h, e⟩) | ⟨t, h, e⟩) | ⟨t, h, e⟩) | ⟨t, h, e⟩) | ⟨t, h, e⟩ <;> cases e
    · exact ⟨rfl, .atom t h⟩
    · exact ⟨rfl, .pre t h⟩
    · exact ⟨rfl, .post t h⟩
    · exact ⟨rfl, .bin t h⟩
    · exact ⟨rfl, .par _ _ h⟩
    · exact ⟨rfl, .cond _ _ h⟩
    · exact ⟨rfl, .ite _ _ h⟩
  · rintro ⟨rfl, h⟩
    simp only at h
    simp only [Ops.rules, List.mem_append, List.mem_map]
    cases h with
    | atom t h => exact .inl (.inl (.inl (.inl (.inl (.inl ⟨t, h, rfl⟩)))))
    | pre t h => exact .inl (.inl (.inl (.inl (.inl (.inr ⟨t, h, rfl⟩)))))
    | post t h => exact .inl (.inl (.inl (.inl (.inr ⟨t, h, rfl⟩))))
    | bin t h => exact .inl (.inl (.inl (.inr ⟨t, h, rfl⟩)))
    | par t c h => exact .inl (.inl (.inr ⟨_, h, rfl⟩))
    | cond t e h => exact .inl (.inr ⟨_, h, rfl⟩)
    | ite t e h => exact .inr ⟨_, h, rfl⟩

theorem nodup_map {α β : Type} {f : α → β} (hf : ∀ a b, f a = f b → a = b) {l : List α} (h : l.Nodup) : (l.map f).Nodup := by
  induction l with
  | nil => exact List.nodup_nil
  | cons a l ih =>
    rw [List.nodup_cons] at h
    rw [List.map_cons, List.nodup_cons]
    refine ⟨?_, ih h.2⟩
    intro hm
    obtain ⟨b, hb, he⟩ := List.mem_map.1 hm
    rw [hf _ _ he] at hb
    exact h.1 hb

theorem nodup_of_map {α β : Type} {f : α → β} {l : List α} (h : (l.map f).Nodup) : l.Nodup := by
  induction l with
  | nil => exact List.nodup_nil
  | cons a l ih =>
    rw [List.map_cons, List.nodup_cons] at h
    rw [List.nodup_cons]
    exact ⟨fun hm => h.1 (List.mem_map_of_mem hm), ih h.2⟩

theorem pair_of_fst {l : List (Nat × Nat)} (h : (l.map Prod.fst).Nodup) {t c c' : Nat} (h1 : (t, c) ∈ l) (h2 : (t, c') ∈ l) : c = c' := by
  induction l with
  | nil => cases h1
  | cons a l ih =>
    rw [List.map_cons, List.nodup_cons] at h
    rcases List.mem_cons.1 h1 with h3 | h3 <;> rcases List.mem_cons.1 h2 with h4 | h4
    · rw [← h3] at h4; cases h4; rfl
    · rw [← h3] at h
      exact absurd (List.mem_map.2 ⟨_, h4, rfl⟩) h.1
    · rw [← h4] at h
      exact absurd (List.mem_map.2 ⟨_, h3, rfl⟩) h.1
    · exact ih h.2 h3 h4

/-- The conditions, one by one. -/
structure Ops.Apart (o : Ops) : Prop where
  ap : ∀ t ∈ o.atoms, t ∉ o.pres
  aq : ∀ t c, t ∈ o.atoms → (t, c) ∉ o.pars
  ai : ∀ t c, t ∈ o.atoms → (t, c) ∉ o.ites
  pq : ∀ t c, t ∈ o.pres → (t, c) ∉ o.pars
  pi : ∀ t c, t ∈ o.pres → (t, c) ∉ o.ites
  qi : ∀ t c c', (t, c) ∈ o.pars → (t, c') ∉ o.ites
  q1 : ∀ t c c', (t, c) ∈ o.pars → (t, c') ∈ o.pars → c = c'
  i1 : ∀ t c c', (t, c) ∈ o.ites → (t, c') ∈ o.ites → c = c'
  bq : ∀ t ∈ o.posts, t ∉ o.bins
  cq : ∀ t c, (t, c) ∈ o.pars → c ∉ o.posts
  cb : ∀ t c, (t, c) ∈ o.pars → c ∉ o.bins
  ci : ∀ t c t', (t, c) ∈ o.pars → (t', c) ∉ o.ites
  eq : ∀ t c, (t, c) ∈ o.ites → c ∉ o.posts
  eb : ∀ t c, (t, c) ∈ o.ites → c ∉ o.bins

theorem Ops.Ok.apart {o : Ops} (h : o.Ok) : o.Apart := by
  have hb := h.before
  have ha := h.after
  simp only [List.nodup_append, List.mem_append] at hb ha
  obtain ⟨⟨⟨b1, b2, b3⟩, b4, b5⟩, b6, b7⟩ := hb
  have m1 : ∀ {l : List (Nat × Nat)} {t c}, (t, c) ∈ l → t ∈ l.map Prod.fst := fun h => List.mem_map.2 ⟨_, h, rfl⟩
  have m2 : ∀ {l : List (Nat × Nat)} {t c}, (t, c) ∈ l → c ∈ l.map Prod.snd := fun h => List.mem_map.2 ⟨_, h, rfl⟩
  constructor
  · intro t h1 h2; exact b3 t h1 t h2 rfl
  · intro t c h1 h2; exact b5 t (.inl h1) t (m1 h2) rfl
  · intro t c h1 h2; exact b7 t (.inl (.inl h1)) t (m1 h2) rfl
  · intro t c h1 h2; exact b5 t (.inr h1) t (m1 h2) rfl
  · intro t c h1 h2; exact b7 t (.inl (.inr h1)) t (m1 h2) rfl
  · intro t c c' h1 h2; exact b7 t (.inr (m1 h1)) t (m1 h2) rfl
  · intro t c c' h1 h2; exact pair_of_fst b4 h1 h2
  · intro t c c' h1 h2; exact pair_of_fst b6 h1 h2
  · intro t h1 h2; exact ha.2.2 t h1 t h2 rfl
  · intro t c h1; exact (h.close _ h1).1
  · intro t c h1; exact (h.close _ h1).2.1
  · intro t c t' h1 h2; exact (h.close _ h1).2.2 (m2 h2)
  · intro t c h1; exact (h.els _ h1).1
  · intro t c h1; exact (h.els _ h1).2

/-- The same rule twice is the same number. -/
theorem Ops.Ok.nodup {o : Ops} (h : o.Ok) (s : Nat) : (o.rules s).Nodup := by
  have hb := h.before
  have ha := h.after
  have hap := h.apart
  simp only [List.nodup_append, List.mem_append] at hb ha
  obtain ⟨⟨⟨b1, b2, b3⟩, b4, b5⟩, b6, b7⟩ := hb
  have m : ∀ {l : List (Nat × Nat)} {x}, x ∈ l → x.1 ∈ l.map Prod.fst := fun h => List.mem_map.2 ⟨_, h, rfl⟩
  have nf : ∀ (f : Nat × Nat → PRule) (l : List (Nat × Nat)), (l.map Prod.fst).Nodup → (∀ a b, f a = f b → a.1 = b.1) → (l.map f).Nodup := by
    intro f l hl hf
    induction l with
    | nil => exact List.nodup_nil
    | cons a l ih =>
      rw [List.map_cons, List.nodup_cons] at hl
      rw [List.map_cons, List.nodup_cons]
      refine ⟨?_, ih hl.2⟩
      intro hm
      obtain ⟨b, hb, he⟩ := List.mem_map.1 hm
      apply hl.1
      rw [← hf _ _ he]
      exact m hb
  unfold Ops.rules
  simp only [List.nodup_append, List.mem_append, List.mem_map]
  refine ⟨⟨⟨⟨⟨⟨?_, ?_, ?_⟩, ?_, ?_⟩, ?_, ?_⟩, ?_, ?_⟩, ?_, ?_⟩, ?_, ?_⟩
  · exact nodup_map (by intro a b h; simpa using h) b1
  · exact nodup_map (by intro a b h; simpa using h) b2
  · rintro _ ⟨t, h1, rfl⟩ _ ⟨t', h2, rfl⟩; simp
  · exact nodup_map (by intro a b h; simpa using h) ha.1
  · rintro _ (⟨t, h1, rfl⟩ | ⟨t, h1, rfl⟩) _ ⟨t', h2, rfl⟩ <;> simp
  · exact nodup_map (by intro a b h; simpa using h) ha.2.1
  · rintro _ ((⟨t, h1, rfl⟩ | ⟨t, h1, rfl⟩) | ⟨t, h1, rfl⟩) _ ⟨t', h2, rfl⟩ <;> simp
  · exact nf _ _ b4 (by intro a b h; simp at h; exact h.1)
  · rintro _ (((⟨t, h1, rfl⟩ | ⟨t, h1, rfl⟩) | ⟨t, h1, rfl⟩) | ⟨t, h1, rfl⟩) _ ⟨t', h2, rfl⟩ <;> simp
  · exact nf _ _ b6 (by intro a b h; simpa using h)
  · rintro _ ((((⟨t, h1, rfl⟩ | ⟨t, h1, rfl⟩) | ⟨t, h1, rfl⟩) | ⟨t, h1, rfl⟩) | ⟨t, h1, rfl⟩) _ ⟨t', h2, rfl⟩ <;> simp
    rintro rfl
    exact hap.pi _ _ h1 h2
  · exact nf _ _ b6 (by intro a b h; simp at h; exact h.1)
  · rintro _ (((((⟨t, h1, rfl⟩ | ⟨t, h1, rfl⟩) | ⟨t, h1, rfl⟩) | ⟨t, h1, rfl⟩) | ⟨t, h1, rfl⟩) | ⟨t, h1, rfl⟩) _ ⟨t', h2, rfl⟩ <;> simp

end Verif.Par
