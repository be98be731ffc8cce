import Verif.Tok.Size
import Verif.Tok.MinWeak
import Verif.Tok.BuilderProof

/-!
# Sizes of the tables
-/

namespace Verif.Tok

/-! ## Nodes of the nondeterministic automaton -/

theorem iter_length {f : NFA → NFA} {c : Nat} (hf : ∀ a, (f a).node.length = a.node.length + c) :
    ∀ n a, (iter f n a).node.length = a.node.length + n * c := by
  intro n
  induction n with
  | zero => intro a; simp [iter]
  | succ n ih => intro a; rw [iter, ih, hf, Nat.succ_mul]; omega

theorem linkCopy_length (x a : NFA) : (linkCopy x a).node.length = a.node.length + x.node.length := by simp [linkCopy]

theorem linkCopyExit_length (x a : NFA) (e : Nat) : (linkCopyExit x e a).node.length = a.node.length + x.node.length := by
  simp [linkCopyExit]

theorem pred_mul_add (n c : Nat) (h : n ≠ 0) : c + (n - 1) * c = n * c := by
  obtain ⟨m, rfl⟩ := Nat.exists_eq_succ_of_ne_zero h
  simp [Nat.succ_mul, Nat.add_comm]

theorem copies_pos {k : RepKind} {n c : Nat} (e : k.copies = n) (h : n ≠ 0) :
    (if k.copies = 0 then 1 else k.copies * c) = n * c := by
  subst e
  rw [if_neg h]

theorem nfaRep_length {x y : NFA} {k : RepKind} (h : nfaRep x k = .ok y) :
    y.node.length = if k.copies = 0 then 1 else k.copies * x.node.length := by
  unfold nfaRep at h
  split at h
  · cases h; simp [RepKind.copies, nfaOpt]
  · cases h; simp [RepKind.copies, nfaStar]
  · cases h; simp [RepKind.copies, nfaPlus]
  · cases h; simp [RepKind.copies, nfaBare]
  · cases h; simp [RepKind.copies]
  · rename_i n h0 h1
    cases h
    rw [copies_pos (k := .exactly n) (n := n) rfl h0, nfaChain, iter_length (linkCopy_length x), pred_mul_add _ _ h0]
  · cases h; simp [RepKind.copies, nfaStar]
  · rename_i n h0
    cases h
    simp only [nfaAtLeast, length_addEps, length_appendNodes, iter_length (linkCopy_length x)]
    rw [copies_pos (k := .atLeast n) (n := n + 1) (if_neg h0) (by omega), pred_mul_add _ _ h0, Nat.succ_mul]
  · cases h; simp [RepKind.copies, nfaBare]
  · cases h; simp [RepKind.copies, nfaOpt]
  · rename_i m h0 h1
    cases h
    simp only [nfaUpTo, length_addEps, iter_length (linkCopyExit_length x · _)]
    rw [copies_pos (k := .bounded 0 m) (n := m) rfl h0, pred_mul_add _ _ h0]
  · cases h; simp [RepKind.copies]
  · rename_i n m h0 h1 h2 h3
    split at h
    · rename_i e
      subst e
      cases h
      have hn : n ≠ 0 := by rintro rfl; exact h0 rfl rfl
      rw [copies_pos (k := .bounded n n) (n := n) rfl hn, nfaChain, iter_length (linkCopy_length x), pred_mul_add _ _ hn]
    · split at h
      · rename_i hlt
        cases h
        have hn : n ≠ 0 := by
          rintro rfl
          rcases m with _ | _ | m
          · omega
          · exact h1 rfl rfl
          · exact h2 rfl
        simp only [nfaBounded, iter_length (linkCopy_length x), iter_length (linkCopyExit_length x · _)]
        rw [copies_pos (k := .bounded n m) (n := m) rfl (by omega), pred_mul_add _ _ hn, ← Nat.add_mul]
        congr 1
        omega
      · cases h

theorem concat_length {hs : List Hir} (ih : ∀ h ∈ hs, ∀ x, build h = .ok x → x.node.length = h.nodes) :
    ∀ x, buildConcat hs = .ok x → x.node.length = Hir.nodesAll hs := by
  induction hs with
  | nil => intro x h; cases h
  | cons a t iht =>
    intro x h
    cases t with
    | nil =>
      rw [buildConcat] at h
      rw [ih a (by simp) x h, Hir.nodesAll, Hir.nodesAll, Nat.add_zero]
    | cons b t =>
      rw [buildConcat.eq_3 _ _ (by simp)] at h
      obtain ⟨acc, h1, h⟩ := bind_ok h
      obtain ⟨y, h2, h⟩ := bind_ok h
      cases h
      rw [Hir.nodesAll, ← ih a (by simp) y h2, ← iht (fun h hh => ih h (by simp [hh])) acc h1]
      simp [nfaCat, Nat.add_comm]

theorem alt_length {hs : List Hir} (ih : ∀ h ∈ hs, ∀ x, build h = .ok x → x.node.length = h.nodes) :
    ∀ ns r, buildAlt ns hs = .ok r → r.length = ns.length + Hir.nodesAll hs := by
  induction hs with
  | nil => intro ns r h; rw [buildAlt] at h; cases h; simp [Hir.nodesAll]
  | cons a t iht =>
    intro ns r h
    rw [buildAlt] at h
    obtain ⟨y, h2, h⟩ := bind_ok h
    rw [iht (fun h hh => ih h (by simp [hh])) _ _ h, Hir.nodesAll, ← ih a (by simp) y h2]
    simp [nfaAltStep, Nat.add_assoc]

theorem build_length (h : Hir) : ∀ x, build h = .ok x → x.node.length = h.nodes := by
  induction h using Hir.ind with
  | empty => intro x h; rw [build] at h; cases h; rfl
  | literalU c => intro x h; rw [build] at h; cases h; rfl
  | literalB b => intro x h; rw [build] at h; cases h
  | classU rs => intro x h; rw [build] at h; cases h; rfl
  | classB => intro x h; rw [build] at h; cases h
  | anchor => intro x h; rw [build] at h; cases h
  | wordBoundary => intro x h; rw [build] at h; cases h
  | rep k h ih =>
    intro x hx
    rw [build] at hx
    obtain ⟨y, h1, h2⟩ := bind_ok hx
    rw [nfaRep_length h2, Hir.nodes, ih y h1]
  | group h ih => intro x hx; rw [build] at hx; rw [Hir.nodes]; exact ih x hx
  | concat hs ih => intro x hx; rw [build] at hx; rw [Hir.nodes]; exact concat_length ih x hx
  | alt hs ih =>
    intro x hx
    rw [build] at hx
    obtain ⟨ns, h1, h2⟩ := bind_ok hx
    cases h2
    rw [Hir.nodes, alt_length ih _ _ h1]
    rfl

theorem buildAllLoop_length : ∀ (hs : List Hir) st r, buildAllLoop hs st = .ok r → r.1.length = st.1.length + Hir.nodesAll hs := by
  intro hs
  induction hs with
  | nil => intro st r h; rw [buildAllLoop] at h; cases h; simp [Hir.nodesAll]
  | cons a t ih =>
    rintro ⟨ns, bs, es⟩ r h
    rw [buildAllLoop] at h
    obtain ⟨y, h1, h2⟩ := bind_ok h
    rw [ih _ _ h2, Hir.nodesAll, ← build_length a y h1]
    simp [Nat.add_assoc]

theorem buildAll_length {hs : List Hir} {t : TNFA} (h : buildAll hs = .ok t) : t.node.length = Hir.nodesAll hs + 1 := by
  unfold buildAll at h
  obtain ⟨⟨ns, bs, es⟩, h1, h2⟩ := bind_ok h
  cases h2
  have := buildAllLoop_length _ _ _ h1
  simp at this
  simp [this]

/-! ## Rows of the tables -/

/-- All texts of length `n` over two letters. -/
def words2 (α : Type) (a b : α) : Nat → List (List α)
  | 0 => [[]]
  | n + 1 => (words2 α a b n).map (a :: ·) ++ (words2 α a b n).map (b :: ·)

theorem words2_length {α : Type} (a b : α) : ∀ n, (words2 α a b n).length = 2 ^ n
  | 0 => rfl
  | n + 1 => by simp [words2, words2_length a b n, Nat.pow_succ]; omega

theorem mem_words2 {α : Type} {a b : α} : ∀ {n w}, w ∈ words2 α a b n ↔ w.length = n ∧ ∀ c ∈ w, c = a ∨ c = b := by
  intro n
  induction n with
  | zero => intro w; cases w <;> simp [words2]
  | succ n ih =>
    intro w
    cases w with
    | nil => simp [words2]
    | cons c w => 
      simp only [words2, List.mem_append, List.mem_map, List.cons.injEq, List.length_cons, List.mem_cons, forall_eq_or_imp, ih]
      constructor
      · rintro (⟨x, ⟨h1, h2⟩, rfl, rfl⟩ | ⟨x, ⟨h1, h2⟩, rfl, rfl⟩)
        · exact ⟨by omega, .inl rfl, h2⟩
        · exact ⟨by omega, .inr rfl, h2⟩
      · rintro ⟨h1, rfl | rfl, h2⟩
        · exact .inl ⟨w, ⟨by omega, h2⟩, rfl, rfl⟩
        · exact .inr ⟨w, ⟨by omega, h2⟩, rfl, rfl⟩

theorem words2_nodup {α : Type} {a b : α} (h : a ≠ b) : ∀ n, (words2 α a b n).Nodup
  | 0 => by simp [words2]
  | n + 1 => by
    rw [words2, List.nodup_append]
    refine ⟨?_, ?_, ?_⟩
    · exact List.Pairwise.map _ (fun _ _ h e => h (List.cons.inj e).2) (words2_nodup h n)
    · exact List.Pairwise.map _ (fun _ _ h e => h (List.cons.inj e).2) (words2_nodup h n)
    · intro x hx y hy e
      obtain ⟨x', _, rfl⟩ := List.mem_map.1 hx
      obtain ⟨y', _, rfl⟩ := List.mem_map.1 hy
      exact h (List.cons.inj e).1

/-- Minimisation never adds nodes, for all hash seeds. -/
theorem minify_le {o : MinOracle} (hf : o.Fair) {d d' : DFA} {p} (h : d.WF p) (hm : minify o d = some d') :
    d'.rows.length ≤ d.rows.length := by
  obtain ⟨r, h1, h2, m, h3, h4⟩ := minLoop_weak hf (d.rows.length + 1) 0 (initGroups d) (initGroups d)
    ⟨(initGroups_inv h).len, (initGroups_inv h).acc⟩ (initGroups_inv h).len (by omega)
  unfold minify at hm
  simp only [h1, Option.map_some, Option.some.injEq] at hm
  subst hm
  have hcount := groupCount_dense h2.len h3 h4
  have hgs : (groupSets r).length = m := by simp [groupSets, hcount]
  have hrl : (rebuild o d r).rows.length = m := by simp [rebuild, hgs]
  rw [hrl]
  have := length_le_of_nodup_subset (s := List.range m) (t := (List.range d.rows.length).map fun i => r.getD i 0) List.nodup_range (by
    intro g hg
    obtain ⟨i, hi, e⟩ := h4 g (List.mem_range.1 hg)
    exact List.mem_map.2 ⟨i, List.mem_range.2 hi, e⟩)
  simpa using this

/-- Distinct values on a list. -/
theorem nodup_map_range {α : Type} {n : Nat} {f : Nat → α} (h : ∀ i j, i < n → j < n → f i = f j → i = j) :
    ((List.range n).map f).Nodup := by
  rw [List.Nodup, List.pairwise_map]
  exact List.Pairwise.imp_of_mem (fun {a b} ha hb hne e =>
    hne (h a b (List.mem_range.1 ha) (List.mem_range.1 hb) e)) List.nodup_range

open Classical in
/-- The subset construction makes fewer nodes than there are sets. -/
theorem subset_lt {t : TNFA} {d : DFA} (hw : t.WF) (h : DfaOf t d) : d.rows.length < 2 ^ t.node.length := by
  let word : Nat → List Nat := fun i => if hi : i < d.rows.length then Classical.choose (h.reach i hi) else []
  have hword : ∀ i, i < d.rows.length → d.run d.b (word i) = some i := by
    intro i hi
    simp only [word, dif_pos hi]
    exact Classical.choose_spec (h.reach i hi)
  let bits : List Nat → List Bool := fun w => (List.range t.node.length).map fun q => decide (NPath t.node t.b w q)
  have hbits : ∀ u v, bits u = bits v → ∀ q, NPath t.node t.b u q ↔ NPath t.node t.b v q := by
    intro u v e q
    by_cases hq : q < t.node.length
    · have := List.map_inj_left.1 e q (List.mem_range.2 hq)
      simpa using this
    · constructor <;> intro hp <;> exact absurd (path_lt hw.eps hw.stp hp hw.b) hq
  have hz : List.replicate t.node.length false ∉ (List.range d.rows.length).map fun i => bits (word i) := by
    intro hm
    obtain ⟨i, hi, e⟩ := List.mem_map.1 hm
    have hi := List.mem_range.1 hi
    have : d.obs (word i) = none := by
      rw [h.stuck]
      intro q hq
      have hlt := path_lt hw.eps hw.stp hq hw.b
      have : (bits (word i))[q]? = some false := by rw [e]; simp [hlt]
      simp [bits, hlt, hq] at this
    simp [DFA.obs, hword i hi] at this
  have hnd : (List.replicate t.node.length false :: (List.range d.rows.length).map fun i => bits (word i)).Nodup := by
    refine List.nodup_cons.2 ⟨hz, nodup_map_range ?_⟩
    intro i j hi hj e
    have := (h.same (word i) (word j)).2 (hbits _ _ e)
    rw [hword i hi, hword j hj] at this
    exact Option.some.inj this
  have := length_le_of_nodup_subset hnd (t := words2 Bool true false t.node.length) (by
    intro x hx
    rw [mem_words2]
    refine ⟨?_, fun c _ => by cases c <;> simp⟩
    rcases List.mem_cons.1 hx with rfl | hx
    · simp
    · obtain ⟨i, _, rfl⟩ := List.mem_map.1 hx
      simp [bits])
  rw [words2_length, List.length_cons, List.length_map, List.length_range] at this
  exact this

end Verif.Tok
