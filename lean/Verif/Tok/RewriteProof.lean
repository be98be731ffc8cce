import Verif.Tok.Rewrite
import Verif.Tok.CodeProof

/-! # Rewriting patterns: proofs -/

namespace Verif.Tok

/-! ## Ways can be put together -/

/-- What leads somewhere can be continued. -/
def Mat.Closed (M : Mat) : Prop := ∀ p r q u v, M p r u → M r q v → M p q (u ++ v)

theorem one_closed {L : List Nat → Prop} : (Mat.one L).Closed := by
  rintro (_ | _) (_ | _) (_ | _) u v h1 h2 <;> simp only [Mat.one] at h1 h2 ⊢ <;> simp_all

theorem unit_closed : Mat.unit.Closed := by
  intro p r q u v h1 h2
  simp only [Mat.unit] at h1 h2 ⊢
  simp [h1, h2]

theorem seq_closed {A B : Mat} (hA : A.Closed) (hB : B.Closed) : (Mat.seq A B).Closed := by
  rintro (_ | _) (_ | _) (_ | _) u v h1 h2 <;> simp only [Mat.seq] at h1 h2 ⊢
  · exact hA _ _ _ _ _ h1 h2
  · obtain ⟨x, y, rfl, h3, h4⟩ := h2
    exact ⟨u ++ x, y, by simp, hA _ _ _ _ _ h1 h3, h4⟩
  · obtain ⟨x, y, rfl, h3, h4⟩ := h1
    exact ⟨x, y ++ v, by simp, h3, hB _ _ _ _ _ h4 h2⟩
  · exact hB _ _ _ _ _ h1 h2

theorem jump_trans {M : Mat} {x y : Bool} {p q : Bool} {u v : List Nat} (h1 : Mat.Jump M x y p x u) (h2 : Mat.Jump M x y y q v) :
    Mat.Jump M x y p q (u ++ v) := by
  have : ∀ r, Mat.Jump M x y p r u → r = x → Mat.Jump M x y p q (u ++ v) := by
    intro r h
    clear h1
    induction h with
    | stay h => rintro rfl; exact .jump h h2
    | jump h _ ih =>
      intro hr
      rw [List.append_assoc]
      exact .jump h (ih hr)
  exact this x h1 rfl

theorem jump_closed {M : Mat} (hM : M.Closed) (x y : Bool) : (Mat.Jump M x y).Closed := by
  intro p r q u v h1 h2
  induction h1 with
  | stay h =>
    cases h2 with
    | stay h' => exact .stay (hM _ _ _ _ _ h h')
    | jump h' h3 =>
      rw [← List.append_assoc]
      exact .jump (hM _ _ _ _ _ h h') h3
  | jump h _ ih =>
    rw [List.append_assoc]
    exact .jump h (ih h2)

theorem chain_closed {M : Mat} (hM : M.Closed) : ∀ n, (Mat.chain M n).Closed
  | 0 => unit_closed
  | 1 => hM
  | n + 2 => seq_closed (chain_closed hM (n + 1)) hM

theorem pow_front {L F : List Nat → Prop} (h : ∀ u v, F u → L v → L (u ++ v)) {k : Nat} {u v : List Nat} (hu : F u) (hk : 1 ≤ k)
    (hv : Pow L k v) : Pow L k (u ++ v) := by
  cases k with
  | zero => omega
  | succ k =>
    obtain ⟨x, y, rfl, h1, h2⟩ := hv
    exact ⟨u ++ x, y, by simp, h _ _ hu h1, h2⟩

theorem pow_back {L B : List Nat → Prop} (h : ∀ u v, L u → B v → L (u ++ v)) : ∀ {k : Nat} {u v : List Nat}, 1 ≤ k → Pow L k u → B v →
    Pow L k (u ++ v)
  | 0, _, _, hk, _, _ => by omega
  | 1, u, v, _, hu, hv => by
    obtain ⟨x, y, rfl, h1, h2⟩ := hu
    simp only [Pow] at h2
    subst h2
    exact ⟨x ++ v, [], by simp, h _ _ h1 hv, rfl⟩
  | k + 2, u, v, _, hu, hv => by
    obtain ⟨x, y, rfl, h1, h2⟩ := hu
    exact ⟨x, y ++ v, by simp, h1, pow_back h (by omega) h2 hv⟩

theorem upTo_closed {M : Mat} (hM : M.Closed) {n m : Nat} (hn : 1 ≤ n) : (Mat.upTo M n m).Closed := by
  rintro (_ | _) (_ | _) (_ | _) u v h1 h2 <;> simp only [Mat.upTo] at h1 h2 ⊢
  · exact hM _ _ _ _ _ h1 h2
  · obtain ⟨k, h3, h4, h5⟩ := h2
    exact ⟨k, h3, h4, pow_front (fun _ _ a b => hM _ _ _ _ _ a b) h1 (by omega) h5⟩
  · obtain ⟨k, h3, h4, h5⟩ := h1
    exact ⟨k, h3, h4, pow_back (fun _ _ a b => hM _ _ _ _ _ a b) (by omega) h5 h2⟩
  · exact hM _ _ _ _ _ h1 h2

theorem star_closed {M : Mat} (hM : M.Closed) : (Mat.star M).Closed := fun _ _ _ _ _ h1 h2 => jump_closed hM _ _ _ _ _ _ _ h1 h2

theorem rep_closed {M : Mat} (hM : M.Closed) : ∀ k, (Mat.rep M k).Closed
  | .zeroOrOne => jump_closed hM _ _
  | .zeroOrMore => star_closed hM
  | .oneOrMore => jump_closed hM _ _
  | .exactly n => chain_closed hM n
  | .atLeast n => by
    simp only [Mat.rep]
    split
    · exact star_closed hM
    · exact seq_closed (chain_closed hM n) (star_closed hM)
  | .bounded n m => by
    simp only [Mat.rep]
    split
    · exact chain_closed hM n
    · split
      · exact upTo_closed hM (by omega)
      · split
        · exact jump_closed hM _ _
        · exact jump_closed (upTo_closed hM (by omega)) _ _

theorem code_closed : ∀ h : Hir, (Code h).Closed := by
  have hf : Mat.Closed fun _ _ _ => False := fun _ _ _ _ _ h _ => h
  intro h
  induction h using Hir.ind with
  | empty =>
    intro p r q u v h1 h2
    simp only [Code] at h1 h2 ⊢
    intro c hc
    rcases List.mem_append.1 hc with hc | hc
    · exact h1 c hc
    · exact h2 c hc
  | literalU c => rw [Code]; exact one_closed
  | literalB b => rw [Code]; exact hf
  | classU rs => rw [Code]; exact one_closed
  | classB => rw [Code]; exact hf
  | anchor => rw [Code]; exact hf
  | wordBoundary => rw [Code]; exact hf
  | rep k h ih => rw [Code]; exact rep_closed ih k
  | group h ih => rw [Code]; exact ih
  | concat hs ih =>
    rw [Code]
    induction hs with
    | nil => rw [CodeSeq]; exact unit_closed
    | cons h t iht =>
      cases t with
      | nil => rw [CodeSeq]; exact ih h (by simp)
      | cons h' t =>
        rw [CodeSeq]
        · exact seq_closed (ih h (by simp)) (iht fun x hx => ih x (List.mem_cons_of_mem _ hx))
        · simp
  | alt hs ih => rw [Code]; exact one_closed

/-! ## Laws of matrices -/

theorem jump_idem {M : Mat} {x y : Bool} : Mat.Jump (Mat.Jump M x y) x y = Mat.Jump M x y := by
  apply mat_ext
  intro p q w
  constructor
  · intro h
    induction h with
    | stay h => exact h
    | jump h _ ih => exact jump_trans h ih
  · exact .stay

theorem seq_assoc {A B C : Mat} : Mat.seq (Mat.seq A B) C = Mat.seq A (Mat.seq B C) := by
  apply mat_ext
  rintro (_ | _) (_ | _) w <;> simp only [Mat.seq]
  constructor
  · rintro ⟨_, v, rfl, ⟨x, y, rfl, h1, h2⟩, h3⟩
    exact ⟨x, y ++ v, by simp, h1, y, v, rfl, h2, h3⟩
  · rintro ⟨x, _, rfl, h1, y, v, rfl, h2, h3⟩
    exact ⟨x ++ y, v, by simp, ⟨x, y, rfl, h1, h2⟩, h3⟩

/-- All four languages are the same and closed: nothing is gained by loops. -/
theorem jump_const {S : List Nat → Prop} (hS : ∀ u v, S u → S v → S (u ++ v)) {x y : Bool} :
    Mat.Jump (fun _ _ => S) x y = fun _ _ => S := by
  apply mat_ext
  intro p q w
  constructor
  · intro h
    induction h with
    | stay h => exact h
    | jump h _ ih => exact hS _ _ h ih
  · intro h; exact Mat.Jump.stay (M := fun _ _ => S) h

theorem codeSeq_cons {h : Hir} {t : List Hir} (ht : t ≠ []) : CodeSeq (h :: t) = Mat.seq (Code h) (CodeSeq t) := by
  cases t with
  | nil => exact absurd rfl ht
  | cons h' t => rw [CodeSeq]; simp

theorem codeSeq_append : ∀ {l r : List Hir}, l ≠ [] → r ≠ [] → CodeSeq (l ++ r) = Mat.seq (CodeSeq l) (CodeSeq r)
  | [], _, h, _ => absurd rfl h
  | [h], r, _, hr => by
    rw [List.cons_append, List.nil_append, codeSeq_cons hr, CodeSeq]
  | h :: h' :: t, r, _, hr => by
    rw [List.cons_append, codeSeq_cons (by simp), codeSeq_cons (by simp), codeSeq_append (l := h' :: t) (by simp) hr, seq_assoc]

theorem chain_seq {h : Hir} : ∀ n, Mat.chain (Code h) (n + 1) = CodeSeq (List.replicate (n + 1) h)
  | 0 => by simp [Mat.chain, CodeSeq]
  | n + 1 => by
    rw [Mat.chain, chain_seq n, List.replicate_succ' (n := n + 1), codeSeq_append (by simp) (by simp)]
    simp [CodeSeq]

theorem codeAny_iff {hs : List Hir} {w : List Nat} : CodeAny hs w ↔ ∃ h ∈ hs, Code h false true w := by
  induction hs with
  | nil => simp [CodeAny]
  | cons h t ih => simp [CodeAny, ih]

theorem codeAlt_eq {hs hs' : List Hir} (h : ∀ w, (∃ h ∈ hs, Code h false true w) ↔ ∃ h ∈ hs', Code h false true w) :
    Code (.alt hs) = Code (.alt hs') := by
  rw [Code, Code]
  congr 1
  funext w
  rw [codeAny_iff, codeAny_iff, h w]

theorem code_alt_ft {hs : List Hir} {w : List Nat} : Code (.alt hs) false true w ↔ ∃ h ∈ hs, Code h false true w := by
  rw [Code, Mat.one]
  exact codeAny_iff

theorem code_two {x y : Hir} {w : List Nat} :
    Code (.concat [x, y]) false true w ↔ ∃ u v, w = u ++ v ∧ Code x false true u ∧ Code y false true v := by
  rw [Code, codeSeq_cons (by simp), CodeSeq, Mat.seq]

theorem code_concat {l r : List Hir} {h h' : Hir} (e : Code h = Code h') : CodeSeq (l ++ h :: r) = CodeSeq (l ++ h' :: r) := by
  have hc : ∀ r, CodeSeq (h :: r) = CodeSeq (h' :: r) := by
    intro r
    cases r with
    | nil => rw [CodeSeq, CodeSeq, e]
    | cons a r => rw [codeSeq_cons (t := a :: r) (by simp), codeSeq_cons (h := h') (by simp), e]
  by_cases hl : l = []
  · subst hl; exact hc r
  · rw [codeSeq_append hl (by simp), codeSeq_append hl (by simp), hc]

/-- Rewriting does not change what is read. -/
theorem Rewr.code {h h' : Hir} (r : Rewr h h') : Code h = Code h' := by
  induction r with
  | refl h => rfl
  | symm _ ih => exact ih.symm
  | trans _ _ ih1 ih2 => exact ih1.trans ih2
  | inRep k _ ih => rw [Code, Code, ih]
  | inConcat l r _ ih => rw [Code, Code, code_concat ih]
  | inAlt l r _ ih =>
    apply codeAlt_eq
    intro w
    simp only [List.mem_append, List.mem_cons]
    constructor
    · rintro ⟨x, hx | rfl | hx, h⟩
      · exact ⟨x, .inl hx, h⟩
      · exact ⟨_, .inr (.inl rfl), ih ▸ h⟩
      · exact ⟨x, .inr (.inr hx), h⟩
    · rintro ⟨x, hx | rfl | hx, h⟩
      · exact ⟨x, .inl hx, h⟩
      · exact ⟨_, .inr (.inl rfl), ih ▸ h⟩
      · exact ⟨x, .inr (.inr hx), h⟩
  | bracket h => rw [Code]
  | once h => rw [Code, Mat.rep, Mat.chain]
  | bounds n h => rw [Code, Code, Mat.rep, Mat.rep, if_pos rfl]
  | option h => rw [Code, Code, Mat.rep, Mat.rep]; simp
  | many h => rw [Code, Code, Mat.rep, Mat.rep]; simp
  | times n h => rw [Code, Code, Mat.rep, chain_seq]
  | least n h =>
    rw [Code, Code, codeSeq_cons (by simp), CodeSeq, Code, Code]
    simp [Mat.rep]
  | flat l m r hm =>
    rw [Code, Code]
    have hc : CodeSeq (.concat m :: r) = CodeSeq (m ++ r) := by
      by_cases hr : r = []
      · subst hr; rw [CodeSeq, Code, List.append_nil]
      · rw [codeSeq_cons hr, Code, codeSeq_append hm hr]
    by_cases hl : l = []
    · subst hl; exact hc
    · rw [codeSeq_append hl (by simp), hc, List.append_assoc, codeSeq_append hl (by simp [hm])]
  | single h => rw [Code, CodeSeq]
  | starStar h =>
    simp only [Code, Mat.rep]
    show Mat.star (fun _ _ => Mat.Jump (Code h) true false false false) = _
    unfold Mat.star
    rw [jump_const fun u v => jump_closed (code_closed h) _ _ _ _ _ u v]
  | plusStar h =>
    simp only [Code, Mat.rep]
    unfold Mat.star
    rw [jump_idem]
  | starPlus h =>
    simp only [Code, Mat.rep]
    exact jump_const fun u v => jump_closed (code_closed h) _ _ _ _ _ u v
  | starOpt h =>
    simp only [Code, Mat.rep]
    exact jump_const fun u v => jump_closed (code_closed h) _ _ _ _ _ u v
  | plusPlus h => simp only [Code, Mat.rep]; exact jump_idem
  | optOpt h => simp only [Code, Mat.rep]; exact jump_idem
  | altPerm hp =>
    apply codeAlt_eq
    intro w
    simp only [hp.mem_iff]
  | altFlat l m r =>
    apply codeAlt_eq
    intro w
    simp only [List.mem_append, List.mem_cons]
    constructor
    · rintro ⟨x, hx | rfl | hx, h⟩
      · exact ⟨x, .inl (.inl hx), h⟩
      · obtain ⟨y, hy, h⟩ := code_alt_ft.1 h
        exact ⟨y, .inl (.inr hy), h⟩
      · exact ⟨x, .inr hx, h⟩
    · rintro ⟨x, (hx | hx) | hx, h⟩
      · exact ⟨x, .inl hx, h⟩
      · exact ⟨_, .inr (.inl rfl), code_alt_ft.2 ⟨x, hx, h⟩⟩
      · exact ⟨x, .inr (.inr hx), h⟩
  | altTwice h t =>
    apply codeAlt_eq
    intro w
    simp
  | factorL x y z t =>
    apply codeAlt_eq
    intro w
    simp only [List.mem_cons, exists_eq_or_imp, code_two, code_alt_ft, List.not_mem_nil, or_false, exists_eq_left]
    constructor
    · rintro (⟨u, v, h1, h2, h3⟩ | ⟨u, v, h1, h2, h3⟩ | h)
      · exact .inl ⟨u, v, h1, h2, .inl h3⟩
      · exact .inl ⟨u, v, h1, h2, .inr h3⟩
      · exact .inr h
    · rintro (⟨u, v, h1, h2, h3 | h3⟩ | h)
      · exact .inl ⟨u, v, h1, h2, h3⟩
      · exact .inr (.inl ⟨u, v, h1, h2, h3⟩)
      · exact .inr (.inr h)
  | factorR x y z t =>
    apply codeAlt_eq
    intro w
    simp only [List.mem_cons, exists_eq_or_imp, code_two, code_alt_ft, List.not_mem_nil, or_false, exists_eq_left]
    constructor
    · rintro (⟨u, v, h1, h2, h3⟩ | ⟨u, v, h1, h2, h3⟩ | h)
      · exact .inl ⟨u, v, h1, .inl h2, h3⟩
      · exact .inl ⟨u, v, h1, .inr h2, h3⟩
      · exact .inr h
    · rintro (⟨u, v, h1, h2 | h2, h3⟩ | h)
      · exact .inl ⟨u, v, h1, h2, h3⟩
      · exact .inr (.inl ⟨u, v, h1, h2, h3⟩)
      · exact .inr (.inr h)
  | char c =>
    rw [Code, Code]
    congr 1
    funext w
    apply propext
    constructor
    · rintro rfl; exact ⟨c, rfl, (c, c), by simp, by simp⟩
    · rintro ⟨x, rfl, r, hr, h1, h2⟩
      simp only [List.mem_singleton] at hr
      subst hr
      simp only at h1 h2
      rw [show x = c by omega]
  | classes a b c hc =>
    rw [Code, Code]
    congr 1
    funext w
    rw [codeAny_iff]
    apply propext
    simp only [List.mem_cons, exists_eq_or_imp, List.not_mem_nil, or_false, exists_eq_left, Code, Mat.one]
    constructor
    · rintro (⟨x, rfl, r, hr, h⟩ | ⟨x, rfl, r, hr, h⟩)
      · exact ⟨x, rfl, (hc x).2 ⟨r, by simp [hr], h⟩⟩
      · exact ⟨x, rfl, (hc x).2 ⟨r, by simp [hr], h⟩⟩
    · rintro ⟨x, rfl, h⟩
      obtain ⟨r, hr, h⟩ := (hc x).1 h
      rcases List.mem_append.1 hr with hr | hr
      · exact .inl ⟨x, rfl, r, hr, h⟩
      · exact .inr ⟨x, rfl, r, hr, h⟩

/-! ## Safe writing -/

theorem safeAll_eq (hs : List Hir) : Hir.safeAll hs = hs.map Hir.safe := by
  induction hs with
  | nil => simp [Hir.safeAll]
  | cons h t ih => simp [Hir.safeAll, ih]

theorem safe_lang (h : Hir) : Lang h.safe = Lang h := by
  induction h using Hir.ind with
  | empty =>
    funext w
    apply propext
    simp only [Hir.safe, Lang, RepKind.allows]
    constructor
    · rintro ⟨n, rfl, h⟩; exact h
    · rintro rfl; exact ⟨0, rfl, rfl⟩
  | rep k h ih =>
    unfold Hir.safe
    split
    · rfl
    · simp only [Lang, LangAny, ih, or_false, or_self]
  | group h ih => simp only [Hir.safe, Lang, ih]
  | concat hs ih =>
    simp only [Hir.safe, Lang]
    induction hs with
    | nil => simp only [Hir.safeAll]
    | cons h t iht =>
      simp only [Hir.safeAll, LangSeq, ih h (by simp), iht fun x hx => ih x (List.mem_cons_of_mem _ hx)]
  | alt hs ih =>
    simp only [Hir.safe, Lang]
    induction hs with
    | nil => simp only [Hir.safeAll]
    | cons h t iht =>
      simp only [Hir.safeAll, LangAny, ih h (by simp), iht fun x hx => ih x (List.mem_cons_of_mem _ hx)]
  | _ => simp only [Hir.safe]

theorem faithfulAll_iff {hs : List Hir} : Hir.faithfulAll hs = true ↔ ∀ h ∈ hs, h.faithful = true := by
  induction hs with
  | nil => simp [Hir.faithfulAll]
  | cons h t ih => simp [Hir.faithfulAll, ih]

theorem safe_faithful (h : Hir) : h.safe.faithful = true := by
  induction h using Hir.ind with
  | empty => decide
  | rep k h ih =>
    unfold Hir.safe
    split
    · assumption
    · cases k <;> simp [Hir.faithful, Hir.faithfulAll, Hir.freeB, Hir.freeE, ih]
  | group h ih => simp [Hir.safe, Hir.faithful, ih]
  | concat hs ih =>
    simp only [Hir.safe, Hir.faithful, faithfulAll_iff, safeAll_eq, List.mem_map]
    rintro _ ⟨h, hh, rfl⟩
    exact ih h hh
  | alt hs ih =>
    simp only [Hir.safe, Hir.faithful, faithfulAll_iff, safeAll_eq, List.mem_map]
    rintro _ ⟨h, hh, rfl⟩
    exact ih h hh
  | _ => simp [Hir.safe, Hir.faithful]

/-- A regex that is matched exactly anyway is left as it is. -/
theorem safe_id (h : Hir) : h.faithful = true → h.safe = h := by
  induction h using Hir.ind with
  | empty => intro h; simp [Hir.faithful] at h
  | rep k h ih => intro hf; unfold Hir.safe; rw [if_pos hf]
  | group h ih => intro hf; simp only [Hir.faithful] at hf; simp [Hir.safe, ih hf]
  | concat hs ih =>
    intro hf
    simp only [Hir.faithful, faithfulAll_iff] at hf
    simp only [Hir.safe, safeAll_eq]
    congr 1
    conv => rhs; rw [← List.map_id hs]
    apply List.map_congr_left
    intro h hh
    exact ih h hh (hf h hh)
  | alt hs ih =>
    intro hf
    simp only [Hir.faithful, faithfulAll_iff] at hf
    simp only [Hir.safe, safeAll_eq]
    congr 1
    conv => rhs; rw [← List.map_id hs]
    apply List.map_congr_left
    intro h hh
    exact ih h hh (hf h hh)
  | _ => intro _; simp [Hir.safe]

theorem okList_iff {hs : List Hir} : Hir.okList hs = true ↔ ∀ h ∈ hs, h.ok = true := by
  induction hs with
  | nil => simp [Hir.okList]
  | cons h t ih => simp [Hir.okList, ih]

theorem safe_ok (h : Hir) : h.ok = true → h.safe.ok = true := by
  induction h using Hir.ind with
  | empty => intro _; decide
  | rep k h ih =>
    intro hf
    unfold Hir.safe
    split
    · exact hf
    · cases k <;> simp_all [Hir.ok, Hir.okList]
  | group h ih => intro hf; simp only [Hir.ok] at hf; simp [Hir.safe, Hir.ok, ih hf]
  | concat hs ih =>
    intro hf
    simp only [Hir.ok, Bool.and_eq_true, okList_iff] at hf
    simp only [Hir.safe, Hir.ok, Bool.and_eq_true, okList_iff, safeAll_eq, List.mem_map]
    refine ⟨by simpa using hf.1, ?_⟩
    rintro _ ⟨h, hh, rfl⟩
    exact ih h hh (hf.2 h hh)
  | alt hs ih =>
    intro hf
    simp only [Hir.ok, okList_iff] at hf
    simp only [Hir.safe, Hir.ok, okList_iff, safeAll_eq, List.mem_map]
    rintro _ ⟨h, hh, rfl⟩
    exact ih h hh (hf h hh)
  | _ => intro hf; simpa [Hir.safe] using hf

theorem safe_has {e : NfaError} (h : Hir) : Has e h.safe ↔ Has e h := by
  induction h using Hir.ind with
  | empty =>
    constructor
    · intro h
      simp only [Hir.safe] at h
      cases h with
      | rep _ _ h => cases h
    · intro h; cases h
  | rep k h ih =>
    unfold Hir.safe
    split
    · rfl
    · constructor
      · intro hh
        cases hh with
        | rep _ _ hh =>
          cases hh with
          | group _ hh =>
            cases hh with
            | alt _ x hx hh =>
              simp only [List.mem_cons, List.not_mem_nil, or_false, or_self] at hx
              subst hx
              exact .rep _ _ (ih.1 hh)
      · intro hh
        cases hh with
        | rep _ _ hh => exact .rep _ _ (.group _ (.alt _ _ (List.mem_cons_self ..) (ih.2 hh)))
  | group h ih =>
    simp only [Hir.safe]
    constructor
    · intro hh; cases hh with | group _ hh => exact .group _ (ih.1 hh)
    · intro hh; cases hh with | group _ hh => exact .group _ (ih.2 hh)
  | concat hs ih =>
    simp only [Hir.safe, safeAll_eq]
    constructor
    · intro hh
      cases hh with
      | concat _ x hx hh =>
        obtain ⟨y, hy, rfl⟩ := List.mem_map.1 hx
        exact .concat _ y hy ((ih y hy).1 hh)
    · intro hh
      cases hh with
      | concat _ x hx hh => exact .concat _ _ (List.mem_map.2 ⟨x, hx, rfl⟩) ((ih x hx).2 hh)
  | alt hs ih =>
    simp only [Hir.safe, safeAll_eq]
    constructor
    · intro hh
      cases hh with
      | alt _ x hx hh =>
        obtain ⟨y, hy, rfl⟩ := List.mem_map.1 hx
        exact .alt _ y hy ((ih y hy).1 hh)
    · intro hh
      cases hh with
      | alt _ x hx hh => exact .alt _ _ (List.mem_map.2 ⟨x, hx, rfl⟩) ((ih x hx).2 hh)
  | _ => simp only [Hir.safe]

/-! ## Unsupported constructs stay where they are -/

theorem has_rep {e : NfaError} {k : RepKind} {h : Hir} : Has e (.rep k h) ↔ Has e h :=
  ⟨fun x => by cases x with | rep _ _ x => exact x, .rep _ _⟩
theorem has_group {e : NfaError} {h : Hir} : Has e (.group h) ↔ Has e h :=
  ⟨fun x => by cases x with | group _ x => exact x, .group _⟩
theorem has_concat {e : NfaError} {hs : List Hir} : Has e (.concat hs) ↔ ∃ h ∈ hs, Has e h :=
  ⟨fun x => by cases x with | concat _ h hh x => exact ⟨h, hh, x⟩, fun ⟨h, hh, x⟩ => .concat _ h hh x⟩
theorem has_alt {e : NfaError} {hs : List Hir} : Has e (.alt hs) ↔ ∃ h ∈ hs, Has e h :=
  ⟨fun x => by cases x with | alt _ h hh x => exact ⟨h, hh, x⟩, fun ⟨h, hh, x⟩ => .alt _ h hh x⟩
theorem has_char {e : NfaError} {c : Nat} : ¬ Has e (.literalU c) := nofun
theorem has_class {e : NfaError} {rs : List (Nat × Nat)} : ¬ Has e (.classU rs) := nofun

theorem exists_insert {P : Hir → Prop} {l r : List Hir} {h : Hir} : (∃ x ∈ l ++ h :: r, P x) ↔ (∃ x ∈ l, P x) ∨ P h ∨ ∃ x ∈ r, P x := by
  simp only [List.mem_append, List.mem_cons]
  constructor
  · rintro ⟨x, hx | rfl | hx, h⟩
    · exact .inl ⟨x, hx, h⟩
    · exact .inr (.inl h)
    · exact .inr (.inr ⟨x, hx, h⟩)
  · rintro (⟨x, hx, h⟩ | h | ⟨x, hx, h⟩)
    · exact ⟨x, .inl hx, h⟩
    · exact ⟨_, .inr (.inl rfl), h⟩
    · exact ⟨x, .inr (.inr hx), h⟩

theorem exists_three {P : Hir → Prop} {l m r : List Hir} : (∃ x ∈ l ++ m ++ r, P x) ↔ (∃ x ∈ l, P x) ∨ (∃ x ∈ m, P x) ∨ ∃ x ∈ r, P x := by
  simp only [List.mem_append]
  constructor
  · rintro ⟨x, (hx | hx) | hx, h⟩
    · exact .inl ⟨x, hx, h⟩
    · exact .inr (.inl ⟨x, hx, h⟩)
    · exact .inr (.inr ⟨x, hx, h⟩)
  · rintro (⟨x, hx, h⟩ | ⟨x, hx, h⟩ | ⟨x, hx, h⟩)
    · exact ⟨x, .inl (.inl hx), h⟩
    · exact ⟨x, .inl (.inr hx), h⟩
    · exact ⟨x, .inr hx, h⟩

theorem Rewr.has {e : NfaError} {h h' : Hir} (r : Rewr h h') : Has e h ↔ Has e h' := by
  induction r with
  | refl h => rfl
  | symm _ ih => exact ih.symm
  | trans _ _ ih1 ih2 => exact ih1.trans ih2
  | inConcat l r _ ih => rw [has_concat, has_concat, exists_insert, exists_insert, ih]
  | inAlt l r _ ih => rw [has_alt, has_alt, exists_insert, exists_insert, ih]
  | times n h =>
    rw [has_rep, has_concat]
    constructor
    · intro x; exact ⟨h, by simp, x⟩
    · rintro ⟨x, hx, hh⟩
      rw [(List.mem_replicate.1 hx).2] at hh
      exact hh
  | flat l m r hm => rw [has_concat, has_concat, exists_insert, exists_three, has_concat]
  | altPerm hp => simp only [has_alt, hp.mem_iff]
  | altFlat l m r => rw [has_alt, has_alt, exists_insert, exists_three, has_alt]
  | factorL x y z t => simp [has_alt, has_concat]; grind
  | factorR x y z t => simp [has_alt, has_concat]; grind
  | char c => exact ⟨fun x => absurd x has_char, fun x => absurd x has_class⟩
  | classes a b c _ => simp [has_alt, has_class]
  | _ => simp_all [has_rep, has_group, has_concat, has_alt]

end Verif.Tok
