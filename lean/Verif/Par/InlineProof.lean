import Verif.Par.Inline
import Verif.Par.Moves

/-!
# Doing without a helper non-terminal: the moves
-/

namespace Verif.Par

variable {R : List PRule} {A start : Nat}

/-- The symbol at a place. -/
def Slot.shape (A : Nat) : Slot → Sym
  | .sym X => X
  | .alt _ => .nt A

/-- A symbol that stays is not `A`, anything else is a rule of `A`. -/
def Slot.Fits (R : List PRule) (A : Nat) : Slot → Prop
  | .sym X => X ≠ .nt A
  | .alt i => ∃ r, R[i]? = some r ∧ r.lhs = A

theorem mem_altsOf {i : Nat} : i ∈ altsOf R A ↔ ∃ r, R[i]? = some r ∧ r.lhs = A := by
  unfold altsOf
  rw [List.mem_filter, List.mem_range]
  constructor
  · rintro ⟨h, h'⟩
    rw [List.getElem?_eq_getElem h] at h' ⊢
    exact ⟨_, rfl, by simpa using h'⟩
  · rintro ⟨r, h, rfl⟩
    exact ⟨(List.getElem?_eq_some_iff.1 h).1, by simp [h]⟩

theorem mem_fillings {l : List Sym} : ∀ {ω : List Slot}, ω ∈ fillings A (altsOf R A) l ↔ ω.map (Slot.shape A) = l ∧ ∀ s ∈ ω, s.Fits R A := by
  induction l with
  | nil =>
    intro ω
    simp only [fillings, List.mem_singleton, List.map_eq_nil_iff]
    exact ⟨fun h => ⟨h, by simp [h]⟩, fun h => h.1⟩
  | cons X l ih =>
    intro ω
    simp only [fillings]
    split
    · next hX =>
      subst hX
      simp only [List.mem_flatMap, List.mem_map]
      constructor
      · rintro ⟨i, hi, ω', h, rfl⟩
        obtain ⟨h1, h2⟩ := ih.1 h
        refine ⟨by simp [Slot.shape, h1], ?_⟩
        intro s hs
        rcases List.mem_cons.1 hs with rfl | hs
        · exact mem_altsOf.1 hi
        · exact h2 s hs
      · rintro ⟨h1, h2⟩
        cases ω with
        | nil => simp at h1
        | cons s ω =>
          simp at h1
          have hs := h2 s (by simp)
          cases s with
          | sym Y => exact absurd h1.1 hs
          | alt i => exact ⟨i, mem_altsOf.2 hs, ω, ih.2 ⟨h1.2, fun s hs => h2 s (by simp [hs])⟩, rfl⟩
    · next hX =>
      simp only [List.mem_map]
      constructor
      · rintro ⟨ω', h, rfl⟩
        obtain ⟨h1, h2⟩ := ih.1 h
        refine ⟨by simp [Slot.shape, h1], ?_⟩
        intro s hs
        rcases List.mem_cons.1 hs with rfl | hs
        · exact hX
        · exact h2 s hs
      · rintro ⟨h1, h2⟩
        cases ω with
        | nil => simp at h1
        | cons s ω =>
          simp at h1
          cases s with
          | sym Y =>
            obtain ⟨h3, h4⟩ := h1
            simp only [Slot.shape] at h3
            subst h3
            exact ⟨ω, ih.2 ⟨h4, fun s hs => h2 s (by simp [hs])⟩, rfl⟩
          | alt i => exact absurd h1.1.symm hX

theorem nodup_flatMap {α β : Type} {f : α → List β} {l : List α} (hl : l.Nodup) (hf : ∀ x ∈ l, (f x).Nodup)
    (h : ∀ x ∈ l, ∀ y ∈ l, ∀ b, b ∈ f x → b ∈ f y → x = y) : (l.flatMap f).Nodup := by
  induction l with
  | nil => simp
  | cons x l ih =>
    rw [List.nodup_cons] at hl
    rw [List.flatMap_cons, List.nodup_append]
    refine ⟨hf x (by simp), ih hl.2 (fun y hy => hf y (by simp [hy])) (fun y hy z hz => h y (by simp [hy]) z (by simp [hz])), ?_⟩
    intro a ha b hb hab
    subst hab
    obtain ⟨y, hy, hb⟩ := List.mem_flatMap.1 hb
    have := h x (by simp) y (by simp [hy]) a ha hb
    subst this
    exact hl.1 hy

theorem nodup_cons_map {α : Type} (s : α) {l : List (List α)} (h : l.Nodup) : (l.map (s :: ·)).Nodup := by
  unfold List.Nodup
  rw [List.pairwise_map]
  exact List.Pairwise.imp (fun h h' => h (List.cons.inj h').2) h

theorem nodup_fillings {alts : List Nat} (ha : alts.Nodup) {l : List Sym} : (fillings A alts l).Nodup := by
  induction l with
  | nil => simp [fillings]
  | cons X l ih =>
    simp only [fillings]
    split
    · refine nodup_flatMap ha (fun i _ => nodup_cons_map _ ih) ?_
      intro i _ j _ b h1 h2
      obtain ⟨w, _, rfl⟩ := List.mem_map.1 h1
      obtain ⟨w', _, h3⟩ := List.mem_map.1 h2
      simp at h3
      exact h3.1.symm
    · exact nodup_cons_map _ ih

/-- The new rules: from which old rule, and how filled. -/
def labels (R : List PRule) (A : Nat) : List (Nat × List Slot) :=
  R.zipIdx.flatMap fun x => if x.1.lhs = A then [] else (fillings A (altsOf R A) x.1.rhs).map (Prod.mk x.2)

theorem nodup_altsOf : (altsOf R A).Nodup := List.Nodup.sublist List.filter_sublist List.nodup_range

theorem mem_labels {j : Nat} {ω : List Slot} : (j, ω) ∈ labels R A ↔
    ∃ r, R[j]? = some r ∧ r.lhs ≠ A ∧ ω.map (Slot.shape A) = r.rhs ∧ ∀ s ∈ ω, s.Fits R A := by
  unfold labels
  rw [List.mem_flatMap]
  constructor
  · rintro ⟨⟨r, k⟩, h1, h2⟩
    rw [List.mem_zipIdx_iff_getElem?] at h1
    simp only at h2
    split at h2
    · simp at h2
    · next hA =>
      obtain ⟨ω', h3, h4⟩ := List.mem_map.1 h2
      cases h4
      exact ⟨r, h1, hA, mem_fillings.1 h3⟩
  · rintro ⟨r, h1, h2, h3⟩
    refine ⟨(r, j), List.mem_zipIdx_iff_getElem?.2 h1, ?_⟩
    simp only [if_neg h2]
    exact List.mem_map.2 ⟨ω, mem_fillings.2 h3, rfl⟩

theorem nodup_labels : (labels R A).Nodup := by
  unfold labels
  refine nodup_flatMap ?_ ?_ ?_
  · have : (R.zipIdx.map Prod.snd).Nodup := by rw [List.zipIdx_map_snd]; exact List.nodup_range'
    unfold List.Nodup at this ⊢
    rw [List.pairwise_map] at this
    exact this.imp fun h h' => h (by rw [h'])
  · intro x _
    split
    · simp
    · unfold List.Nodup
      rw [List.pairwise_map]
      exact List.Pairwise.imp (fun h h' => h (Prod.mk.inj h').2) (nodup_fillings nodup_altsOf)
  · rintro ⟨r, j⟩ h1 ⟨r', j'⟩ h2 b h3 h4
    rw [List.mem_zipIdx_iff_getElem?] at h1 h2
    simp only at h1 h2 h3 h4
    split at h3
    · simp at h3
    · split at h4
      · simp at h4
      · obtain ⟨w, _, rfl⟩ := List.mem_map.1 h3
        obtain ⟨w', _, h5⟩ := List.mem_map.1 h4
        simp at h5
        obtain ⟨rfl, _⟩ := h5
        rw [h1] at h2
        cases h2
        rfl

theorem flatMap_zipIdx {α β : Type} (l : List α) (f : α → List β) (k : Nat) : (l.zipIdx k).flatMap (fun x => f x.1) = l.flatMap f := by
  induction l generalizing k with
  | nil => rfl
  | cons x l ih => simp [List.zipIdx_cons, ih]

theorem flatMap_congr' {α β : Type} {l : List α} {f f' : α → List β} (h : ∀ x ∈ l, f x = f' x) : l.flatMap f = l.flatMap f' := by
  induction l with
  | nil => rfl
  | cons x l ih => rw [List.flatMap_cons, List.flatMap_cons, h x (by simp), ih fun y hy => h y (by simp [hy])]

theorem inlinePlain_map : (inlinePlain R A).map some =
    (labels R A).map fun l => R[l.1]?.map fun r => (⟨r.lhs, l.2.flatMap (Slot.flat R)⟩ : PRule) := by
  unfold inlinePlain labels
  rw [← flatMap_zipIdx _ _ 0, List.map_flatMap, List.map_flatMap]
  apply flatMap_congr'
  rintro ⟨r, j⟩ h
  rw [List.mem_zipIdx_iff_getElem?] at h
  simp only at h ⊢
  split
  · rfl
  · simp [List.map_map, Function.comp_def, h]

variable {N T E : Type}

theorem inlineRules_map {rules : List (Rule N T E)} : (inlineRules rules A).map some =
    (labels (rules.map Rule.plain) A).map fun l => rules[l.1]?.map fun r => r.inlined rules l.2 := by
  unfold inlineRules labels
  rw [← flatMap_zipIdx _ _ 0, List.zipIdx_map, List.flatMap_map, List.map_flatMap, List.map_flatMap]
  apply flatMap_congr'
  rintro ⟨r, j⟩ h
  rw [List.mem_zipIdx_iff_getElem?] at h
  simp only [Prod.map] at h ⊢
  show List.map some (if r.lhs = A then _ else _) = List.map _ (if r.lhs = A then _ else _)
  split
  · rfl
  · simp [List.map_map, Function.comp_def, h, Rule.plain]

theorem inlineRules_plain {rules : List (Rule N T E)} : (inlineRules rules A).map Rule.plain = inlinePlain (rules.map Rule.plain) A := by
  unfold inlineRules inlinePlain
  rw [List.map_flatMap, List.flatMap_map]
  apply flatMap_congr'
  intro r _
  show List.map Rule.plain (if r.lhs = A then _ else _) = if r.lhs = A then _ else _
  split
  · rfl
  · simp [List.map_map, Function.comp_def, Rule.plain, Rule.inlined]

theorem inlinePlain_get {k : Nat} {r' : PRule} (h : (inlinePlain R A)[k]? = some r') :
    ∃ j ω r, (labels R A)[k]? = some (j, ω) ∧ R[j]? = some r ∧ r.lhs ≠ A ∧ ω.map (Slot.shape A) = r.rhs ∧ (∀ s ∈ ω, s.Fits R A) ∧
      r' = ⟨r.lhs, ω.flatMap (Slot.flat R)⟩ := by
  have h1 : ((inlinePlain R A).map some)[k]? = some (some r') := by rw [List.getElem?_map, h]; rfl
  rw [inlinePlain_map, List.getElem?_map, Option.map_eq_some_iff] at h1
  obtain ⟨⟨j, ω⟩, h2, h3⟩ := h1
  obtain ⟨r, h4, h5, h6, h7⟩ := mem_labels.1 (List.mem_of_getElem? h2)
  refine ⟨j, ω, r, h2, h4, h5, h6, h7, ?_⟩
  simp only [h4, Option.map_some, Option.some.injEq] at h3
  exact h3.symm

theorem get_idxOf {l : List (Nat × List Slot)} (hn : l.Nodup) {k : Nat} {x : Nat × List Slot} (h : l[k]? = some x) : l.idxOf x = k := by
  induction l generalizing k with
  | nil => simp at h
  | cons y l ih =>
    rw [List.nodup_cons] at hn
    rw [List.idxOf_cons]
    cases k with
    | zero =>
      simp at h
      subst h
      simp
    | succ k =>
      simp at h
      have hne : y ≠ x := by
        rintro rfl
        exact hn.1 (List.mem_of_getElem? h)
      have : (y == x) = false := by simpa using hne
      simp only [this, cond_false, ih hn.2 h]

/-! ## Moves of the new grammar from moves of the old -/

/-- What an old move does to the places, and the new moves. -/
def stepSlots (R : List PRule) (A : Nat) (σ : List Slot) : Move Nat → List Slot × List (Move Nat)
  | .read a => (σ ++ [.sym (.tm a)], [.read a])
  | .fold j =>
    match R[j]? with
    | none => (σ, [])
    | some r =>
      if r.lhs = A then (σ.take (σ.length - r.rhs.length) ++ [.alt j], [])
      else (σ.take (σ.length - r.rhs.length) ++ [.sym (.nt r.lhs)], [.fold ((labels R A).idxOf (j, σ.drop (σ.length - r.rhs.length)))])

/-- The new moves. -/
def imageMoves (R : List PRule) (A : Nat) : List Slot → List (Move Nat) → List (Move Nat)
  | _, [] => []
  | σ, x :: P => (stepSlots R A σ x).2 ++ imageMoves R A (stepSlots R A σ x).1 P

theorem image_append (σ : List Slot) (D : List (Move Nat)) : ∃ σ', ∀ Q, imageMoves R A σ (D ++ Q) = imageMoves R A σ D ++ imageMoves R A σ' Q := by
  induction D generalizing σ with
  | nil => exact ⟨σ, fun Q => rfl⟩
  | cons x D ih =>
    obtain ⟨σ', h⟩ := ih (stepSlots R A σ x).1
    exact ⟨σ', fun Q => by simp [imageMoves, h]⟩

theorem inputOf_image (σ : List Slot) (D : List (Move Nat)) : inputOf (imageMoves R A σ D) = inputOf D := by
  induction D generalizing σ with
  | nil => rfl
  | cons x D ih =>
    rw [imageMoves, inputOf_append, ih]
    cases x with
    | read a => rfl
    | fold j =>
      simp only [stepSlots, inputOf]
      split
      · rfl
      · split <;> rfl

theorem image_fold {σ ω : List Slot} {j : Nat} {r : PRule} {P : List (Move Nat)} (hr : R[j]? = some r) (hω : ω.map (Slot.shape A) = r.rhs) :
    imageMoves R A (σ ++ ω) (.fold j :: P) = if r.lhs = A then imageMoves R A (σ ++ [.alt j]) P
      else .fold ((labels R A).idxOf (j, ω)) :: imageMoves R A (σ ++ [.sym (.nt r.lhs)]) P := by
  have hl : r.rhs.length = ω.length := by rw [← hω]; simp
  simp only [imageMoves, stepSlots, hr]
  split <;> simp [hl]

theorem flat_shape {S : Nat} (hA : Helper R S A) {i : Nat} {r : PRule} (hr : R[i]? = some r) (hl : r.lhs = A) : ∀ s ∈ r.rhs.map Slot.sym, s.Fits R A := by
  intro s hs
  obtain ⟨X, hX, rfl⟩ := List.mem_map.1 hs
  rintro rfl
  exact hA.2 r (List.mem_of_getElem? hr) hl hX

theorem shape_sym (l : List Sym) : (l.map Slot.sym).map (Slot.shape A) = l := by
  rw [List.map_map]
  exact List.map_id'' (fun _ => rfl) l

theorem flat_sym (l : List Sym) : (l.map Slot.sym).flatMap (Slot.flat R) = l := by
  induction l with
  | nil => rfl
  | cons X l ih => simp [Slot.flat] at ih ⊢; exact ih

/-- Reductions to `A` on top of the stack are left for later. -/
theorem unfold_top {S : Nat} (hA : Helper R S A) {X : Sym} (σ : List Slot) : ∀ {γ : List Sym} {P : List (Move Nat)},
    (∀ s ∈ σ, s.Fits R A) → σ.flatMap (Slot.flat R) = γ ++ [X] → Works (Numbered R) S (σ.map (Slot.shape A)) P →
    ∃ σ' P', (∀ s ∈ σ', s.Fits R A) ∧ σ'.flatMap (Slot.flat R) = γ ∧ Works (Numbered R) S (σ'.map (Slot.shape A) ++ [X]) P' ∧
      imageMoves R A (σ' ++ [.sym X]) P' = imageMoves R A σ P := by
  induction σ using snoc_induction with
  | hnil => intro γ P _ h; simp at h
  | hsnoc σ s ih =>
    intro γ P hfit hflat hw
    have hfσ : ∀ s ∈ σ, s.Fits R A := fun s hs => hfit s (by simp [hs])
    cases s with
    | sym Y =>
      simp only [List.flatMap_append, List.flatMap_cons, List.flatMap_nil, Slot.flat, List.append_nil] at hflat
      obtain ⟨h1, h2⟩ := List.append_inj' hflat rfl
      cases h2
      exact ⟨σ, P, hfσ, h1, by simpa [Slot.shape] using hw, rfl⟩
    | alt i =>
      obtain ⟨r, hr, hl⟩ := hfit (.alt i) (by simp)
      have hwi : Works (Numbered R) S (σ.map (Slot.shape A) ++ r.rhs) (.fold i :: P) :=
        .fold _ i r P hr (by simpa [Slot.shape, hl] using hw)
      have himg : imageMoves R A (σ ++ r.rhs.map Slot.sym) (.fold i :: P) = imageMoves R A (σ ++ [.alt i]) P := by
        rw [image_fold hr (shape_sym _), if_pos hl]
      have hflat' : σ.flatMap (Slot.flat R) ++ r.rhs = γ ++ [X] := by simpa [Slot.flat, hr] using hflat
      rcases List.eq_nil_or_concat r.rhs with hn | ⟨ρ, Y, hn⟩
      · rw [hn] at hwi himg hflat'
        simp only [List.append_nil, List.map_nil] at hwi himg hflat'
        obtain ⟨σ', P', k1, k2, k3, k4⟩ := ih hfσ hflat' hwi
        exact ⟨σ', P', k1, k2, k3, k4.trans himg⟩
      · rw [List.concat_eq_append] at hn
        rw [hn, ← List.append_assoc] at hflat'
        obtain ⟨h1, h2⟩ := List.append_inj' hflat' rfl
        cases h2
        refine ⟨σ ++ ρ.map Slot.sym, .fold i :: P, ?_, ?_, ?_, ?_⟩
        · intro s hs
          rcases List.mem_append.1 hs with hs | hs
          · exact hfσ s hs
          · refine flat_shape hA hr hl s ?_
            rw [hn]
            simp at hs ⊢
            exact .inl hs
        · rw [List.flatMap_append, flat_sym, h1]
        · rw [hn] at hwi
          rw [List.map_append, shape_sym]
          simpa using hwi
        · rw [hn] at himg
          rw [← himg]
          simp

theorem unfold_all {S : Nat} (σ : List Slot) : ∀ {P : List (Move Nat)},
    (∀ s ∈ σ, s.Fits R A) → σ.flatMap (Slot.flat R) = [] → Works (Numbered R) S (σ.map (Slot.shape A)) P →
    ∃ P', Works (Numbered R) S [] P' ∧ imageMoves R A [] P' = imageMoves R A σ P := by
  induction σ using snoc_induction with
  | hnil => intro P _ _ hw; exact ⟨P, hw, rfl⟩
  | hsnoc σ s ih =>
    intro P hfit hflat hw
    have hfσ : ∀ s ∈ σ, s.Fits R A := fun s hs => hfit s (by simp [hs])
    rw [List.flatMap_append, List.append_eq_nil_iff] at hflat
    cases s with
    | sym Y => simp [Slot.flat] at hflat
    | alt i =>
      obtain ⟨r, hr, hl⟩ := hfit (.alt i) (by simp)
      have hn : r.rhs = [] := by simpa [Slot.flat, hr] using hflat.2
      have hwi : Works (Numbered R) S (σ.map (Slot.shape A) ++ r.rhs) (.fold i :: P) :=
        .fold _ i r P hr (by simpa [Slot.shape, hl] using hw)
      have himg : imageMoves R A (σ ++ r.rhs.map Slot.sym) (.fold i :: P) = imageMoves R A (σ ++ [.alt i]) P := by
        rw [image_fold hr (shape_sym _), if_pos hl]
      rw [hn] at hwi himg
      simp only [List.append_nil, List.map_nil] at hwi himg
      obtain ⟨P', k1, k2⟩ := ih hfσ hflat.1 hwi
      exact ⟨P', k1, k2.trans himg⟩

/-- The moves of the new grammar are those of the old without the reductions to `A`. -/
theorem works_lift {S : Nat} (hA : Helper R S A) {γ : List Sym} {P : List (Move Nat)} (h : Works (Numbered (inlinePlain R A)) S γ P) :
    ∃ σ P', (∀ s ∈ σ, s.Fits R A) ∧ σ.flatMap (Slot.flat R) = γ ∧ Works (Numbered R) S (σ.map (Slot.shape A)) P' ∧ imageMoves R A σ P' = P := by
  induction h with
  | done =>
    refine ⟨[.sym (.nt S)], [], ?_, rfl, .done, rfl⟩
    intro s hs
    simp at hs
    subst hs
    intro h
    cases h
    exact hA.1 rfl
  | read γ a P _ ih =>
    obtain ⟨σ, P', h1, h2, h3, h4⟩ := ih
    obtain ⟨σ', P'', k1, k2, k3, k4⟩ := unfold_top hA σ h1 h2 h3
    refine ⟨σ', .read a :: P'', k1, k2, .read _ _ _ k3, ?_⟩
    show .read a :: imageMoves R A (σ' ++ [.sym (.tm a)]) P'' = _
    rw [k4, h4]
  | fold γ k r' P hk _ ih =>
    obtain ⟨σ, P', h1, h2, h3, h4⟩ := ih
    obtain ⟨σ', P'', k1, k2, k3, k4⟩ := unfold_top hA σ h1 h2 h3
    obtain ⟨j, ω, r, g1, g2, g3, g4, g5, rfl⟩ := inlinePlain_get hk
    refine ⟨σ' ++ ω, .fold j :: P'', ?_, by rw [List.flatMap_append, k2], ?_, ?_⟩
    · intro s hs
      rcases List.mem_append.1 hs with hs | hs
      · exact k1 s hs
      · exact g5 s hs
    · rw [List.map_append, g4]
      exact .fold _ j r _ g2 k3
    · rw [image_fold g2 g4, if_neg g3, get_idxOf nodup_labels g1, k4, h4]

theorem works_lift_nil {S : Nat} (hA : Helper R S A) {P : List (Move Nat)} (h : Works (Numbered (inlinePlain R A)) S [] P) :
    ∃ P', Works (Numbered R) S [] P' ∧ imageMoves R A [] P' = P := by
  obtain ⟨σ, P', h1, h2, h3, h4⟩ := works_lift hA h
  obtain ⟨P'', k1, k2⟩ := unfold_all σ h1 h2 h3
  exact ⟨P'', k1, k2.trans h4⟩

/-! ## The next terminal still decides -/

/-- Where two sequences part. -/
theorem part {α : Type} (P Q : List α) : ∃ D P' Q', P = D ++ P' ∧ Q = D ++ Q' ∧ (P'.head? = Q'.head? → P' = [] ∧ Q' = []) := by
  induction P generalizing Q with
  | nil => exact ⟨[], [], Q, rfl, rfl, fun h => by cases Q <;> simp_all⟩
  | cons x P ih =>
    cases Q with
    | nil => exact ⟨[], _, _, rfl, rfl, fun h => by simp at h⟩
    | cons y Q =>
      by_cases h : x = y
      · subst h
        obtain ⟨D, P', Q', h1, h2, h3⟩ := ih Q
        exact ⟨x :: D, P', Q', by rw [h1]; rfl, by rw [h2]; rfl, h3⟩
      · exact ⟨[], _, _, rfl, rfl, fun h' => by simp at h'; exact absurd h' h⟩

theorem inline_decided {S : Nat} (hA : Helper R S A) (hd : Decided (Numbered R) S) : Decided (Numbered (inlinePlain R A)) S := by
  intro D' Q₁' Q₂' h1 h2 hi
  obtain ⟨P₁, w1, e1⟩ := works_lift_nil hA h1
  obtain ⟨P₂, w2, e2⟩ := works_lift_nil hA h2
  obtain ⟨D, Q₁, Q₂, rfl, rfl, hpart⟩ := part P₁ P₂
  by_cases heq : Q₁.head? = Q₂.head?
  · obtain ⟨rfl, rfl⟩ := hpart heq
    rw [e1] at e2
    rw [List.append_cancel_left e2]
  · have hne : (inputOf Q₁).head? ≠ (inputOf Q₂).head? := fun h => heq (hd D Q₁ Q₂ w1 w2 h)
    -- the old sequences part behind the next terminal
    have i1 : inputOf D ++ inputOf Q₁ = inputOf D' ++ inputOf Q₁' := by
      rw [← inputOf_append, ← inputOf_append, ← e1, inputOf_image]
    have i2 : inputOf D ++ inputOf Q₂ = inputOf D' ++ inputOf Q₂' := by
      rw [← inputOf_append, ← inputOf_append, ← e2, inputOf_image]
    have hlt : (inputOf D').length < (inputOf D).length := by
      apply Classical.byContradiction
      intro hge
      apply hne
      have j1 : (inputOf Q₁).head? = (inputOf D' ++ inputOf Q₁')[(inputOf D).length]? := by
        rw [← i1, List.getElem?_append_right (Nat.le_refl _), Nat.sub_self, List.head?_eq_getElem?]
      have j2 : (inputOf Q₂).head? = (inputOf D' ++ inputOf Q₂')[(inputOf D).length]? := by
        rw [← i2, List.getElem?_append_right (Nat.le_refl _), Nat.sub_self, List.head?_eq_getElem?]
      rw [j1, j2]
      by_cases hl : (inputOf D).length < (inputOf D').length
      · rw [List.getElem?_append_left hl, List.getElem?_append_left hl]
      · have : (inputOf D).length = (inputOf D').length := by omega
        rw [this, List.getElem?_append_right (Nat.le_refl _), List.getElem?_append_right (Nat.le_refl _), Nat.sub_self,
          ← List.head?_eq_getElem?, ← List.head?_eq_getElem?]
        exact hi
    obtain ⟨σ', hσ⟩ := image_append (R := R) (A := A) [] D
    rw [hσ] at e1 e2
    -- a common part that is longer
    have hpre : ∀ (a b c d : List (Move Nat)), a ++ b = c ++ d → (inputOf c).length < (inputOf a).length → ∃ x e, a = c ++ x :: e ∧ d = x :: e ++ b := by
      intro a b c d h hl
      rcases List.append_eq_append_iff.1 h with ⟨as, k1, k2⟩ | ⟨cs, k1, k2⟩
      · rw [k1, inputOf_append] at hl
        simp at hl
        omega
      · cases cs with
        | nil => rw [k1] at hl; simp at hl
        | cons x e => exact ⟨x, e, k1, k2⟩
    rw [← inputOf_image (R := R) (A := A) [] D] at hlt
    obtain ⟨x, e, k1, k2⟩ := hpre _ _ _ _ e1 hlt
    obtain ⟨x', e', k3, k4⟩ := hpre _ _ _ _ e2 hlt
    rw [k1] at k3
    have := List.append_cancel_left k3
    cases this
    rw [k2, k4]
    rfl

end Verif.Par
