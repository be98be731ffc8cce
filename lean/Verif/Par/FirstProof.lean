import Verif.Par.MapProof
import Verif.Par.GramProof

/-!
# Nullable symbols and FIRST sets: the loops compute them
-/

namespace Verif.Par

/-- A filter with a stronger test keeps strictly fewer elements if a witness is lost. -/
theorem filter_lt {α : Type} {U : List α} {P Q : α → Bool} (h : ∀ x, P x = true → Q x = true) {x : α} (hx : x ∈ U)
    (hq : Q x = true) (hp : P x = false) : (U.filter P).length < (U.filter Q).length := by
  induction U with
  | nil => cases hx
  | cons a U ih =>
    have hle : ∀ V : List α, (V.filter P).length ≤ (V.filter Q).length := by
      intro V
      induction V with
      | nil => simp
      | cons b V ihV =>
        by_cases hb : P b = true
        · simp [hb, h b hb, ihV]
        · by_cases hb' : Q b = true
          · simp [hb, hb']; omega
          · simp [hb, hb', ihV]
    rcases List.mem_cons.1 hx with rfl | hx
    · simp [hq, hp]
      have := hle U
      omega
    · have := ih hx
      by_cases hb : P a = true
      · simp [hb, h a hb, this]
      · by_cases hb' : Q a = true
        · simp [hb, hb']; omega
        · simp [hb, hb', this]

/-! ## Nullable -/

theorem nullPass_spec (R : List PRule) (st : List Sym × Bool) :
    (∀ X ∈ st.1, X ∈ (nullPass R st).1) ∧
    ((nullPass R st).2 = false → st.2 = false ∧ (nullPass R st).1 = st.1 ∧
      ∀ r ∈ R, Sym.nt r.lhs ∈ st.1 ∨ ∃ X ∈ r.rhs, X ∉ st.1) ∧
    ((nullPass R st).2 = true → st.2 = true ∨ ∃ r ∈ R, Sym.nt r.lhs ∉ st.1 ∧ Sym.nt r.lhs ∈ (nullPass R st).1) := by
  unfold nullPass
  induction R generalizing st with
  | nil => simp
  | cons r R ih =>
    rw [List.foldl_cons]
    by_cases h1 : Sym.nt r.lhs ∈ st.1
    · rw [if_pos h1]
      obtain ⟨h2, h3, h4⟩ := ih st
      refine ⟨h2, ?_, ?_⟩
      · intro h
        obtain ⟨a, b, c⟩ := h3 h
        refine ⟨a, b, ?_⟩
        intro r' hr'
        rcases List.mem_cons.1 hr' with rfl | hr'
        · exact Or.inl h1
        · exact c r' hr'
      · intro h
        rcases h4 h with h | ⟨r', hr', h⟩
        · exact Or.inl h
        · exact Or.inr ⟨r', by simp [hr'], h⟩
    · rw [if_neg h1]
      by_cases h5 : (r.rhs.all fun X => decide (X ∈ st.1)) = true
      · rw [if_pos h5]
        obtain ⟨h2, h3, h4⟩ := ih (OSet.insert (.nt r.lhs) st.1, true)
        refine ⟨fun X hX => h2 X (by simp [hX]), ?_, ?_⟩
        · intro h
          have := (h3 h).1
          cases this
        · intro _
          right
          exact ⟨r, by simp, h1, h2 _ (by simp)⟩
      · rw [if_neg h5]
        obtain ⟨h2, h3, h4⟩ := ih st
        refine ⟨h2, ?_, ?_⟩
        · intro h
          obtain ⟨a, b, c⟩ := h3 h
          refine ⟨a, b, ?_⟩
          intro r' hr'
          rcases List.mem_cons.1 hr' with rfl | hr'
          · right; simpa using h5
          · exact c r' hr'
        · intro h
          rcases h4 h with h | ⟨r', hr', h⟩
          · exact Or.inl h
          · exact Or.inr ⟨r', by simp [hr'], h⟩

/-- Only nullable non-terminals. -/
def NullSound (R : List PRule) (null : List Sym) : Prop := ∀ X ∈ null, Gen R [X] []

theorem gen_nil_of_all {R : List PRule} {l : List Sym} (h : ∀ X ∈ l, Gen R [X] []) : Gen R l [] := by
  induction l with
  | nil => exact .nil
  | cons X l ih =>
    have := (h X (by simp)).append (ih (fun Y hY => h Y (by simp [hY])))
    simpa using this

theorem nullPass_sound {R : List PRule} (R0 : List PRule) (hR : ∀ r ∈ R0, r ∈ R) (st : List Sym × Bool) (h : NullSound R st.1) :
    NullSound R (nullPass R0 st).1 := by
  unfold nullPass
  induction R0 generalizing st with
  | nil => exact h
  | cons r R0 ih =>
    rw [List.foldl_cons]
    apply ih (fun r' hr' => hR r' (by simp [hr']))
    split
    · exact h
    · split
      · rename_i h5
        intro X hX
        rcases OSet.mem_insert.1 hX with rfl | hX
        · refine (Gen.rule (hR r (by simp))).trans (gen_nil_of_all ?_)
          intro Y hY
          refine h Y ?_
          rw [List.all_eq_true] at h5
          simpa using h5 Y hY
        · exact h X hX
      · exact h

/-- `null` is the set of nullable symbols. -/
def NullExact (R : List PRule) (null : List Sym) : Prop := ∀ X, X ∈ null ↔ Gen R [X] []

theorem null_complete {R : List PRule} {null : List Sym} (h : ∀ r ∈ R, Sym.nt r.lhs ∈ null ∨ ∃ X ∈ r.rhs, X ∉ null)
    {l w : List Sym} (hg : Gen R l w) (hw : w = []) : ∀ X ∈ l, X ∈ null := by
  induction hg with
  | nil => simp
  | keep X l w _ _ => cases hw
  | expand r l u v hr _ _ ih1 ih2 =>
    obtain ⟨rfl, rfl⟩ := List.append_eq_nil_iff.1 hw
    intro X hX
    rcases List.mem_cons.1 hX with rfl | hX
    · rcases h r hr with h | ⟨Y, hY, hn⟩
      · exact h
      · exact absurd (ih1 rfl Y hY) hn
    · exact ih2 rfl X hX

theorem nullLoop_sound {R : List PRule} {fuel : Nat} {null res : List Sym} (h : NullSound R null)
    (hr : nullLoop R fuel null = .ok res) : NullExact R res := by
  induction fuel generalizing null with
  | zero => cases hr
  | succ f ih =>
    unfold nullLoop at hr
    simp only at hr
    have hs := nullPass_sound R (fun _ h => h) (null, false) h
    split at hr
    · exact ih hs hr
    · rename_i hf
      cases hr
      obtain ⟨_, h2, h3⟩ := (nullPass_spec R (null, false)).2.1 (by simpa using hf)
      intro X
      refine ⟨hs X, ?_⟩
      intro hg
      have := null_complete h3 hg rfl X (by simp)
      rw [h2]
      exact this

theorem nullLoop_fuel {R : List PRule} {fuel : Nat} {null : List Sym}
    (h : (R.filter fun r => decide (Sym.nt r.lhs ∉ null)).length < fuel) : ∃ res, nullLoop R fuel null = .ok res := by
  induction fuel generalizing null with
  | zero => omega
  | succ f ih =>
    unfold nullLoop
    simp only
    split
    · rename_i hf
      apply ih
      obtain ⟨h1, _, h3⟩ := nullPass_spec R (null, false)
      rcases h3 hf with h3 | ⟨r, hr, h4, h5⟩
      · cases h3
      · have := filter_lt (U := R) (P := fun r => decide (Sym.nt r.lhs ∉ (nullPass R (null, false)).1))
          (Q := fun r => decide (Sym.nt r.lhs ∉ null)) (x := r) ?_ hr (by simpa using h4) (by simpa using h5)
        · omega
        · intro x hx
          simp only [decide_eq_true_eq] at hx ⊢
          exact fun hn => hx (h1 _ hn)
    · exact ⟨_, rfl⟩

theorem calcNull_exact {R : List PRule} {fuel : Nat} {res : List Sym} (h : calcNull fuel R = .ok res) : NullExact R res :=
  nullLoop_sound (fun _ h => absurd h (by simp)) h

theorem calcNull_total {R : List PRule} {fuel : Nat} (h : R.length < fuel) : ∃ res, calcNull fuel R = .ok res :=
  nullLoop_fuel (Nat.lt_of_le_of_lt (List.length_filter_le _ _) h)

theorem nullLoop_no_panic {R : List PRule} {fuel : Nat} {null : List Sym} : nullLoop R fuel null ≠ .panic := by
  induction fuel generalizing null with
  | zero => simp [nullLoop]
  | succ f ih =>
    unfold nullLoop
    simp only
    split
    · exact ih
    · simp

/-! ## FIRST -/

/-- `m` has only terminals that can come first. -/
def FirstSound (R : List PRule) (m : First) : Prop := ∀ X s, get X m = some s → ∀ a ∈ s, ∃ ρ, Gen R [X] (.tm a :: ρ)

/-- The FIRST set of a symbol as looked up in the map. -/
def look (m : First) (X : Sym) : List Term := (get X m).getD []

theorem look_entry (m : First) (X Y : Sym) (f : List Term → List Term) :
    look (entry X [] f m) Y = if Y = X then f (look m X) else look m Y := by
  unfold look
  rw [get_entry]
  split <;> rfl

theorem FirstSound.look {R : List PRule} {m : First} (h : FirstSound R m) {X : Sym} {a : Term} (ha : a ∈ look m X) :
    ∃ ρ, Gen R [X] (.tm a :: ρ) := by
  unfold Par.look at ha
  cases hg : get X m with
  | none => simp [hg] at ha
  | some s => exact h X s hg a (by simpa [hg] using ha)

theorem firstSound_of_look {R : List PRule} {m : First} (h : ∀ X, ∀ a ∈ look m X, ∃ ρ, Gen R [X] (.tm a :: ρ)) : FirstSound R m := by
  intro X s hs a ha
  exact h X a (by simp [look, hs, ha])

/-- Effect of the initialisation: exactly the terminals in the rules, each with itself. -/
theorem firstInit_rhs (l : List Sym) (m : First) (Y : Sym) (a : Term) :
    (a ∈ look (l.foldl (fun m X => match X with | .tm t => entry X [] (OSet.insert t) m | .nt _ => m) m) Y ↔
      a ∈ look m Y ∨ (Y = .tm a ∧ Y ∈ l)) := by
  induction l generalizing m with
  | nil => simp
  | cons X l ih =>
    rw [List.foldl_cons, ih]
    cases X with
    | nt n =>
      simp only
      constructor
      · rintro (h | ⟨rfl, h⟩)
        · exact Or.inl h
        · exact Or.inr ⟨rfl, by simp [h]⟩
      · rintro (h | ⟨rfl, h⟩)
        · exact Or.inl h
        · exact Or.inr ⟨rfl, by simpa using h⟩
    | tm t =>
      simp only [look_entry]
      by_cases hY : Y = .tm t
      · subst hY
        simp only [if_true, OSet.mem_insert, List.mem_cons, true_or, and_true]
        constructor
        · rintro ((rfl | h) | ⟨h, _⟩)
          · exact Or.inr rfl
          · exact Or.inl h
          · exact Or.inr h
        · rintro (h | h)
          · exact Or.inl (Or.inr h)
          · cases h; exact Or.inl (Or.inl rfl)
      · simp [hY]

theorem firstInit_spec (R : List PRule) (Y : Sym) (a : Term) : a ∈ look (firstInit R) Y ↔ Y = .tm a ∧ ∃ r ∈ R, Y ∈ r.rhs := by
  unfold firstInit
  have : ∀ m : First, a ∈ look (R.foldl (fun m r => r.rhs.foldl (fun m X => match X with
      | .tm t => entry X [] (OSet.insert t) m | .nt _ => m) m) m) Y ↔ a ∈ look m Y ∨ (Y = .tm a ∧ ∃ r ∈ R, Y ∈ r.rhs) := by
    induction R with
    | nil => simp
    | cons r R ih =>
      intro m
      rw [List.foldl_cons, ih, firstInit_rhs]
      constructor
      · rintro ((h | ⟨h1, h2⟩) | ⟨h1, r', hr', h2⟩)
        · exact Or.inl h
        · exact Or.inr ⟨h1, r, by simp, h2⟩
        · exact Or.inr ⟨h1, r', by simp [hr'], h2⟩
      · rintro (h | ⟨h1, r', hr', h2⟩)
        · exact Or.inl (Or.inl h)
        · rcases List.mem_cons.1 hr' with rfl | hr'
          · exact Or.inl (Or.inr ⟨h1, h2⟩)
          · exact Or.inr ⟨h1, r', hr', h2⟩
  refine (this []).trans ?_
  simp [look, get]

/-- What `firstOfRhs` collects: FIRST of a symbol whose predecessors are all nullable. -/
theorem firstOfRhs_spec (null : List Sym) (m : First) (l : List Sym) (upd : List Term) (a : Term) :
    a ∈ firstOfRhs null m l upd ↔ a ∈ upd ∨ ∃ x X y, l = x ++ X :: y ∧ (∀ Z ∈ x, Z ∈ null) ∧ a ∈ look m X := by
  induction l generalizing upd with
  | nil => simp [firstOfRhs]
  | cons X l ih =>
    unfold firstOfRhs
    simp only
    by_cases hX : X ∈ null
    · rw [if_pos hX, ih]
      simp only [OSet.mem_union]
      constructor
      · rintro ((h | h) | ⟨x, Y, y, rfl, h1, h2⟩)
        · exact Or.inl h
        · exact Or.inr ⟨[], X, l, rfl, by simp, h⟩
        · exact Or.inr ⟨X :: x, Y, y, rfl, by simpa using ⟨hX, h1⟩, h2⟩
      · rintro (h | ⟨x, Y, y, he, h1, h2⟩)
        · exact Or.inl (Or.inl h)
        · cases x with
          | nil => simp at he; obtain ⟨rfl, rfl⟩ := he; exact Or.inl (Or.inr h2)
          | cons Z x =>
            simp at he; obtain ⟨rfl, rfl⟩ := he
            exact Or.inr ⟨x, Y, y, rfl, fun W hW => h1 W (by simp [hW]), h2⟩
    · rw [if_neg hX]
      simp only [OSet.mem_union]
      constructor
      · rintro (h | h)
        · exact Or.inl h
        · exact Or.inr ⟨[], X, l, rfl, by simp, h⟩
      · rintro (h | ⟨x, Y, y, he, h1, h2⟩)
        · exact Or.inl h
        · cases x with
          | nil => simp at he; obtain ⟨rfl, rfl⟩ := he; exact Or.inr h2
          | cons Z x =>
            simp at he; obtain ⟨rfl, rfl⟩ := he
            exact absurd (h1 X (by simp)) hX

/-- Closed under the rules: what one more pass would add is there. -/
def FirstClosed (null : List Sym) (R : List PRule) (m : First) : Prop :=
  ∀ r ∈ R, ∀ a ∈ firstOfRhs null m r.rhs [], a ∈ look m (.nt r.lhs)

theorem firstPass_spec (null : List Sym) (R : List PRule) (st : First × Bool) :
    (∀ X, ∀ a ∈ look st.1 X, a ∈ look (firstPass null R st).1 X) ∧
    ((firstPass null R st).2 = false → st.2 = false ∧ (∀ X a, a ∈ look (firstPass null R st).1 X → a ∈ look st.1 X) ∧
      FirstClosed null R st.1) ∧
    ((firstPass null R st).2 = true → st.2 = true ∨
      ∃ r ∈ R, ∃ a, a ∉ look st.1 (.nt r.lhs) ∧ a ∈ look (firstPass null R st).1 (.nt r.lhs)) := by
  unfold firstPass
  induction R generalizing st with
  | nil => simp [FirstClosed]
  | cons r R ih =>
    rw [List.foldl_cons]
    simp only
    generalize hupd : firstOfRhs null st.1 r.rhs [] = upd
    have hlook : ∀ X, look (entry (.nt r.lhs) [] (fun s => (insertAll s upd).1) st.1) X =
        if X = .nt r.lhs then OSet.union (look st.1 (.nt r.lhs)) upd else look st.1 X := by
      intro X
      rw [look_entry]
      simp only [insertAll_fst]
    have hmono : ∀ X, ∀ a ∈ look st.1 X, a ∈ look (entry (.nt r.lhs) [] (fun s => (insertAll s upd).1) st.1) X := by
      intro X a ha
      rw [hlook]
      split
      · rename_i hX; subst hX; simp [ha]
      · exact ha
    have hflag : (insertAll ((get (.nt r.lhs) st.1).getD []) upd).2 = true ↔ ∃ x ∈ upd, x ∉ look st.1 (.nt r.lhs) :=
      insertAll_snd _ _
    obtain ⟨h2, h3, h4⟩ := ih (entry (.nt r.lhs) [] (fun s => (insertAll s upd).1) st.1,
      st.2 || (insertAll ((get (.nt r.lhs) st.1).getD []) upd).2)
    refine ⟨fun X a ha => h2 X a (hmono X a ha), ?_, ?_⟩
    · intro h
      obtain ⟨a, b, c⟩ := h3 h
      simp only [Bool.or_eq_false_iff] at a
      have hsub : ∀ x ∈ upd, x ∈ look st.1 (.nt r.lhs) := by
        intro x hx
        apply Classical.byContradiction
        intro hn
        have := hflag.2 ⟨x, hx, hn⟩
        rw [a.2] at this
        cases this
      have hback : ∀ X a, a ∈ look (entry (.nt r.lhs) [] (fun s => (insertAll s upd).1) st.1) X ↔ a ∈ look st.1 X := by
        intro X a
        rw [hlook]
        split
        · rename_i hX; subst hX
          simp only [OSet.mem_union]
          exact ⟨fun h => h.elim id (hsub a), Or.inl⟩
        · exact Iff.rfl
      refine ⟨a.1, fun X a ha => (hback X a).1 (b X a ha), ?_⟩
      intro r' hr' x hx
      rcases List.mem_cons.1 hr' with rfl | hr'
      · rw [hupd] at hx; exact hsub x hx
      · rw [← hback]
        apply c r' hr' x
        rw [firstOfRhs_spec] at hx ⊢
        simp only [hback]
        exact hx
    · intro h
      rcases h4 h with h | ⟨r', hr', a, h5, h6⟩
      · simp only [Bool.or_eq_true] at h
        rcases h with h | h
        · exact Or.inl h
        · right
          obtain ⟨x, hx, hn⟩ := hflag.1 h
          refine ⟨r, by simp, x, hn, h2 _ _ ?_⟩
          show x ∈ look (entry (.nt r.lhs) [] (fun s => (insertAll s upd).1) st.1) _
          rw [hlook]; simp [hx]
      · exact Or.inr ⟨r', by simp [hr'], a, fun hn => h5 (hmono _ _ hn), h6⟩

theorem firstOfRhs_sound {R : List PRule} {null : List Sym} {m : First} (hn : NullSound R null) (hm : FirstSound R m)
    {l : List Sym} {a : Term} (h : a ∈ firstOfRhs null m l []) : ∃ ρ, Gen R l (.tm a :: ρ) := by
  rw [firstOfRhs_spec] at h
  rcases h with h | ⟨x, X, y, rfl, h1, h2⟩
  · cases h
  · obtain ⟨ρ, hρ⟩ := hm.look h2
    have hx : Gen R x [] := gen_nil_of_all (fun Z hZ => hn Z (h1 Z hZ))
    have := hx.append (hρ.append (Gen.refl y))
    exact ⟨ρ ++ y, by simpa using this⟩

theorem firstPass_sound {R : List PRule} {null : List Sym} (hn : NullSound R null) (R0 : List PRule) (hR : ∀ r ∈ R0, r ∈ R)
    (st : First × Bool) (h : FirstSound R st.1) : FirstSound R (firstPass null R0 st).1 := by
  unfold firstPass
  induction R0 generalizing st with
  | nil => exact h
  | cons r R0 ih =>
    rw [List.foldl_cons]
    apply ih (fun r' hr' => hR r' (by simp [hr']))
    simp only
    apply firstSound_of_look
    intro X a ha
    rw [look_entry] at ha
    split at ha
    · rename_i hX; subst hX
      rw [insertAll_fst, OSet.mem_union] at ha
      rcases ha with ha | ha
      · exact h.look ha
      · obtain ⟨ρ, hρ⟩ := firstOfRhs_sound hn h ha
        exact ⟨ρ, (Gen.rule (hR r (by simp))).trans hρ⟩
    · exact h.look ha

theorem firstPass_terminals {null : List Sym} (R0 : List PRule) (st : First × Bool) (t : Term) :
    look (firstPass null R0 st).1 (.tm t) = look st.1 (.tm t) := by
  unfold firstPass
  induction R0 generalizing st with
  | nil => rfl
  | cons r R0 ih =>
    rw [List.foldl_cons, ih]
    simp only
    rw [look_entry, if_neg (by simp)]

/-- `m` gives the FIRST sets of non-terminals. -/
def FirstExact (R : List PRule) (m : First) : Prop := ∀ n a, a ∈ look m (.nt n) ↔ ∃ ρ, Gen R [.nt n] (.tm a :: ρ)

theorem first_complete {R : List PRule} {null : List Sym} {m : First} (hn : NullExact R null) (hc : FirstClosed null R m)
    (ht : ∀ t, (∃ r ∈ R, Sym.tm t ∈ r.rhs) → t ∈ look m (.tm t)) {l w : List Sym} (hg : Gen R l w) :
    ∀ a ρ, w = .tm a :: ρ → (∀ t, Sym.tm t ∈ l → ∃ r ∈ R, Sym.tm t ∈ r.rhs) → a ∈ firstOfRhs null m l [] := by
  induction hg with
  | nil => intro a ρ h; cases h
  | keep X l w _ _ =>
    intro a ρ h hl
    cases h
    rw [firstOfRhs_spec]
    exact Or.inr ⟨[], .tm a, l, rfl, by simp, ht a (hl a (by simp))⟩
  | expand r l u v hr hu hv ih1 ih2 =>
    intro a ρ h hl
    cases u with
    | nil =>
      have h1 := ih2 a ρ (by simpa using h) (fun t ht => hl t (by simp [ht]))
      rw [firstOfRhs_spec] at h1 ⊢
      rcases h1 with h1 | ⟨x, X, y, rfl, h1, h2⟩
      · cases h1
      · refine Or.inr ⟨.nt r.lhs :: x, X, y, rfl, ?_, h2⟩
        intro Z hZ
        rcases List.mem_cons.1 hZ with rfl | hZ
        · exact (hn _).2 ((Gen.rule hr).trans hu)
        · exact h1 Z hZ
    | cons b u =>
      simp at h
      obtain ⟨rfl, rfl⟩ := h
      have h1 := ih1 a u rfl (fun _ ht => ⟨r, hr, ht⟩)
      have h2 := hc r hr a h1
      rw [firstOfRhs_spec]
      exact Or.inr ⟨[], .nt r.lhs, l, rfl, by simp, h2⟩

theorem firstLoop_exact {R : List PRule} {null : List Sym} (hn : NullExact R null) {fuel : Nat} {m res : First}
    (h : FirstSound R m) (ht : ∀ t, (∃ r ∈ R, Sym.tm t ∈ r.rhs) → t ∈ look m (.tm t))
    (hr : firstLoop null R fuel m = .ok res) : FirstExact R res := by
  induction fuel generalizing m with
  | zero => cases hr
  | succ f ih =>
    unfold firstLoop at hr
    simp only at hr
    have hs := firstPass_sound (fun X hX => (hn X).1 hX) R (fun _ h => h) (m, false) h
    have ht' : ∀ t, (∃ r ∈ R, Sym.tm t ∈ r.rhs) → t ∈ look (firstPass null R (m, false)).1 (.tm t) := by
      intro t h; rw [firstPass_terminals]; exact ht t h
    split at hr
    · exact ih hs ht' hr
    · rename_i hf
      cases hr
      obtain ⟨h1, h2, _⟩ := firstPass_spec null R (m, false)
      obtain ⟨_, h3, h4⟩ := h2 (by simpa using hf)
      intro n a
      refine ⟨hs.look, ?_⟩
      rintro ⟨ρ, hg⟩
      apply h1
      have := first_complete hn h4 ht hg a ρ rfl (by simp)
      rw [firstOfRhs_spec] at this
      rcases this with h | ⟨x, X, y, he, _, h2⟩
      · cases h
      · cases x with
        | nil => simp at he; rw [he.1]; exact h2
        | cons Z x => simp at he

/-- The terminals of the rules. -/
def termsOf (R : List PRule) : List Term := R.flatMap fun r => r.rhs.filterMap fun X => match X with | .tm t => some t | .nt _ => none

theorem mem_termsOf {R : List PRule} {t : Term} : t ∈ termsOf R ↔ ∃ r ∈ R, Sym.tm t ∈ r.rhs := by
  unfold termsOf
  rw [List.mem_flatMap]
  constructor
  · rintro ⟨r, hr, h⟩
    obtain ⟨X, hX, he⟩ := List.mem_filterMap.1 h
    cases X with
    | nt n => cases he
    | tm s => simp at he; subst he; exact ⟨r, hr, hX⟩
  · rintro ⟨r, hr, h⟩
    exact ⟨r, hr, List.mem_filterMap.2 ⟨_, h, rfl⟩⟩

theorem gen_terms {R : List PRule} {l w : List Sym} (h : Gen R l w) :
    ∀ X ∈ w, X ∈ l ∨ ∃ r ∈ R, X ∈ r.rhs := by
  induction h with
  | nil => intro t h; cases h
  | keep X l w _ ih =>
    intro t h
    rcases List.mem_cons.1 h with h | h
    · exact Or.inl (by simp [h])
    · rcases ih t h with h | h
      · exact Or.inl (by simp [h])
      · exact Or.inr h
  | expand r l u v hr _ _ ih1 ih2 =>
    intro t h
    rcases List.mem_append.1 h with h | h
    · rcases ih1 t h with h | h
      · exact Or.inr ⟨r, hr, h⟩
      · exact Or.inr h
    · rcases ih2 t h with h | h
      · exact Or.inl (by simp [h])
      · exact Or.inr h

theorem firstLoop_fuel {R : List PRule} {null : List Sym} (hn : NullSound R null) {fuel : Nat} {m : First} (hm : FirstSound R m)
    (h : ((R.flatMap fun r => (termsOf R).map fun a => (r.lhs, a)).filter fun x => decide (x.2 ∉ look m (.nt x.1))).length < fuel) :
    ∃ res, firstLoop null R fuel m = .ok res := by
  induction fuel generalizing m with
  | zero => omega
  | succ f ih =>
    unfold firstLoop
    simp only
    split
    · rename_i hf
      have hs := firstPass_sound hn R (fun _ h => h) (m, false) hm
      apply ih hs
      obtain ⟨h1, _, h3⟩ := firstPass_spec null R (m, false)
      rcases h3 hf with h3 | ⟨r, hr, a, h4, h5⟩
      · cases h3
      · obtain ⟨ρ, hg⟩ := hs.look h5
        have hmem : a ∈ termsOf R := by
          rw [mem_termsOf]
          rcases gen_terms hg (.tm a) (by simp) with h | h
          · simp at h
          · exact h
        have := filter_lt (U := R.flatMap fun r => (termsOf R).map fun a => (r.lhs, a))
          (P := fun x => decide (x.2 ∉ look (firstPass null R (m, false)).1 (.nt x.1)))
          (Q := fun x => decide (x.2 ∉ look m (.nt x.1))) (x := (r.lhs, a)) ?_ ?_ (by simpa using h4) (by simpa using h5)
        · omega
        · intro x hx
          simp only [decide_eq_true_eq] at hx ⊢
          exact fun hn => hx (h1 _ _ hn)
        · exact List.mem_flatMap.2 ⟨r, hr, List.mem_map.2 ⟨a, hmem, rfl⟩⟩
    · exact ⟨_, rfl⟩

theorem firstLoop_no_panic {R : List PRule} {null : List Sym} {fuel : Nat} {m : First} : firstLoop null R fuel m ≠ .panic := by
  induction fuel generalizing m with
  | zero => simp [firstLoop]
  | succ f ih =>
    unfold firstLoop
    simp only
    split
    · exact ih
    · simp

theorem firstInit_sound (R : List PRule) : FirstSound R (firstInit R) := by
  apply firstSound_of_look
  intro X a ha
  obtain ⟨rfl, _⟩ := (firstInit_spec R X a).1 ha
  exact ⟨[], .refl _⟩

theorem calcFirst_exact {R : List PRule} {null : List Sym} (hn : NullExact R null) {fuel : Nat} {res : First}
    (h : calcFirst fuel null R = .ok res) : FirstExact R res :=
  firstLoop_exact hn (firstInit_sound R) (fun _ ht => (firstInit_spec R _ _).2 ⟨rfl, ht⟩) h

theorem calcFirst_total {R : List PRule} {null : List Sym} (hn : NullExact R null) {fuel : Nat}
    (h : R.length * (termsOf R).length < fuel) : ∃ res, calcFirst fuel null R = .ok res := by
  refine firstLoop_fuel (fun X hX => (hn X).1 hX) (firstInit_sound R) ?_
  refine Nat.lt_of_le_of_lt (List.length_filter_le _ _) ?_
  have : ∀ (R : List PRule) (l : List Term), (R.flatMap fun r => l.map fun a => (r.lhs, a)).length = R.length * l.length := by
    intro R l
    induction R with
    | nil => simp
    | cons r R ih => simp [List.flatMap_cons, ih, Nat.succ_mul, Nat.add_comm]
  rw [this]
  exact h

/-! ## `get_first` -/

theorem getFirst_spec {R : List PRule} {null : List Sym} {first : First} (hn : NullExact R null) (hf : FirstExact R first)
    (l : List Sym) (res : List Term) (a : Term) :
    a ∈ getFirst null first l res ↔ a ∈ res ∨ ∃ ρ, Gen R l (.tm a :: ρ) := by
  induction l generalizing res with
  | nil =>
    unfold getFirst
    constructor
    · exact Or.inl
    · rintro (h | ⟨ρ, h⟩)
      · exact h
      · cases h.nil_left
  | cons X l ih =>
    have key : (∃ ρ, Gen R (X :: l) (.tm a :: ρ)) ↔ (∃ ρ, Gen R [X] (.tm a :: ρ)) ∨ (X ∈ null ∧ ∃ ρ, Gen R l (.tm a :: ρ)) := by
      constructor
      · rintro ⟨ρ, h⟩
        obtain ⟨u, v, he, h1, h2⟩ := h.split_cons
        cases u with
        | nil => simp at he; subst he; exact Or.inr ⟨(hn X).2 h1, ρ, h2⟩
        | cons b u => simp at he; obtain ⟨rfl, rfl⟩ := he; exact Or.inl ⟨u, h1⟩
      · rintro (⟨ρ, h⟩ | ⟨h, ρ, h'⟩)
        · have := h.append (Gen.refl l); exact ⟨ρ ++ l, by simpa using this⟩
        · have := ((hn X).1 h).append h'; exact ⟨ρ, by simpa using this⟩
    have hfst : ∀ res, a ∈ (match X with | .tm t => OSet.insert t res | .nt _ => OSet.union res ((get X first).getD [])) ↔
        a ∈ res ∨ ∃ ρ, Gen R [X] (.tm a :: ρ) := by
      intro res
      cases X with
      | tm t =>
        simp only [OSet.mem_insert]
        constructor
        · rintro (rfl | h)
          · exact Or.inr ⟨[], .refl _⟩
          · exact Or.inl h
        · rintro (h | ⟨ρ, h⟩)
          · exact Or.inr h
          · obtain ⟨v, h, _⟩ := h.terminal
            cases h; exact Or.inl rfl
      | nt n =>
        simp only [OSet.mem_union]
        exact or_congr Iff.rfl (hf n a)
    unfold getFirst
    simp only
    split
    · rename_i hX
      rw [ih, key]
      refine (or_congr (hfst res) Iff.rfl).trans ?_
      simp only [hX, true_and]
      exact or_assoc
    · rename_i hX
      rw [key]
      refine (hfst res).trans ?_
      simp [hX]

end Verif.Par
