import Verif.Par.TableProof

/-!
# The tables are the canonical LR(1) tables
-/

namespace Verif.Par

/-- The rows made for a state. -/
structure Rows (R : List PRule) (s : Nat) (keys : List State) (T : Tables) (S : State) (g : Goto) : Prop where
  act : ∃ row, get (keys.idxOf S) T.action = some row ∧ ∀ a,
    get a row = if a = .eoi ∧ S.any (accOn R s) = true then some .accept
      else match get (.tm a) g with
        | some S' => some (.shift (keys.idxOf S'))
        | none => (firstRed R s a S).map .reduce
  goto : ∀ n, (get (keys.idxOf S) T.goto).bind (get n) = (get (.nt n) g).map keys.idxOf
  errors : ∃ es, errorRulesOf R S = some es ∧ get (keys.idxOf S) T.errors = if es.isEmpty then none else some es

section
variable {R : List PRule} {s : Nat} {r0 : PRule} (hs : R[s]? = some r0) (hlen : R.length = s + 1)
include hs hlen

theorem Is.items {γ : List Sym} {S : State} (h : Is R s γ S) :
    (∀ i ∈ S, ∃ r, R[i.rule]? = some r) ∧ S.Pairwise (fun i j => i.rule ≤ j.rule) ∧ ∀ i ∈ S, i.rule ≤ s := by
  have h1 : ∀ i ∈ S, ∃ r, R[i.rule]? = some r := fun i hi => by
    obtain ⟨r, hr, _⟩ := ((h.mem i).1 hi).rule hs; exact ⟨r, hr⟩
  refine ⟨h1, ?_, ?_⟩
  · refine List.Pairwise.imp ?_ h.sorted
    intro i j hij
    change (decide (i.rule < j.rule) || (decide (i.rule = j.rule) && _)) = true at hij
    simp only [Bool.or_eq_true, decide_eq_true_eq, Bool.and_eq_true] at hij
    rcases hij with h | ⟨h, _⟩ <;> omega
  · intro i hi
    obtain ⟨r, hr⟩ := h1 i hi
    have := (List.getElem?_eq_some_iff.1 hr).1
    omega

theorem finish_spec {o : Seeds} (ho : o.Fair) {start : State} {sl : List (State × Goto)} (hc : Coll R s start sl) :
    ∃ T ws keys, finish o R s start sl = some (T, ws) ∧ keys.Nodup ∧ (∀ S, S ∈ keys ↔ S ∈ sl.map Prod.fst) ∧
      T.start = keys.idxOf start ∧ (∀ x ∈ sl, Rows R s keys T x.1 x.2) ∧ (∀ q es, get q T.errors = some es → es ≠ []) ∧
      (∀ w, w ∈ ws ↔ ∃ x ∈ sl, WarnOf R s x.1 (shiftActs x.2) x.1 w) ∧
      (∀ q row, get q T.action = some row → ∃ x ∈ sl, q = keys.idxOf x.1) ∧ ∀ q row, get q T.goto = some row → ∃ x ∈ sl, q = keys.idxOf x.1 := by
  generalize hkeys : o.keyOrd (sl.map Prod.fst) = keys
  have hperm : keys.Perm (sl.map Prod.fst) := by rw [← hkeys]; exact ho.keyOrd _
  have hkn : keys.Nodup := (List.Perm.nodup_iff hperm).2 hc.nodup
  have hkm : ∀ S, S ∈ keys ↔ S ∈ sl.map Prod.fst := fun S => hperm.mem_iff
  have htp := ho.tableOrd sl
  generalize htab : o.tableOrd sl = tl at htp
  have htm : ∀ x, x ∈ tl ↔ x ∈ sl := fun x => htp.mem_iff
  have htn : (tl.map Prod.fst).Nodup := (List.Perm.nodup_iff (htp.map Prod.fst)).2 hc.nodup
  have hgs : ∀ x ∈ sl, ∀ a, get a (shiftActs x.2) = (get (.tm a) x.2).map .shift := fun x hx a => shiftActs_get (hc.gnodup x hx) a
  have hred : ∀ x ∈ sl, ∃ a ws1, reduceActs R s x.1 x.1 (shiftActs x.2, []) = some (a, ws1) ∧
      (∀ t, get t a = if t = .eoi ∧ x.1.any (accOn R s) = true then some .accept
        else (get t (shiftActs x.2)).or ((firstRed R s t x.1).map .reduce)) ∧
      ∀ w, w ∈ ws1 ↔ w ∈ [] ∨ WarnOf R s x.1 (shiftActs x.2) x.1 w := by
    intro x hx
    obtain ⟨γ, hγ⟩ := hc.reach x hx
    obtain ⟨i1, i2, i3⟩ := hγ.items hs hlen
    refine reduceActs_spec i1 i2 i3 ?_
    intro a ha
    rw [hgs x hx] at ha
    simp at ha
  obtain ⟨at', gt, ws, c1, c2, c3, c4, c5, c7, c6⟩ := calcTable_spec (R := R) (s := s) htn (by
    intro x hx
    obtain ⟨a, ws1, h, _⟩ := hred x ((htm x).1 hx)
    exact ⟨_, h⟩)
  have hsucc : ∀ x ∈ sl, ∀ X S', get X x.2 = some S' → indexOf keys S' = some (keys.idxOf S') := by
    intro x hx X S' hg
    exact indexOf_some.2 ⟨(hkm _).2 (hc.gclosed x hx X S' hg), rfl⟩
  have hself : ∀ x ∈ sl, indexOf keys x.1 = some (keys.idxOf x.1) := by
    intro x hx
    exact indexOf_some.2 ⟨(hkm _).2 (List.mem_map.2 ⟨x, hx, rfl⟩), rfl⟩
  -- actions are numbered
  obtain ⟨a, ha⟩ : ∃ a, allSome (numberActions keys) at' = some a := by
    refine allSome_isSome ?_
    intro x hx
    obtain ⟨y, hy, ws1, he, hr⟩ := c7 x hx
    have hy := (htm y).1 hy
    have hrow := hred y hy
    obtain ⟨a', ws2, h1, h2, _⟩ := hrow
    rw [hr] at h1; cases h1
    have : ∃ l, allSome (fun ta => (numberAction keys ta.2).map fun a => (ta.1, a)) x.2 = some l := by
      refine allSome_isSome ?_
      rintro ⟨t, act⟩ hta
      have hex : ∃ b, numberAction keys act = some b := by
        -- actions in the list come from shifts of `g`, reductions and accept
        have hall : ∀ (l : List Item) (acts : Acts) (res : Acts), (∀ p ∈ acts.1, ∃ b, numberAction keys p.2 = some b) →
            reduceActs R s y.1 l acts = some res → ∀ p ∈ res.1, ∃ b, numberAction keys p.2 = some b := by
          intro l
          induction l with
          | nil => intro acts res h he; cases he; exact h
          | cons i l ih =>
            intro acts res h he
            have hput : ∀ (k : Term) (v : Action State), (∃ b, numberAction keys v = some b) →
                ∀ p ∈ put k v acts.1, ∃ b, numberAction keys p.2 = some b := by
              intro k v hv
              have : ∀ m : List (Term × Action State), (∀ p ∈ m, ∃ b, numberAction keys p.2 = some b) →
                  ∀ p ∈ put k v m, ∃ b, numberAction keys p.2 = some b := by
                intro m
                induction m with
                | nil => intro _ p hp; simp [put, entry] at hp; subst hp; exact hv
                | cons z m ihm =>
                  intro hm p hp
                  obtain ⟨z1, z2⟩ := z
                  unfold put entry at hp
                  split at hp
                  · rcases List.mem_cons.1 hp with rfl | hp
                    · exact hv
                    · exact hm p (by simp [hp])
                  · rcases List.mem_cons.1 hp with rfl | hp
                    · exact hm _ (by simp)
                    · exact ihm (fun q hq => hm q (by simp [hq])) p hp
              exact this _ h
            unfold reduceActs at he
            split at he
            · cases he
            · split at he
              · split at he
                · exact ih _ res (hput _ _ ⟨_, rfl⟩) he
                · split at he
                  · exact ih _ res (hput _ _ ⟨_, rfl⟩) he
                  · refine ih _ res ?_ he; exact h
                  · refine ih _ res ?_ he; exact h
                  · cases he
              · exact ih _ res h he
        refine hall y.1 (shiftActs y.2, []) (x.2, ws1) ?_ hr (t, act) hta
        intro p hp
        -- entries of shiftActs
        have hsh : ∀ (g : Goto) (m : List (Term × Action State)),
            (∀ z ∈ g, ∃ b, indexOf keys z.2 = some b) → (∀ p ∈ m, ∃ b, numberAction keys p.2 = some b) →
            ∀ p ∈ g.foldl (fun m (X, s) => match X with | .tm t => put t (.shift s) m | .nt _ => m) m, ∃ b, numberAction keys p.2 = some b := by
          intro g
          induction g with
          | nil => intro m _ h; exact h
          | cons z g ihg =>
            intro m hz hm
            rw [List.foldl_cons]
            refine ihg _ (fun z' hz' => hz z' (by simp [hz'])) ?_
            obtain ⟨X, S'⟩ := z
            cases X with
            | nt n => exact hm
            | tm t =>
              obtain ⟨b, hb⟩ := hz (.tm t, S') (by simp)
              have : ∀ m : List (Term × Action State), (∀ p ∈ m, ∃ b, numberAction keys p.2 = some b) →
                  ∀ p ∈ put t (.shift S') m, ∃ b, numberAction keys p.2 = some b := by
                intro m
                induction m with
                | nil => intro _ p hp; simp [put, entry] at hp; subst hp; exact ⟨.shift b, by simp only at hb; simp [numberAction, hb]⟩
                | cons z m ihm =>
                  intro hm p hp
                  obtain ⟨z1, z2⟩ := z
                  unfold put entry at hp
                  split at hp
                  · rcases List.mem_cons.1 hp with rfl | hp
                    · exact ⟨.shift b, by simp only at hb; simp [numberAction, hb]⟩
                    · exact hm p (by simp [hp])
                  · rcases List.mem_cons.1 hp with rfl | hp
                    · exact hm _ (by simp)
                    · exact ihm (fun q hq => hm q (by simp [hq])) p hp
              exact this m hm
        refine hsh y.2 [] ?_ (by simp) p hp
        rintro ⟨X, S'⟩ hz
        exact ⟨_, hsucc y hy X S' (get_of_mem (hc.gnodup y hy) hz)⟩
      obtain ⟨b, hb⟩ := hex
      exact ⟨(t, b), by simp [hb]⟩
    obtain ⟨l, hl⟩ := this
    refine ⟨(keys.idxOf x.1, l), ?_⟩
    unfold numberActions
    rw [he, hself y hy, hl]
    rfl
  obtain ⟨gg, hgg⟩ : ∃ gg, allSome (numberGotos keys) gt = some gg := by
    refine allSome_isSome ?_
    intro x hx
    obtain ⟨y, hy, rfl⟩ := c5 x hx
    have hy := (htm y).1 hy
    have : ∃ l, allSome (fun ns => (indexOf keys ns.2).map fun j => (ns.1, j)) (gotoActs y.2) = some l := by
      refine allSome_isSome ?_
      rintro ⟨n, S'⟩ hns
      have hsh : ∀ (g : Goto) (m : List (Nat × State)),
          (∀ z ∈ g, ∃ b, indexOf keys z.2 = some b) → (∀ p ∈ m, ∃ b, indexOf keys p.2 = some b) →
          ∀ p ∈ g.foldl (fun m (X, s) => match X with | .nt n => put n s m | .tm _ => m) m, ∃ b, indexOf keys p.2 = some b := by
        intro g
        induction g with
        | nil => intro m _ h; exact h
        | cons z g ihg =>
          intro m hz hm
          rw [List.foldl_cons]
          refine ihg _ (fun z' hz' => hz z' (by simp [hz'])) ?_
          obtain ⟨X, S'⟩ := z
          cases X with
          | tm n => exact hm
          | nt t =>
            have hb := hz (.nt t, S') (by simp)
            have : ∀ m : List (Nat × State), (∀ p ∈ m, ∃ b, indexOf keys p.2 = some b) →
                ∀ p ∈ put t S' m, ∃ b, indexOf keys p.2 = some b := by
              intro m
              induction m with
              | nil => intro _ p hp; simp [put, entry] at hp; subst hp; exact hb
              | cons z m ihm =>
                intro hm p hp
                obtain ⟨z1, z2⟩ := z
                unfold put entry at hp
                split at hp
                · rcases List.mem_cons.1 hp with rfl | hp
                  · exact hb
                  · exact hm p (by simp [hp])
                · rcases List.mem_cons.1 hp with rfl | hp
                  · exact hm _ (by simp)
                  · exact ihm (fun q hq => hm q (by simp [hq])) p hp
            exact this m hm
      obtain ⟨b, hb⟩ := hsh y.2 [] (by
        rintro ⟨X, S'⟩ hz
        exact ⟨_, hsucc y hy X S' (get_of_mem (hc.gnodup y hy) hz)⟩) (by simp) (n, S') hns
      exact ⟨(n, b), by simp only at hb; simp [hb]⟩
    obtain ⟨l, hl⟩ := this
    refine ⟨(keys.idxOf y.1, l), ?_⟩
    unfold numberGotos
    rw [hself y hy, hl]
    rfl
  obtain ⟨e, he, he1, he2⟩ := errorRules_spec (R := R) (keys := keys) 0 (by
    intro S hS i hi
    obtain ⟨x, hx, rfl⟩ := List.mem_map.1 ((hkm S).1 hS)
    obtain ⟨γ, hγ⟩ := hc.reach x hx
    exact (hγ.items hs hlen).1 i hi)
  have hst : indexOf keys start = some (keys.idxOf start) := indexOf_some.2 ⟨(hkm _).2 hc.start_mem, rfl⟩
  refine ⟨⟨a, gg, e, keys.idxOf start⟩, ws, keys, ?_, hkn, hkm, rfl, ?_, ?_, ?_, ?_, ?_⟩
  · unfold finish
    simp only [hkeys, htab, c1, ha, hgg, he, hst]
  · intro x hx
    have hxk : x.1 ∈ keys := (hkm _).2 (List.mem_map.2 ⟨x, hx, rfl⟩)
    refine ⟨?_, ?_, ?_⟩
    · obtain ⟨arow, ws1, h1, h2, h3⟩ := c3 x ((htm x).2 hx)
      obtain ⟨a', ws2, k1, k2, _⟩ := hred x hx
      rw [h1] at k1; cases k1
      obtain ⟨row, g1, g2⟩ := (get_renumber (f := numberActions keys) (by
        intro p q hpq
        simp only [numberActions, Option.bind_eq_some_iff, Option.map_eq_some_iff] at hpq
        obtain ⟨k, hk, l, _, rfl⟩ := hpq
        exact indexOf_some.1 hk) ha hxk).2 _ h2
      refine ⟨row, g2, ?_⟩
      simp only [numberActions, Option.bind_eq_some_iff, Option.map_eq_some_iff, Prod.mk.injEq] at g1
      obtain ⟨k, _, l, hl, rfl, rfl⟩ := g1
      intro t
      obtain ⟨m1, m2⟩ := get_mapAct hl t
      have hk := k2 t
      rw [hgs x hx] at hk
      split
      · rename_i hacc
        rw [if_pos hacc] at hk
        obtain ⟨w, w1, w2⟩ := m2 _ hk
        cases w1; exact w2
      · rename_i hacc
        rw [if_neg hacc] at hk
        cases hg : get (.tm t) x.2 with
        | some S' =>
          rw [hg] at hk
          obtain ⟨w, w1, w2⟩ := m2 _ hk
          rw [numberAction, hsucc x hx _ S' hg] at w1
          cases w1; exact w2
        | none =>
          rw [hg] at hk
          simp only [Option.map_none, Option.none_or] at hk
          cases hfr : firstRed R s t x.1 with
          | none => rw [hfr] at hk; exact m1 hk
          | some r =>
            rw [hfr] at hk
            obtain ⟨w, w1, w2⟩ := m2 _ hk
            cases w1; exact w2
    · intro n
      have hr := c4 x ((htm x).2 hx)
      have hrn := get_renumber (f := numberGotos keys) (by
        intro p q hpq
        simp only [numberGotos, Option.bind_eq_some_iff, Option.map_eq_some_iff] at hpq
        obtain ⟨k, hk, l, _, rfl⟩ := hpq
        exact indexOf_some.1 hk) hgg hxk
      rw [← gotoActs_get (hc.gnodup x hx) n]
      by_cases hem : (gotoActs x.2).isEmpty = true
      · rw [if_pos hem] at hr
        have : gotoActs x.2 = [] := by simpa using hem
        simp only [hrn.1 hr, this, get]
        rfl
      · rw [if_neg hem] at hr
        obtain ⟨row, g1, g2⟩ := hrn.2 _ hr
        simp only [g2]
        simp only [numberGotos, Option.bind_eq_some_iff, Option.map_eq_some_iff, Prod.mk.injEq] at g1
        obtain ⟨k, _, l, hl, rfl, rfl⟩ := g1
        obtain ⟨m1, m2⟩ := get_mapGoto hl n
        cases hg : get n (gotoActs x.2) with
        | none => simp [m1 hg]
        | some S' => simp [(m2 S' hg).2]
    · have hlt := List.idxOf_lt_length_of_mem hxk
      obtain ⟨es, h1, h2⟩ := he1 (keys.idxOf x.1) x.1 (by
        rw [List.getElem?_eq_getElem hlt, List.getElem_idxOf])
      exact ⟨es, h1, by simpa using h2⟩
  · intro q es hq
    exact (he2 _ (get_mem hq)).2
  · intro w
    constructor
    · intro hw
      obtain ⟨x, hx, a', ws1, h1, h2⟩ := c6 w hw
      have hx := (htm x).1 hx
      obtain ⟨a'', ws2, k1, _, k3⟩ := hred x hx
      rw [h1] at k1; cases k1
      exact ⟨x, hx, by simpa using (k3 w).1 h2⟩
    · rintro ⟨x, hx, hw⟩
      obtain ⟨a', ws1, h1, _, h3⟩ := c3 x ((htm x).2 hx)
      obtain ⟨a'', ws2, k1, _, k3⟩ := hred x hx
      rw [h1] at k1; cases k1
      exact h3 w ((k3 w).2 (Or.inr hw))
  · intro q row hq
    obtain ⟨x, hx, hxq⟩ := (allSome_mem ha _).1 (get_mem hq)
    obtain ⟨y, hy, ws1, e1, _⟩ := c7 x hx
    simp only [numberActions, Option.bind_eq_some_iff, Option.map_eq_some_iff, Prod.mk.injEq] at hxq
    obtain ⟨k, hk, l, _, rfl, _⟩ := hxq
    exact ⟨y, (htm y).1 hy, by rw [← e1]; exact (indexOf_some.1 hk).2⟩
  · intro q row hq
    obtain ⟨x, hx, hxq⟩ := (allSome_mem hgg _).1 (get_mem hq)
    obtain ⟨y, hy, rfl⟩ := c5 x hx
    simp only [numberGotos, Option.bind_eq_some_iff, Option.map_eq_some_iff, Prod.mk.injEq] at hxq
    obtain ⟨k, hk, l, _, rfl, _⟩ := hxq
    exact ⟨y, (htm y).1 hy, (indexOf_some.1 hk).2⟩

end

end Verif.Par
