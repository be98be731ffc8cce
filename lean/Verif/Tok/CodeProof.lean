import Verif.Tok.Code
import Verif.Tok.SpecProof

/-! # The automaton of a regex reads exactly the languages of `Code` -/

namespace Verif.Tok

/-- The two ends of an automaton. -/
def NFA.pt (x : NFA) : Bool → Nat
  | false => x.b
  | true => x.e

/-- The four languages of an automaton. -/
def NFA.W (x : NFA) : Mat := fun p q w => NPath x.node (x.pt p) w (x.pt q)

theorem mat_ext {A B : Mat} (h : ∀ p q w, A p q w ↔ B p q w) : A = B := by
  funext p q w; exact propext (h p q w)

theorem NFA.WF.pt {x : NFA} (h : x.WF) (i : Bool) : x.pt i < x.node.length := by
  cases i
  · exact h.b
  · exact h.e

theorem one_of {x : NFA} (hin : NoIn x.node x.b) (hout : NoOut x.node x.e) (hne : x.b ≠ x.e) : x.W = Mat.one x.Accepts := by
  apply mat_ext
  intro p q w
  cases p <;> cases q
  · constructor
    · intro h; exact (Path.unreached hin.1 hin.2 h).1
    · rintro rfl; exact .nil _
  · exact Iff.rfl
  · constructor
    · intro h; exact absurd (Path.stuck hout.1 hout.2 h).2 hne
    · intro h; exact absurd h id
  · constructor
    · intro h; exact (Path.stuck hout.1 hout.2 h).1
    · rintro rfl; exact .nil _

theorem jump_iff {x : NFA} {i j : Bool} (hi : x.pt i < x.node.length) {p q w} :
    NPath (addEps x.node (x.pt i) (x.pt j)) (x.pt p) w (x.pt q) ↔ Mat.Jump x.W i j p q w := by
  constructor
  · intro h
    have key : ∀ {a w b}, NPath (addEps x.node (x.pt i) (x.pt j)) a w b → b = x.pt q →
        NPath x.node a w (x.pt q) ∨ ∃ u v, w = u ++ v ∧ NPath x.node a u (x.pt i) ∧ Mat.Jump x.W i j j q v := by
      intro a w b h
      induction h with
      | nil => rintro rfl; exact Or.inl (.nil _)
      | @eps a a' w b he _ ih =>
        intro hb
        rcases eps_addEps.1 he with h' | ⟨rfl, rfl, _⟩
        · rcases ih hb with h2 | ⟨u, v, rfl, h2, h3⟩
          · exact Or.inl (.eps h' h2)
          · exact Or.inr ⟨u, v, rfl, .eps h' h2, h3⟩
        · rcases ih hb with h2 | ⟨u, v, rfl, h2, h3⟩
          · exact Or.inr ⟨[], w, rfl, .nil _, .stay h2⟩
          · exact Or.inr ⟨[], _, rfl, .nil _, .jump h2 h3⟩
      | step hs _ ih =>
        intro hb
        have hs := stp_addEps.1 hs
        rcases ih hb with h2 | ⟨u, v, rfl, h2, h3⟩
        · exact Or.inl (.step hs h2)
        · exact Or.inr ⟨_ :: u, v, rfl, .step hs h2, h3⟩
    rcases key h rfl with h | ⟨u, v, rfl, h2, h3⟩
    · exact .stay h
    · exact .jump h2 h3
  · intro h
    induction h with
    | stay h => exact path_addEps h
    | jump h1 _ ih => exact Path.trans (path_addEps h1) (.eps (eps_addEps.2 (Or.inr ⟨rfl, rfl, hi⟩)) ih)

theorem opt_W {x : NFA} (hx : x.WF) : (nfaOpt x).W = Mat.Jump x.W false true := by
  apply mat_ext
  intro p q w
  rw [← jump_iff (hx.pt false)]
  cases p <;> cases q <;> exact Iff.rfl

theorem plus_W {x : NFA} (hx : x.WF) : (nfaPlus x).W = Mat.Jump x.W true false := by
  apply mat_ext
  intro p q w
  rw [← jump_iff (hx.pt true)]
  cases p <;> cases q <;> exact Iff.rfl

theorem star_W {x : NFA} (hx : x.WF) : (nfaStar x).W = Mat.star x.W := by
  apply mat_ext
  intro p q w
  unfold Mat.star
  rw [← jump_iff (hx.pt true)]
  cases p <;> cases q <;> exact Iff.rfl

theorem bare_W : nfaBare.W = Mat.unit := by
  obtain ⟨h1, h2, h3, h4⟩ := bare_spec
  apply mat_ext
  intro p q w
  have : nfaBare.pt p = 0 ∧ nfaBare.pt q = 0 := by cases p <;> cases q <;> exact ⟨rfl, rfl⟩
  unfold NFA.W
  rw [this.1, this.2]
  constructor
  · intro h; exact (Path.stuck h3.1 h3.2 h).1
  · rintro rfl; exact .nil _

theorem empty_W : nfaEmpty.W = Code .empty := by
  apply mat_ext
  intro p q w
  have : nfaEmpty.pt p = 0 ∧ nfaEmpty.pt q = 0 := by cases p <;> cases q <;> exact ⟨rfl, rfl⟩
  unfold NFA.W
  rw [this.1, this.2]
  simp only [Code]
  constructor
  · intro h
    have key : ∀ {a w b}, NPath nfaEmpty.node a w b → ∀ c ∈ w, c < 0x110000 := by
     intro a w b h
     induction h with
     | nil => simp
     | eps _ _ ih => exact ih
     | step hs _ ih =>
      simp only [nfaEmpty, stp_one] at hs
      obtain ⟨_, r, t, h2, h3, h4, h5⟩ := hs
      simp at h2
      intro c hc
      rcases List.mem_cons.1 hc with rfl | hc
      · rw [h2.1] at h4; exact h4
      · exact ih c hc
    exact key h
  · intro h
    induction w with
    | nil => exact .nil _
    | cons c w ih =>
      refine .step (q := 0) ?_ (ih fun c hc => h c (List.mem_cons_of_mem _ hc))
      simp only [nfaEmpty, stp_one]
      exact ⟨trivial, (0, 0x110000), [0], by simp, Nat.zero_le _, h c List.mem_cons_self, by simp⟩

section
variable {acc x r : NFA} {F : Nat} {ex : Prop}

/-- From the copy there is no way back. -/
theorem Link.back (hl : Link acc x r F ex) (ho : Open acc F) {p w q} :
    NPath r.node (acc.node.length + p) w q ↔ ∃ q', q = acc.node.length + q' ∧ NPath x.node p w q' := by
  constructor
  · intro h
    have := h.inside (P := fun a => acc.node.length ≤ a) (E' := CEps acc.node.length x.node)
      (S' := CStp acc.node.length x.node) ?_ ?_ (by omega)
    · exact copy_path_inv this.1
    · intro a b ha he
      rcases (hl.eps a b).1 he with h | h | ⟨h1, h2⟩ | ⟨h0, h1, h2⟩
      · have := eps_lt h; omega
      · refine ⟨h, ?_⟩
        obtain ⟨_, _, _, _, _⟩ := h; omega
      · have := ho.e; omega
      · have := ho.e; omega
    · intro a c b ha hs
      rcases (hl.stp a c b).1 hs with h | h
      · have := stp_lt h; omega
      · refine ⟨h, ?_⟩
        obtain ⟨_, _, _, _, _⟩ := h; omega
  · rintro ⟨q', rfl, h⟩
    exact (copy_path_iff.2 h).mono (fun a b h => (hl.eps a b).2 (Or.inr (Or.inl h))) (fun a c b h => (hl.stp a c b).2 (Or.inr h))

/-- Nothing new between nodes of the old part. -/
theorem Link.old (hl : Link acc x r F ex) (ho : Open acc F) {p w q} (hp : p < acc.node.length) (hq : q < acc.node.length) :
    NPath r.node p w q ↔ NPath acc.node p w q := by
  constructor
  · intro h
    have hF := ho.leF
    have := h.cross (P := fun a => a < acc.node.length) (E1 := Eps acc.node) (S1 := Stp acc.node)
      (E2 := CEps acc.node.length x.node) (S2 := CStp acc.node.length x.node) (X := fun _ _ => True)
      ?_ ?_ ?_ ?_ hp
    · rcases this with ⟨_, h1⟩ | ⟨h1, _⟩
      · exact h1
      · omega
    · intro a b ha he
      rcases (hl.eps a b).1 he with h | ⟨a', b', h1, h2, _⟩ | ⟨h1, h2⟩ | ⟨h0, h1, h2⟩
      · rcases ho.eps _ _ h with h' | rfl
        · exact Or.inl ⟨h, h'⟩
        · exact Or.inr ⟨trivial, by omega⟩
      · omega
      · exact Or.inr ⟨trivial, by omega⟩
      · exact Or.inr ⟨trivial, by omega⟩
    · intro a c b ha hs
      rcases (hl.stp a c b).1 hs with h | ⟨a', b', h1, h2, _⟩
      · exact ⟨h, ho.stp _ _ _ h⟩
      · omega
    · intro a b ha he
      rcases (hl.eps a b).1 he with h | h | ⟨h1, h2⟩ | ⟨h0, h1, h2⟩
      · exact absurd (eps_lt h) ha
      · refine ⟨h, ?_⟩
        obtain ⟨a', b', h1, h2, _⟩ := h
        omega
      · exact absurd ho.e (h1 ▸ ha)
      · exact absurd ho.e (h1 ▸ ha)
    · intro a c b ha hs
      rcases (hl.stp a c b).1 hs with h | h
      · exact absurd (stp_lt h) ha
      · refine ⟨h, ?_⟩
        obtain ⟨a', b', h1, h2, _⟩ := h
        omega
  · intro h
    exact h.mono (fun a b h => (hl.eps a b).2 (Or.inl h)) (fun a c b h => (hl.stp a c b).2 (Or.inl h))

theorem link_seq (ha : acc.WF) (hx : x.WF) (hl : ∀ F, Link acc x r F False) : r.W = Mat.seq acc.W x.W := by
  have hxe := hx.e
  have hab := ha.b
  generalize hFF : acc.node.length + x.node.length = F
  have hl := hl F
  have ho : Open acc F := open_of_wf ha (by omega)
  apply mat_ext
  intro p q w
  cases p <;> cases q <;> simp only [NFA.W, NFA.pt, Mat.seq]
  · rw [hl.b, hl.old ho hab hab]
  · exact (hl.mid ho hx (by omega)).2.1 w
  · rw [hl.b, hl.e, hl.back ho, iff_false]
    rintro ⟨q', h1, _⟩
    omega
  · rw [hl.e, hl.back ho]
    constructor
    · rintro ⟨q', h1, h2⟩
      obtain rfl : q' = x.e := by omega
      exact h2
    · intro h; exact ⟨_, rfl, h⟩

theorem chain_W {x : NFA} (hx : x.WF) {n : Nat} (hn : 1 ≤ n) : (nfaChain x n).W = Mat.chain x.W n := by
  induction n with
  | zero => omega
  | succ n ih =>
    cases n with
    | zero => rfl
    | succ n =>
      have hc := (chain_spec hx (n := n + 1) (by omega)).1
      rw [Mat.chain, ← ih (by omega)]
      refine link_seq hc hx fun F => ?_
      have : nfaChain x (n + 1 + 1) = linkCopy x (nfaChain x (n + 1)) := by
        unfold nfaChain
        simp only [Nat.add_sub_cancel]
        exact iter_succ' _ _ _
      rw [this]
      exact linkCopy_link hc.e F

theorem atLeast_W {x : NFA} (hx : x.WF) {n : Nat} (hn : 1 ≤ n) :
    (nfaAtLeast x n).W = Mat.seq (Mat.chain x.W n) (Mat.star x.W) := by
  rw [← chain_W hx hn, ← star_W hx]
  exact link_seq (chain_spec hx hn).1 (star_wf hx) fun F => atLeast_link hx hn F

/-- The begin of the loops of `{n,m}`. -/
theorem chain_ff {x : NFA} (hx : x.WF) {F n : Nat} (hF : (n + 1) * x.node.length ≤ F) {w} :
    NPath (iter (linkCopy x) n x).node (iter (linkCopy x) n x).b w (iter (linkCopy x) n x).b ↔ NPath x.node x.b w x.b := by
  induction n with
  | zero => exact Iff.rfl
  | succ n ih =>
    have e1 : (n + 1 + 1) * x.node.length = (n + 1) * x.node.length + x.node.length := Nat.succ_mul _ _
    have hi := chain_inv hx (F := F) (j := n) (by omega)
    have hl := linkCopy_link (x := x) hi.op.e F
    rw [iter_succ', hl.b, hl.old hi.op hi.op.b hi.op.b]
    exact ih (by omega)

theorem bound_ff {x : NFA} (hx : x.WF) {F n j : Nat} (hF : (n + 1 + j) * x.node.length ≤ F) {w} :
    let r := iter (linkCopyExit x F) j (iter (linkCopy x) n x)
    NPath r.node r.b w r.b ↔ NPath x.node x.b w x.b := by
  induction j with
  | zero => exact chain_ff hx (by simpa using hF)
  | succ j ih =>
    have e1 : (n + 1 + (j + 1)) * x.node.length = (n + 1 + j) * x.node.length + x.node.length := Nat.succ_mul _ _
    have hi := bound_inv hx (F := F) (n := n) (j := j) (by omega)
    have hl := linkCopyExit_link (x := x) hi.op.e F
    intro r
    have hr : r = linkCopyExit x F (iter (linkCopyExit x F) j (iter (linkCopy x) n x)) := iter_succ' _ _ _
    rw [hr, hl.b, hl.old hi.op hi.op.b hi.op.b]
    exact ih (by omega)

theorem bounded_W {x : NFA} (hx : x.WF) {n m : Nat} (hn : 1 ≤ n) (hm : n < m) :
    (nfaBounded x n m).W = Mat.upTo x.W n m := by
  have hspec := (bounded_spec hx hn hm).2.1
  obtain ⟨n, rfl⟩ : ∃ j, n = j + 1 := ⟨n - 1, by omega⟩
  obtain ⟨j, rfl⟩ : ∃ j, m = n + 1 + j + 1 := ⟨m - n - 2, by omega⟩
  have hF : (n + 1 + j) * x.node.length ≤ (n + 1 + j) * x.node.length + x.e := by omega
  have ih := bound_inv hx (n := n) (j := j) hF
  have hff := fun w => bound_ff hx (n := n) (j := j) hF (w := w)
  have hr : nfaBounded x (n + 1) (n + 1 + j + 1) = linkCopyExit x ((n + 1 + j) * x.node.length + x.e)
      (iter (linkCopyExit x ((n + 1 + j) * x.node.length + x.e)) j (iter (linkCopy x) n x)) := by
    unfold nfaBounded
    simp only [Nat.add_sub_cancel, show n + 1 + j + 1 - (n + 1) = j + 1 by omega]
    rw [iter_succ']
  generalize hFF : (n + 1 + j) * x.node.length + x.e = F at *
  have hl := linkCopyExit_link (x := x) ih.op.e F
  rw [← hr] at hl
  have hob := ih.op.b
  apply mat_ext
  intro p q w
  cases p <;> cases q <;> simp only [NFA.W, NFA.pt, Mat.upTo]
  · rw [hl.b, hl.old ih.op hob hob]
    exact hff w
  · exact hspec w
  · rw [hl.b, hl.e, hl.back ih.op, iff_false]
    rintro ⟨q', h1, _⟩
    omega
  · rw [hl.e, hl.back ih.op]
    constructor
    · rintro ⟨q', h1, h2⟩
      obtain rfl : q' = x.e := by omega
      exact h2
    · intro h; exact ⟨_, rfl, h⟩

end

theorem cat_W {x acc : NFA} (hx : x.WF) (ha : acc.WF) : (nfaCat x acc).W = Mat.seq x.W acc.W := by
  have hxe := hx.e
  have hxb := hx.b
  have hae := ha.e
  have hab := ha.b
  have hb : (nfaCat x acc).b = acc.node.length + x.b := rfl
  have he : (nfaCat x acc).e = acc.e := rfl
  have h3 : ∀ a b, ¬ acc.node.length ≤ a → Eps (nfaCat x acc).node a b → Eps acc.node a b ∧ ¬ acc.node.length ≤ b := by
    intro a b ha' h
    rcases (cat_eps hx).1 h with h | h | ⟨h1, h2⟩
    · have := ha.eps _ _ h
      exact ⟨h, by omega⟩
    · obtain ⟨_, _, _, _, _⟩ := h; omega
    · omega
  have h4 : ∀ a c b, ¬ acc.node.length ≤ a → Stp (nfaCat x acc).node a c b → Stp acc.node a c b ∧ ¬ acc.node.length ≤ b := by
    intro a c b ha' h
    rcases cat_stp.1 h with h | h
    · have := ha.stp _ _ _ h
      exact ⟨h, by omega⟩
    · obtain ⟨_, _, _, _, _⟩ := h; omega
  apply mat_ext
  intro p q w
  cases p <;> cases q <;> simp only [NFA.W, NFA.pt, Mat.seq]
  · rw [hb]
    constructor
    · intro h
      have := h.cross (P := fun a => acc.node.length ≤ a)
        (E1 := CEps acc.node.length x.node) (S1 := CStp acc.node.length x.node)
        (E2 := Eps acc.node) (S2 := Stp acc.node)
        (X := fun _ _ => True) ?_ ?_ h3 h4 (by omega)
      · rcases this with ⟨_, h1⟩ | ⟨h1, _⟩
        · exact copy_path_iff.1 h1
        · omega
      · intro a b ha' h
        rcases (cat_eps hx).1 h with h | h | ⟨h1, h2⟩
        · have := eps_lt h; omega
        · refine Or.inl ⟨h, ?_⟩
          obtain ⟨_, _, _, _, _⟩ := h; omega
        · exact Or.inr ⟨trivial, by omega⟩
      · intro a c b ha' h
        rcases cat_stp.1 h with h | h
        · have := stp_lt h; omega
        · refine ⟨h, ?_⟩
          obtain ⟨_, _, _, _, _⟩ := h; omega
    · intro h
      exact (copy_path_iff.2 h).mono (fun a b h => (cat_eps hx).2 (Or.inr (Or.inl h))) (fun a c b h => cat_stp.2 (Or.inr h))
  · exact (cat_spec hx ha).2.1 w
  · rw [hb, he, iff_false]
    intro h
    have := (h.inside (P := fun a => ¬ acc.node.length ≤ a) h3 h4 (by omega)).2
    omega
  · rw [he]
    constructor
    · intro h
      exact (h.inside (P := fun a => ¬ acc.node.length ≤ a) h3 h4 (by omega)).1
    · intro h
      exact h.mono (fun a b h => (cat_eps hx).2 (Or.inl h)) (fun a c b h => cat_stp.2 (Or.inl h))

theorem rep_W {x : NFA} (hx : x.WF) {k r} (hr : nfaRep x k = .ok r) : r.W = Mat.rep x.W k := by
  unfold nfaRep at hr
  split at hr
  · cases hr; exact opt_W hx
  · cases hr; exact star_W hx
  · cases hr; exact plus_W hx
  · cases hr; exact bare_W
  · cases hr; rfl
  · rename_i n h1 h2
    cases hr
    exact chain_W hx (by have : n ≠ 0 := h1; omega)
  · cases hr; exact star_W hx
  · rename_i n h1
    cases hr
    have : n ≠ 0 := h1
    rw [Mat.rep, if_neg this]
    exact atLeast_W hx (by omega)
  · cases hr; exact bare_W
  · cases hr; exact opt_W hx
  · rename_i m h1 h2
    cases hr
    have h1 : m ≠ 0 := h1
    have h2 : m ≠ 1 := h2
    rw [Mat.rep, if_neg (fun h => h1 h.symm), if_neg (by simp), if_neg h2, upTo_eq,
      opt_W (bounded_spec hx (Nat.le_refl 1) (by omega)).1, bounded_W hx (Nat.le_refl 1) (by omega)]
  · cases hr; rfl
  · rename_i n m h1 h2 h3 h4
    have hn : n ≠ 0 := by
      rintro rfl
      exact h3 rfl
    split at hr
    · rename_i e
      subst e
      cases hr
      rw [Mat.rep, if_pos rfl]
      exact chain_W hx (by omega)
    · rename_i hne
      split at hr
      · cases hr
        rw [Mat.rep, if_neg hne, if_pos hn]
        exact bounded_W hx (by omega) (by omega)
      · cases hr

theorem concat_W {hs : List Hir} (ih : ∀ h ∈ hs, ∀ x, build h = .ok x → h.ok = true → x.W = Code h) :
    ∀ x, buildConcat hs = .ok x → Hir.okList hs = true → x.W = CodeSeq hs := by
  induction hs with
  | nil => intro x h; simp [buildConcat] at h
  | cons h t iht =>
    intro x hx ho
    simp only [Hir.okList, Bool.and_eq_true] at ho
    cases t with
    | nil =>
      simp only [buildConcat] at hx
      exact ih h (by simp) x hx ho.1
    | cons h2 t =>
      rw [buildConcat] at hx
      · obtain ⟨acc, h1, hx⟩ := bind_ok hx
        obtain ⟨y, h3, hx⟩ := bind_ok hx
        cases hx
        have ga := (concat_good (fun h _ x hx ho => build_good h x hx ho) acc h1 ho.2).wf
        rw [cat_W (build_wf h3 ho.1) ga, ih h (by simp) y h3 ho.1,
          iht (fun h hh => ih h (List.mem_cons_of_mem _ hh)) acc h1 ho.2]
        exact (CodeSeq.eq_3 h (h2 :: t) nofun).symm
      · simp

theorem alt_W {hs : List Hir} (ih : ∀ h ∈ hs, ∀ x, build h = .ok x → h.ok = true → x.W = Code h) :
    ∀ ns L r, AltInv ns L → buildAlt ns hs = .ok r → Hir.okList hs = true → AltInv r (fun w => L w ∨ CodeAny hs w) := by
  induction hs with
  | nil =>
    intro ns L r hi hr _
    simp only [buildAlt, Except.ok.injEq] at hr
    subst hr
    simpa [CodeAny] using hi
  | cons h t iht =>
    intro ns L r hi hr ho
    simp only [Hir.okList, Bool.and_eq_true] at ho
    rw [buildAlt] at hr
    obtain ⟨y, h1, hr⟩ := bind_ok hr
    have e := ih h (by simp) y h1 ho.1
    have := iht (fun h hh => ih h (List.mem_cons_of_mem _ hh)) _ _ _ (altStep_spec (build_wf h1 ho.1) hi) hr ho.2
    have e2 : ∀ w, y.Accepts w ↔ Code h false true w := fun w => by rw [← e]; exact Iff.rfl
    simpa only [CodeAny, e2, or_assoc] using this

/-- The automaton built for a regex reads the four languages of `Code`. -/
theorem build_W : ∀ (h : Hir) (x : NFA), build h = .ok x → h.ok = true → x.W = Code h := by
  apply Hir.ind
  case empty =>
    intro x hx _
    simp only [build, Except.ok.injEq] at hx
    subst hx
    exact empty_W
  case literalU =>
    intro c x hx _
    simp only [build, Except.ok.injEq] at hx
    subst hx
    obtain ⟨h1, h2, h3, h4⟩ := two_spec (nx := [((c, c + 1), [1])]) (by simp)
    refine (one_of h2 h3 (by simp)).trans ?_
    rw [Code]
    congr 1
    funext w
    refine propext ((h4 w).trans ⟨?_, ?_⟩)
    · rintro ⟨d, rfl, r, t, h5, h6, h7⟩
      simp at h5
      simp [h5.1] at h6 h7
      simp; omega
    · intro hw
      exact ⟨c, hw, (c, c + 1), [1], by simp, by simp, by simp⟩
  case literalB => intro c x hx; simp [build] at hx
  case classU =>
    intro rs x hx ho
    simp only [build, Except.ok.injEq] at hx
    subst hx
    simp only [Hir.ok] at ho
    unfold nfaClass
    rw [class_next ho]
    obtain ⟨h1, h2, h3, h4⟩ := two_spec (nx := rs.map fun r => ((r.1, r.2 + 1), [1])) (by
      intro r t h
      simp only [List.mem_map, Prod.mk.injEq] at h
      obtain ⟨_, _, _, h⟩ := h
      exact h.symm)
    refine (one_of h2 h3 (by simp)).trans ?_
    rw [Code]
    congr 1
    funext w
    refine propext ((h4 w).trans ⟨?_, ?_⟩)
    · rintro ⟨d, rfl, r, t, h5, h6, h7⟩
      simp only [List.mem_map, Prod.mk.injEq] at h5
      obtain ⟨r', h8, rfl, _⟩ := h5
      exact ⟨d, rfl, r', h8, h6, by simp only at h7; omega⟩
    · rintro ⟨c, rfl, r, hr, h5, h6⟩
      exact ⟨c, rfl, (r.1, r.2 + 1), [1], List.mem_map.2 ⟨r, hr, rfl⟩, h5, by simp only; omega⟩
  case classB => intro x hx; simp [build] at hx
  case anchor => intro x hx; simp [build] at hx
  case wordBoundary => intro x hx; simp [build] at hx
  case rep =>
    intro k h ih x hx ho
    rw [build] at hx
    obtain ⟨y, h1, h2⟩ := bind_ok hx
    have hok : h.ok = true := by cases k <;> simp_all [Hir.ok]
    rw [Code, ← ih y h1 hok]
    exact rep_W (build_wf h1 hok) h2
  case group =>
    intro h ih x hx ho
    rw [build] at hx
    rw [Code]
    exact ih x hx (by simpa [Hir.ok] using ho)
  case concat =>
    intro hs ih x hx ho
    rw [build] at hx
    simp only [Hir.ok, Bool.and_eq_true] at ho
    rw [Code]
    exact concat_W ih x hx ho.2
  case alt =>
    intro hs ih x hx ho
    rw [build] at hx
    simp only [Hir.ok] at ho
    obtain ⟨ns, h1, h2⟩ := bind_ok hx
    cases h2
    have i1 := alt_W ih _ _ _ alt_inv_start h1 ho
    refine (one_of ⟨fun p h => absurd rfl (i1.eps p _ h).2.1, fun p c h => absurd rfl (i1.stp p c _ h).2.1⟩
      ⟨fun q h => absurd rfl (i1.eps _ q h).2.2, fun c q h => absurd rfl (i1.stp _ c q h).2.2⟩ (by simp)).trans ?_
    rw [Code]
    congr 1
    funext w
    refine propext ((i1.lang w).trans ?_)
    simp

theorem build_code {h : Hir} {x : NFA} (hx : build h = .ok x) (ho : h.ok = true) (w : List Nat) :
    x.Accepts w ↔ Code h false true w := by
  rw [← build_W h x hx ho]; exact Iff.rfl

variable {π ρ α E : Type} {parse : π → Except ρ Hir} {ps : List (π × (List Nat → List α → E))} {hs : List Hir}

theorem patCode_iff (hp : parseAll parse (ps.map Prod.fst) = .ok hs) (i : Nat) (w : List Nat) :
    PatCode parse ps i w ↔ ∃ h, hs[i]? = some h ∧ Code h false true w := by
  constructor
  · rintro ⟨p, h, h1, h2, h3⟩
    obtain ⟨h', e1, e2⟩ := (parsed_get hp i).1 p h1
    rw [h2] at e2
    cases e2
    exact ⟨h, e1, h3⟩
  · rintro ⟨h, h1, h3⟩
    obtain ⟨p, e1, e2⟩ := (parsed_get hp i).2 h h1
    exact ⟨p, h, e1, e2, h3⟩

theorem own_code {tn : TNFA} (hp : parseAll parse (ps.map Prod.fst) = .ok hs) (hb : buildAll hs = .ok tn)
    (ho : ∀ h ∈ hs, h.ok = true) (i w) : OwnAt hs i w ↔ PatCode parse ps i w := by
  rw [patCode_iff hp]
  constructor
  · rintro ⟨h, h1, x, h2, h3⟩
    exact ⟨h, h1, (build_code h2 (ho h (List.mem_of_getElem? h1)) w).1 h3⟩
  · rintro ⟨h, h1, h2⟩
    obtain ⟨x, hx, _⟩ := (buildAll_good hb ho).2.2 i h h1
    exact ⟨h, h1, x, hx, (build_code hx (ho h (List.mem_of_getElem? h1)) w).2 h2⟩

end Verif.Tok
