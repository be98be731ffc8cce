import Verif.Tok.Live
import Verif.Tok.CodeProof
import Verif.Tok.SpecProof

/-! # Helper lemmas: every node of an automaton leads to its end -/

namespace Verif.Tok

/-- Some characters lead from `p` to `q`. -/
def Leads (ns : List Node) (p q : Nat) : Prop := ∃ v, (∀ c ∈ v, IsChar c) ∧ NPath ns p v q

theorem Leads.refl (ns : List Node) (p : Nat) : Leads ns p p := ⟨[], by simp, .nil _⟩

theorem Leads.trans {ns : List Node} {p q r} (h1 : Leads ns p q) (h2 : Leads ns q r) : Leads ns p r := by
  obtain ⟨u, hu, h1⟩ := h1
  obtain ⟨v, hv, h2⟩ := h2
  refine ⟨u ++ v, fun c hc => ?_, h1.trans h2⟩
  rcases List.mem_append.1 hc with h | h
  · exact hu c h
  · exact hv c h

theorem Leads.addEps {ns : List Node} {p q a b} (h : Leads ns p q) : Leads (addEps ns a b) p q := by
  obtain ⟨u, hu, h⟩ := h
  exact ⟨u, hu, path_addEps h⟩

theorem Leads.edge {ns : List Node} {p q} (h : p < ns.length) : Leads (Tok.addEps ns p q) p q :=
  ⟨[], by simp, .single_eps (eps_addEps.2 (Or.inr ⟨rfl, rfl, h⟩))⟩

theorem Leads.left {ns ms : List Node} {p q} (h : Leads ns p q) : Leads (appendNodes ns ms) p q := by
  obtain ⟨u, hu, h⟩ := h
  exact ⟨u, hu, path_left h⟩

theorem Leads.right {ns ms : List Node} {p q} (h : Leads ms p q) : Leads (appendNodes ns ms) (ns.length + p) (ns.length + q) := by
  obtain ⟨u, hu, h⟩ := h
  exact ⟨u, hu, path_right h⟩

/-- Every node leads to the end. -/
structure NFA.Live (x : NFA) : Prop where
  b : x.b < x.node.length
  e : x.e < x.node.length
  leads : ∀ p, p < x.node.length → Leads x.node p x.e

theorem live_opt {x : NFA} (h : x.Live) : (nfaOpt x).Live where
  b := by simpa [nfaOpt, addEps] using h.b
  e := by simpa [nfaOpt, addEps] using h.e
  leads p hp := (h.leads p (by simpa [nfaOpt, addEps] using hp)).addEps

theorem live_plus {x : NFA} (h : x.Live) : (nfaPlus x).Live where
  b := by simpa [nfaPlus, addEps] using h.b
  e := by simpa [nfaPlus, addEps] using h.e
  leads p hp := (h.leads p (by simpa [nfaPlus, addEps] using hp)).addEps

theorem live_star {x : NFA} (h : x.Live) : (nfaStar x).Live where
  b := by simpa [nfaStar, addEps] using h.b
  e := by simpa [nfaStar, addEps] using h.b
  leads p hp := (h.leads p (by simpa [nfaStar, addEps] using hp)).addEps.trans (Leads.edge h.e)

theorem live_bare : nfaBare.Live where
  b := by simp [nfaBare]
  e := by simp [nfaBare]
  leads p hp := by
    simp [nfaBare] at hp
    subst hp
    exact Leads.refl _ _

/-- A copy behind: what is common to the loops. -/
theorem live_append {x acc : NFA} (hx : x.Live) (ha : acc.Live) {ns : List Node} {fin : Nat}
    (hlen : ns.length = acc.node.length + x.node.length)
    (hm : ∀ p q, Leads (addEps (appendNodes acc.node x.node) acc.e (acc.node.length + x.b)) p q → Leads ns p q)
    (hf : Leads ns (acc.node.length + x.e) fin) :
    ∀ p, p < ns.length → Leads ns p fin := by
  have he : ∀ p, p < x.node.length → Leads ns (acc.node.length + p) fin := fun p hp =>
    (hm _ _ (hx.leads p hp).right.addEps).trans hf
  intro p hp
  by_cases h : p < acc.node.length
  · refine (hm _ _ (ha.leads p h).left.addEps).trans ((hm _ _ (Leads.edge ?_)).trans (he _ hx.b))
    rw [length_appendNodes]
    have := ha.e
    omega
  · have : p = acc.node.length + (p - acc.node.length) := by omega
    rw [this]
    exact he _ (by omega)

theorem live_linkCopy {x acc : NFA} (hx : x.Live) (ha : acc.Live) : (linkCopy x acc).Live where
  b := by have := ha.b; simp [linkCopy, length_appendNodes]; omega
  e := by have := hx.e; simp [linkCopy, length_appendNodes]; omega
  leads := live_append hx ha (by simp [linkCopy, length_addEps, length_appendNodes]) (fun _ _ h => h) (Leads.refl _ _)

theorem live_linkCopyExit {x acc : NFA} {fin} (hx : x.Live) (ha : acc.Live) : (linkCopyExit x fin acc).Live where
  b := by have := ha.b; simp [linkCopyExit, length_appendNodes]; omega
  e := by have := hx.e; simp [linkCopyExit, length_appendNodes]; omega
  leads := live_append hx ha (by simp [linkCopyExit, length_addEps, length_appendNodes]) (fun _ _ h => h.addEps) (Leads.refl _ _)

theorem live_iter {f : NFA → NFA} (hf : ∀ x : NFA, x.Live → (f x).Live) (n) : ∀ {x : NFA}, x.Live → (iter f n x).Live := by
  induction n with
  | zero => intro x h; exact h
  | succ n ih => intro x h; exact ih (hf x h)

theorem live_chain {x : NFA} (hx : x.Live) (n) : (iter (linkCopy x) n x).Live :=
  live_iter (fun _ h => live_linkCopy hx h) n hx

theorem live_atLeast {x : NFA} (hx : x.Live) (n) : (nfaAtLeast x n).Live := by
  have ha := live_chain hx (n - 1)
  generalize hacc : iter (linkCopy x) (n - 1) x = acc at ha
  have hd : nfaAtLeast x n = { node := addEps (addEps (appendNodes acc.node x.node) acc.e (acc.node.length + x.b)) (acc.node.length + x.e) (acc.node.length + x.b)
                               b := acc.b
                               e := acc.node.length + x.b } := by
    rw [← hacc]; rfl
  rw [hd]
  refine ⟨?_, ?_, ?_⟩
  · have := ha.b; simp [length_appendNodes]; omega
  · have := hx.b; simp [length_appendNodes]; omega
  · refine live_append hx ha (by simp [length_addEps, length_appendNodes]) (fun _ _ h => h.addEps) (Leads.edge ?_)
    have := hx.e
    simp [length_appendNodes]; omega

theorem live_upTo {x : NFA} (hx : x.Live) (m) : (nfaUpTo x m).Live :=
  live_opt (live_iter (fun _ h => live_linkCopyExit hx h) (m - 1) hx)

theorem live_bounded {x : NFA} (hx : x.Live) (n m) : (nfaBounded x n m).Live :=
  live_iter (fun _ h => live_linkCopyExit hx h) (m - n) (live_chain hx (n - 1))

theorem live_rep {x : NFA} (hx : x.Live) {k r} (h : nfaRep x k = .ok r) : r.Live := by
  unfold nfaRep at h
  split at h
  · cases h; exact live_opt hx
  · cases h; exact live_star hx
  · cases h; exact live_plus hx
  · cases h; exact live_bare
  · cases h; exact hx
  · cases h; exact live_chain hx _
  · cases h; exact live_star hx
  · cases h; exact live_atLeast hx _
  · cases h; exact live_bare
  · cases h; exact live_opt hx
  · cases h; exact live_upTo hx _
  · cases h; exact hx
  · split at h
    · cases h; exact live_chain hx _
    · split at h
      · cases h; exact live_bounded hx _ _
      · cases h

theorem live_cat {x acc : NFA} (hx : x.Live) (ha : acc.Live) : (nfaCat x acc).Live where
  b := by have := hx.b; simp [nfaCat, length_appendNodes]; omega
  e := by have := ha.e; simp [nfaCat, length_appendNodes]; omega
  leads p hp := by
    simp only [nfaCat, length_addEps, length_appendNodes] at hp ⊢
    have h1 : ∀ p, p < acc.node.length →
        Leads (addEps (appendNodes acc.node x.node) (acc.node.length + x.e) acc.b) p acc.e := fun p hp => (ha.leads p hp).left.addEps
    by_cases h : p < acc.node.length
    · exact h1 p h
    · have : p = acc.node.length + (p - acc.node.length) := by omega
      rw [this]
      refine (hx.leads _ (by omega)).right.addEps.trans ((Leads.edge ?_).trans (h1 _ ha.b))
      have := hx.e
      rw [length_appendNodes]; omega

theorem live_two {nx : List ((Nat × Nat) × List Nat)} {c r} (h : (r, [1]) ∈ nx) (hc : IsChar c) (h1 : r.1 ≤ c) (h2 : c < r.2) :
    (NFA.mk [{ next := nx }, {}] 0 1).Live where
  b := by simp
  e := by simp
  leads p hp := by
    simp at hp
    have : p = 0 ∨ p = 1 := by omega
    rcases this with rfl | rfl
    · refine ⟨[c], by simpa using hc, .step ?_ (.nil _)⟩
      exact stp_two.2 (Or.inl ⟨rfl, r, [1], h, h1, h2, by simp⟩)
    · exact Leads.refl _ _

theorem live_concat {hs : List Hir} (ih : ∀ h ∈ hs, ∀ x, build h = .ok x → h.ok = true → h.live = true → x.Live) :
    ∀ x, buildConcat hs = .ok x → Hir.okList hs = true → Hir.liveAll hs = true → x.Live := by
  induction hs with
  | nil => intro x h; simp [buildConcat] at h
  | cons h t iht =>
    intro x hx ho hl
    simp only [Hir.okList, Bool.and_eq_true] at ho
    simp only [Hir.liveAll, Bool.and_eq_true] at hl
    cases t with
    | nil =>
      simp only [buildConcat] at hx
      exact ih h (by simp) x hx ho.1 hl.1
    | cons h2 t =>
      rw [buildConcat] at hx
      · obtain ⟨acc, h1, hx⟩ := bind_ok hx
        obtain ⟨y, h3, hx⟩ := bind_ok hx
        cases hx
        exact live_cat (ih h (by simp) y h3 ho.1 hl.1) (iht (fun h hh => ih h (List.mem_cons_of_mem _ hh)) acc h1 ho.2 hl.2)
      · simp

/-- All nodes but the first lead to node 1. -/
structure AltLive (ns : List Node) : Prop where
  len : 2 ≤ ns.length
  leads : ∀ p, p < ns.length → p ≠ 0 → Leads ns p 1

theorem altLive_step {x : NFA} {ns : List Node} (hx : x.Live) (h : AltLive ns) :
    AltLive (nfaAltStep x ns) ∧ Leads (nfaAltStep x ns) 0 1 := by
  have hxe := hx.e
  have hxb := hx.b
  have hlen := h.len
  have he : ∀ p, p < x.node.length → Leads (nfaAltStep x ns) (ns.length + p) 1 := by
    intro p hp
    refine (hx.leads p hp).right.addEps.addEps.trans (Leads.edge ?_)
    rw [length_addEps, length_appendNodes]; omega
  refine ⟨⟨?_, ?_⟩, ?_⟩
  · simp only [nfaAltStep, length_addEps, length_appendNodes]; omega
  · intro p hp h0
    by_cases hlt : p < ns.length
    · exact (h.leads p hlt h0).left.addEps.addEps
    · simp only [nfaAltStep, length_addEps, length_appendNodes] at hp
      have : p = ns.length + (p - ns.length) := by omega
      rw [this]
      exact he _ (by omega)
  · refine Leads.trans (Leads.addEps (Leads.edge ?_)) (he _ hxb)
    rw [length_appendNodes]; omega

theorem live_alt {hs : List Hir} (ih : ∀ h ∈ hs, ∀ x, build h = .ok x → h.ok = true → h.live = true → x.Live) :
    ∀ ns r, AltLive ns → (hs = [] → Leads ns 0 1) → buildAlt ns hs = .ok r → Hir.okList hs = true → Hir.liveAll hs = true →
      AltLive r ∧ Leads r 0 1 := by
  induction hs with
  | nil =>
    intro ns r h1 h2 hr _ _
    simp only [buildAlt, Except.ok.injEq] at hr
    subst hr
    exact ⟨h1, h2 rfl⟩
  | cons h t iht =>
    intro ns r h1 _ hr ho hl
    simp only [Hir.okList, Bool.and_eq_true] at ho
    simp only [Hir.liveAll, Bool.and_eq_true] at hl
    rw [buildAlt] at hr
    obtain ⟨y, hy, hr⟩ := bind_ok hr
    obtain ⟨g1, g2⟩ := altLive_step (ih h (by simp) y hy ho.1 hl.1) h1
    exact iht (fun h hh => ih h (List.mem_cons_of_mem _ hh)) _ _ g1 (fun _ => g2) hr ho.2 hl.2

theorem build_live : ∀ (h : Hir) (x : NFA), build h = .ok x → h.ok = true → h.live = true → x.Live := by
  apply Hir.ind
  case empty =>
    intro x hx _ _
    simp only [build, Except.ok.injEq] at hx
    subst hx
    refine ⟨by simp [nfaEmpty], by simp [nfaEmpty], ?_⟩
    intro p hp
    simp [nfaEmpty] at hp
    subst hp
    exact Leads.refl _ _
  case literalU =>
    intro c x hx _ hl
    simp only [build, Except.ok.injEq] at hx
    subst hx
    simp only [Hir.live, decide_eq_true_eq] at hl
    exact live_two (c := c) (r := (c, c + 1)) (by simp) hl (by simp) (by simp)
  case literalB => intro c x hx; simp [build] at hx
  case classU =>
    intro rs x hx ho hl
    simp only [build, Except.ok.injEq] at hx
    subst hx
    simp only [Hir.ok] at ho
    unfold nfaClass
    rw [class_next ho]
    simp only [Hir.live, Bool.and_eq_true, List.all_eq_true, decide_eq_true_eq] at hl
    simp only [classOk, Bool.and_eq_true, List.all_eq_true, decide_eq_true_eq] at ho
    cases rs with
    | nil => simp at hl
    | cons r rs =>
      exact live_two (c := r.1) (r := (r.1, r.2 + 1)) (by simp) (hl.2 r (by simp)) (by simp)
        (by have := ho.1 r (by simp); simp only; omega)
  case classB => intro x hx; simp [build] at hx
  case anchor => intro x hx; simp [build] at hx
  case wordBoundary => intro x hx; simp [build] at hx
  case rep =>
    intro k h ih x hx ho hl
    rw [build] at hx
    obtain ⟨y, h1, h2⟩ := bind_ok hx
    refine live_rep (ih y h1 ?_ (by simpa [Hir.live] using hl)) h2
    cases k <;> simp_all [Hir.ok]
  case group =>
    intro h ih x hx ho hl
    rw [build] at hx
    exact ih x hx (by simpa [Hir.ok] using ho) (by simpa [Hir.live] using hl)
  case concat =>
    intro hs ih x hx ho hl
    rw [build] at hx
    simp only [Hir.ok, Bool.and_eq_true] at ho
    exact live_concat ih x hx ho.2 (by simpa [Hir.live] using hl)
  case alt =>
    intro hs ih x hx ho hl
    rw [build] at hx
    simp only [Hir.ok] at ho
    simp only [Hir.live, Bool.and_eq_true] at hl
    obtain ⟨ns, h1, h2⟩ := bind_ok hx
    cases h2
    obtain ⟨g1, g2⟩ := live_alt ih _ _ ⟨by simp, by
      intro p hp h0
      simp at hp
      obtain rfl : p = 1 := by omega
      exact Leads.refl _ _⟩ (by rintro rfl; simp at hl) h1 ho hl.2
    have := g1.len
    refine ⟨by simp only; omega, by simp only; omega, ?_⟩
    intro p hp
    by_cases h0 : p = 0
    · rw [h0]; exact g2
    · exact g1.leads p hp h0

theorem buildAllLoop_live {hs : List Hir} (ho : ∀ h ∈ hs, h.ok = true) (hl : ∀ h ∈ hs, h.live = true) : ∀ {ns bs es r},
    (∀ p, p < ns.length → ∃ e ∈ es, Leads ns p e) → buildAllLoop hs (ns, bs, es) = .ok r →
      ∀ p, p < r.1.length → ∃ e ∈ r.2.2, Leads r.1 p e := by
  induction hs with
  | nil =>
    intro ns bs es r h hr
    simp only [buildAllLoop, Except.ok.injEq] at hr
    subst hr
    exact h
  | cons h t ih =>
    intro ns bs es r hi hr
    rw [buildAllLoop] at hr
    obtain ⟨x, hx, hr⟩ := bind_ok hr
    have hxl := build_live h x hx (ho h (by simp)) (hl h (by simp))
    refine ih (fun h hh => ho h (List.mem_cons_of_mem _ hh)) (fun h hh => hl h (List.mem_cons_of_mem _ hh)) ?_ hr
    intro p hp
    rw [length_appendNodes] at hp
    by_cases hlt : p < ns.length
    · obtain ⟨e, he, h⟩ := hi p hlt
      exact ⟨e, by simp [he], h.left⟩
    · have : p = ns.length + (p - ns.length) := by omega
      rw [this]
      exact ⟨ns.length + x.e, by simp, (hxl.leads _ (by omega)).right⟩

/-- Every node of the combined automaton leads to the end of a pattern. -/
theorem buildAll_live {hs : List Hir} {t : TNFA} (ht : buildAll hs = .ok t) (ho : ∀ h ∈ hs, h.ok = true)
    (hl : ∀ h ∈ hs, h.live = true) (hne : hs ≠ []) : ∀ p, p < t.node.length → ∃ e ∈ t.ends, Leads t.node p e := by
  have hg := buildAll_good ht ho
  unfold buildAll at ht
  obtain ⟨⟨ns, bs, es⟩, h1, h2⟩ := bind_ok ht
  cases h2
  have hi := buildAllLoop_live ho hl (by simp) h1
  have mono : ∀ {p q}, Leads ns p q → Leads (ns ++ [{ eps := bs }]) p q := by
    rintro p q ⟨v, hv, hp⟩
    exact ⟨v, hv, hp.mono (fun _ _ h => eps_snoc.2 (Or.inl h)) (fun _ _ _ h => stp_snoc.2 h)⟩
  have old : ∀ p, p < ns.length → ∃ e ∈ es, Leads (ns ++ [{ eps := bs }]) p e := by
    intro p hp
    obtain ⟨e, he, h⟩ := hi p hp
    exact ⟨e, he, mono h⟩
  intro p hp
  simp only [List.length_append, List.length_cons, List.length_nil] at hp ⊢
  by_cases hlt : p < ns.length
  · exact old p hlt
  · obtain rfl : p = ns.length := by omega
    have hall := allInv_loop allInv_start h1 ho
    have hbs : ∃ b, b ∈ bs := by
      cases hs with
      | nil => exact absurd rfl hne
      | cons h t =>
        obtain ⟨x, hx, hacc⟩ := hg.2.2 0 h rfl
        have hxl := build_live h x hx (ho h (by simp)) (hl h (by simp))
        obtain ⟨v, _, hv⟩ := hxl.leads _ hxl.b
        have hil : 0 < es.length := by rw [hall.len]; simp
        obtain ⟨y, hy, hlang⟩ := hall.lang 0 h es[0] rfl (List.getElem?_eq_getElem hil)
        rw [hx] at hy; cases hy
        obtain ⟨b, hb, _⟩ := (hlang v).2 hv
        exact ⟨b, hb⟩
    obtain ⟨b, hb⟩ := hbs
    obtain ⟨e, he, h⟩ := old b (hall.bsLt b hb)
    refine ⟨e, he, Leads.trans ⟨[], by simp, .single_eps (eps_snoc.2 (Or.inr ⟨rfl, hb⟩))⟩ h⟩

/-- A word is stuck exactly if it is no prefix of an accepted word. -/
theorem stuck_viable {hs : List Hir} {tn : TNFA} {d : DFA} (ht : buildAll hs = .ok tn) (ho : ∀ h ∈ hs, h.ok = true)
    (hl : ∀ h ∈ hs, h.live = true) (hne : hs ≠ []) (hd : DfaOf tn d) (w : List Nat) :
    d.obs w ≠ none ↔ Viable (OwnAt hs) w := by
  have hwf := (buildAll_good ht ho).1
  rw [ne_eq, hd.stuck]
  constructor
  · intro h
    obtain ⟨q, hq⟩ : ∃ q, NPath tn.node tn.b w q := by
      apply Classical.byContradiction
      intro hn
      exact h fun q hq => hn ⟨q, hq⟩
    have hqlt := path_lt hwf.eps hwf.stp hq hwf.b
    obtain ⟨e, he, v, hv, hp⟩ := buildAll_live ht ho hl hne q hqlt
    obtain ⟨k, hk⟩ := List.getElem?_of_mem he
    exact ⟨v, k, hv, (ownAt_iff ht ho k _).1 ⟨e, hk, hq.trans hp⟩⟩
  · rintro ⟨v, k, _, h⟩ hn
    obtain ⟨e, _, hp⟩ := (ownAt_iff ht ho k _).2 h
    have key : ∀ {p u q}, NPath tn.node p u q → ∀ w v, u = w ++ v → ∃ r, NPath tn.node p w r := by
      intro p u q h
      induction h with
      | nil p =>
        intro w v e
        have := List.append_eq_nil_iff.1 e.symm
        exact ⟨p, by rw [this.1]; exact .nil _⟩
      | eps h1 _ ih =>
        intro w v e
        obtain ⟨r, hr⟩ := ih w v e
        exact ⟨r, .eps h1 hr⟩
      | step h1 _ ih =>
        intro w v e
        cases w with
        | nil => exact ⟨_, .nil _⟩
        | cons c w =>
          simp only [List.cons_append, List.cons.injEq] at e
          obtain ⟨rfl, e⟩ := e
          obtain ⟨r, hr⟩ := ih w v e
          exact ⟨r, .step h1 hr⟩
    obtain ⟨r, hr⟩ := key hp w v rfl
    exact hn r hr

end Verif.Tok
