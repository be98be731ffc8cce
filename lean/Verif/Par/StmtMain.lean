import Verif.Par.StmtRun

/-!
# The machine on chunks
-/

namespace Verif.Par

variable {N T E : Type} {S : Stmts N T E} {fresh : Nat} {idx : T → Nat} {input : List T}

/-- Piece `error`. -/
theorem err_noNt (lo hi : Nat) : NoNt (([.err lo hi] : List (Piece N T)).map (Piece.sym idx)) := fun n h => by simp [Piece.sym] at h

theorem errTok_noNt (lo hi q : Nat) (t : T) : NoNt (([.err lo hi, .tok t q] : List (Piece N T)).map (Piece.sym idx)) :=
  fun n h => by simp [Piece.sym] at h

theorem Stmts.err_prefix {lo hi : Nat} {t : T} :
    (∃ k rhs, S.IRule k rhs ∧ ([.err lo hi] : List (Piece N T)).map (Piece.sym idx) ++ [.tm (.sym (idx t))] <+: rhs) ↔ idx t = S.sync := by
  constructor
  · rintro ⟨k, rhs, hI, z, hz⟩
    cases hI with
    | stmt j b hb => cases hb' : b.1 <;> simp [hb', Piece.sym] at hz
    | bad => simp [Piece.sym] at hz; exact hz.1
  · intro h
    exact ⟨_, _, .bad, [], by simp [Piece.sym, h]⟩

theorem Stmts.err_whole {lo hi r : Nat} : ¬ S.IRule r (([.err lo hi] : List (Piece N T)).map (Piece.sym idx)) := by
  intro hI
  generalize hl : ([Piece.err lo hi] : List (Piece N T)).map (Piece.sym idx) = rhs at hI
  cases hI with
  | stmt j b hb => cases hb' : b.1 <;> simp [hb', Piece.sym] at hl
  | bad => simp at hl

theorem Stmts.errTok_whole {lo hi q r : Nat} {t : T} (ht : idx t = S.sync) :
    S.IRule r (([.err lo hi, .tok t q] : List (Piece N T)).map (Piece.sym idx)) ↔ r = S.badRule := by
  constructor
  · intro hI
    generalize hl : ([Piece.err lo hi, .tok t q] : List (Piece N T)).map (Piece.sym idx) = rhs at hI
    cases hI with
    | stmt j b hb => cases hb' : b.1 <;> simp [hb', Piece.sym] at hl
    | bad => rfl
  · rintro rfl
    simpa [Piece.sym, ht] using IRule.bad (S := S)

theorem Stmts.errTok_prefix {lo hi q : Nat} {t t' : T} {k : Nat} {rhs : List Sym} (hI : S.IRule k rhs) :
    ¬ ([.err lo hi, .tok t q] : List (Piece N T)).map (Piece.sym idx) ++ [.tm (.sym (idx t'))] <+: rhs := by
  rintro ⟨z, hz⟩
  cases hI with
  | stmt j b hb => cases hb' : b.1 <;> simp [hb', Piece.sym] at hz
  | bad => simp [Piece.sym] at hz

theorem startOf_tokP {b d : Nat} {l : List T} (h : l ≠ []) : startOf d (tokP b l : List (Piece N T)) = b := by
  cases l with
  | nil => exact absurd rfl h
  | cons t l => rfl

theorem errStartOf_tokP {b d : Nat} {l : List T} : errStartOf d (tokP b l : List (Piece N T)) = d := by
  induction l generalizing b with
  | nil => rfl
  | cons t l ih => exact ih

section

variable (hf : fresh ≠ 0 ∧ fresh ≠ 1)
include hf

/-- Reading tokens that begin a statement. -/
theorem Stmts.scanWord {v : Option N} {i b0 : Nat} {calls : List (Call N T)} (z : List T) (u : List T) : ∀ (d : List T) (m : Mach N T),
    S.St m (listP i v ++ tokP b0 d) (b0 + d.length) calls → input.drop (b0 + d.length) = u ++ z → (u = [] ∨ S.Pre ((d ++ u).map idx)) →
    S.Reach fresh idx input m (listP i v ++ tokP b0 (d ++ u)) (b0 + (d ++ u).length) calls := by
  induction u with
  | nil => intro d m h _ _; simpa using h.reach
  | cons t u ih =>
    intro d m h hd hp
    obtain ⟨h1, h2⟩ := drop_cons hd
    have hp : S.Pre ((d ++ t :: u).map idx) := by
      rcases hp with hp | hp
      · cases hp
      · exact hp
    have hsh := S.shift (idx := idx) hf h h1 (by rw [tokP_sym]; exact kinds_noNt d) (by
      rw [tokP_sym]
      exact S.prefix_iff.2 (hp.of_prefix ⟨u.map idx, by simp⟩))
    refine hsh.trans fun m' h' => ?_
    have e : (d ++ [t]) ++ u = d ++ t :: u := by simp
    have := ih (d ++ [t]) m' (by
      rw [tokP_append]
      simpa [tokP, Nat.add_assoc] using h') (by simpa [Nat.add_assoc] using h2) (.inr (by rw [e]; exact hp))
    rwa [e] at this

/-- Behind `error`, tokens are skipped. -/
theorem Stmts.scanErr {v : Option N} {i lo : Nat} {calls : List (Call N T)} (z : List T) (u : List T) : ∀ (pos hi : Nat) (m : Mach N T),
    S.St m (listP i v ++ [.err lo hi]) pos calls → lo ≤ pos → input.drop pos = u ++ z → (∀ t ∈ u, idx t ≠ S.sync) →
    S.Reach fresh idx input m (listP i v ++ [.err lo (if u = [] then hi else pos + u.length - 1)]) (pos + u.length) calls := by
  induction u with
  | nil => intro pos hi m h _ _ _; simpa using h.reach
  | cons t u ih =>
    intro pos hi m h hlo hd hu
    obtain ⟨h1, h2⟩ := drop_cons hd
    have hrec := S.recover (idx := idx) hf h h1 (err_noNt lo hi) (fun k rhs hI hp => hu t (by simp) (S.err_prefix.1 ⟨k, rhs, hI, hp⟩))
      (fun r hI => absurd hI S.err_whole)
    simp only [startOf, errStartOf, List.isEmpty_cons, Bool.false_eq_true, if_false, Nat.min_self, Nat.min_eq_right hlo] at hrec
    refine hrec.trans fun m' h' => ?_
    have := ih (pos + 1) pos m' h' (by omega) h2 (fun t ht => hu t (by simp [ht]))
    have e : (if u = [] then pos else pos + 1 + u.length - 1) = pos + (t :: u).length - 1 := by
      split
      · rename_i h; simp [h]
      · simp
    rw [e] at this
    simpa [Nat.add_assoc, Nat.add_comm 1] using this

/-- Behind `error ;` comes a token that cannot begin a statement. -/
theorem Stmts.rejoin {v : Option N} {i lo hi x : Nat} {calls : List (Call N T)} {m : Mach N T} {t t' : T}
    (h : S.St m (listP i v ++ [.err lo hi, .tok t x]) (x + 1) calls) (hlo : lo ≤ x) (h1 : input[x + 1]? = some t') (hs : ¬ S.Starts idx t') :
    S.Reach fresh idx input m (listP i v ++ [.err lo (x + 1)]) (x + 1) calls := by
  have hrec := S.recover (idx := idx) hf h h1 (errTok_noNt lo hi x t) (fun k rhs hI => S.errTok_prefix hI) (fun _ _ => hs)
  simp only [startOf, errStartOf, List.isEmpty_cons, Bool.false_eq_true, if_false, Nat.min_eq_right hlo] at hrec
  rwa [Nat.min_eq_left (by omega : x ≤ x + 1)] at hrec

/-- Behind `error`, segments are skipped up to the last separator. -/
theorem Stmts.scanSegs {v : Option N} {i lo : Nat} {calls : List (Call N T)} (z : List T) (tail : List (Segm T)) : ∀ (s : Segm T) (pos hi : Nat) (m : Mach N T),
    S.St m (listP i v ++ [.err lo hi]) pos calls → lo ≤ pos → input.drop pos = textOf (s :: tail) ++ z →
    (∀ s' ∈ s :: tail, idx s'.2 = S.sync ∧ ∀ t ∈ s'.1, idx t ≠ S.sync) →
    (∀ s' ∈ tail, ∀ t, (s'.1 ++ [s'.2]).head? = some t → ¬ S.Starts idx t) →
    S.Reach fresh idx input m
      (listP i v ++ [.err lo (if (Chunk.last (s, tail)).1 ≠ [] then pos + (textOf (s :: tail)).length - 2 else if tail = [] then hi else
        pos + (textOf (s :: tail)).length - 1), .tok (Chunk.last (s, tail)).2 (pos + (textOf (s :: tail)).length - 1)])
      (pos + (textOf (s :: tail)).length) calls := by
  induction tail with
  | nil =>
    intro s pos hi m h hlo hd hsep _
    have hd : input.drop pos = s.1 ++ (s.2 :: z) := by simpa [textOf] using hd
    obtain ⟨hs1, hs2⟩ := hsep s (by simp)
    refine (S.scanErr hf _ _ pos hi m h hlo hd hs2).trans fun m' h' => ?_
    have hd' : input.drop (pos + s.1.length) = s.2 :: z := by
      rw [← List.drop_drop, hd]; simp
    have := S.shift (idx := idx) hf h' (drop_cons hd').1 (err_noNt _ _) (S.err_prefix.2 hs1)
    have hlen : (textOf [s]).length = s.1.length + 1 := by simp [textOf]
    rw [hlen]
    have hl : Chunk.last (s, []) = s := rfl
    rw [hl]
    have e : (if s.1 ≠ [] then pos + (s.1.length + 1) - 2 else if ([] : List (Segm T)) = [] then hi else pos + (s.1.length + 1) - 1) =
        (if s.1 = [] then hi else pos + s.1.length - 1) := by
      by_cases hs : s.1 = []
      · simp [hs]
      · simp [hs]; omega
    rw [e]
    exact this
  | cons s2 tail ih =>
    intro s pos hi m h hlo hd hsep hbad
    obtain ⟨hs1, hs2⟩ := hsep s (by simp)
    have hd1 : input.drop pos = s.1 ++ (s.2 :: (textOf (s2 :: tail) ++ z)) := by
      rw [hd]; simp [textOf]
    have hd2 : input.drop (pos + s.1.length) = s.2 :: (textOf (s2 :: tail) ++ z) := by
      rw [← List.drop_drop, hd1]; simp
    obtain ⟨k1, k2⟩ := drop_cons hd2
    refine (S.scanErr hf _ _ pos hi m h hlo hd1 hs2).trans fun m' h' => ?_
    refine (S.shift (idx := idx) hf h' k1 (err_noNt _ _) (S.err_prefix.2 hs1)).trans fun m' h' => ?_
    obtain ⟨t', z', hz⟩ : ∃ t' z', s2.1 ++ [s2.2] = t' :: z' := by
      cases s2.1 with
      | nil => exact ⟨_, _, rfl⟩
      | cons a l => exact ⟨_, _, rfl⟩
    have k3 : input[pos + s.1.length + 1]? = some t' := by
      have : textOf (s2 :: tail) ++ z = t' :: (z' ++ textOf tail ++ z) := by
        simp only [textOf, List.flatMap_cons, hz]; simp
      rw [this] at k2
      exact (drop_cons k2).1
    refine (S.rejoin hf h' (by omega) k3 (hbad s2 (by simp) t' (by rw [hz]; rfl))).trans fun m' h' => ?_
    have := ih s2 (pos + s.1.length + 1) (pos + s.1.length + 1) m' h' (by omega) k2 (fun s' hs' => hsep s' (by simp at hs' ⊢; right; exact hs'))
      (fun s' hs' => hbad s' (by simp [hs']))
    have hlen : (textOf (s :: s2 :: tail)).length = s.1.length + 1 + (textOf (s2 :: tail)).length := by
      simp [textOf]; omega
    have hl : Chunk.last (s, s2 :: tail) = Chunk.last (s2, tail) := by
      simp only [Chunk.last]
      rw [List.getLast?_cons]
      rfl
    have hp : pos + (s.1.length + 1 + (textOf (s2 :: tail)).length) = pos + s.1.length + 1 + (textOf (s2 :: tail)).length := by omega
    rw [hlen, hl, hp]
    have e : (if (Chunk.last (s2, tail)).1 ≠ [] then pos + s.1.length + 1 + (textOf (s2 :: tail)).length - 2 else if (s2 :: tail) = [] then hi else
        pos + s.1.length + 1 + (textOf (s2 :: tail)).length - 1) = (if (Chunk.last (s2, tail)).1 ≠ [] then
        pos + s.1.length + 1 + (textOf (s2 :: tail)).length - 2 else if tail = [] then pos + s.1.length + 1 else
        pos + s.1.length + 1 + (textOf (s2 :: tail)).length - 1) := by
      by_cases h1 : (Chunk.last (s2, tail)).1 = []
      · simp only [h1, ne_eq, not_true_eq_false, if_false]
        by_cases h2 : tail = []
        · subst h2
          have : s2.1 = [] := h1
          simp [textOf, this]
        · simp [h2]
      · simp [h1]
    rw [e]
    exact this

omit hf in
/-- Where a text stops to be the begin of a statement. -/
theorem Stmts.mismatch {l : List T} (hl : l ≠ []) (h : ¬ S.Pre (l.map idx)) :
    ∃ u t u', l = u ++ t :: u' ∧ (u = [] ∨ S.Pre (u.map idx)) ∧ ¬ S.Pre ((u ++ [t]).map idx) := by
  have key : ∀ (l d : List T), (d = [] ∨ S.Pre (d.map idx)) → l ≠ [] → ¬ S.Pre ((d ++ l).map idx) →
      ∃ u t u', d ++ l = u ++ t :: u' ∧ (u = [] ∨ S.Pre (u.map idx)) ∧ ¬ S.Pre ((u ++ [t]).map idx) := by
    intro l
    induction l with
    | nil => intro d _ h; exact absurd rfl h
    | cons t l ih =>
      intro d hd _ hn
      by_cases hp : S.Pre ((d ++ [t]).map idx)
      · have e : d ++ t :: l = (d ++ [t]) ++ l := by simp
        rw [e] at hn ⊢
        refine ih (d ++ [t]) (.inr hp) ?_ hn
        rintro rfl
        simp only [List.append_nil] at hn
        exact hn hp
      · exact ⟨d, t, l, rfl, hd, hp⟩
  exact key l [] (.inl rfl) hl h

/-- The first error of a chunk. -/
theorem Stmts.firstErr {v : Option N} {i b : Nat} {calls : List (Call N T)} {m : Mach N T} {u z : List T} {t : T}
    (h : S.St m (listP i v) b calls) (hd : input.drop b = u ++ t :: z) (hu : u = [] ∨ S.Pre (u.map idx))
    (hk : ¬ S.Pre ((u ++ [t]).map idx)) (hc : ∀ r, S.IRule r (kinds idx u) → ¬ S.Starts idx t) :
    S.Reach fresh idx input m (listP i v ++ [.err b (b + u.length)]) (if u = [] then b else b + 1) calls := by
  have h0 := S.scanWord hf (t :: z) u [] m (b0 := b) (by simpa [tokP] using h) (by simpa using hd) (by simpa using hu)
  simp only [List.nil_append] at h0
  refine h0.trans fun m' h' => ?_
  have ht : input[b + u.length]? = some t := by
    have : input.drop (b + u.length) = t :: z := by rw [← List.drop_drop, hd]; simp
    exact (drop_cons this).1
  have := S.recover (idx := idx) hf h' ht (by rw [tokP_sym]; exact kinds_noNt u) (by
    intro k rhs hI hp
    rw [tokP_sym] at hp
    exact hk (S.prefix_iff.1 ⟨k, rhs, hI, hp⟩)) (by
    intro r hI
    rw [tokP_sym] at hI
    exact hc r hI)
  by_cases hu : u = []
  · subst hu
    simpa [tokP, startOf, errStartOf] using this
  · have hne : (tokP b u : List (Piece N T)).isEmpty = false := by
      cases u with
      | nil => exact absurd rfl hu
      | cons => rfl
    rw [startOf_tokP hu, errStartOf_tokP, hne] at this
    rw [Nat.min_eq_left (by omega : b ≤ b + u.length)] at this
    simpa [hu] using this

omit hf in
theorem chunk_last_cons (s s2 : Segm T) (tail : List (Segm T)) : Chunk.last (s, s2 :: tail) = Chunk.last (s2, tail) := by
  simp only [Chunk.last]
  rw [List.getLast?_cons]
  rfl

/-- A chunk that is read as an error. -/
theorem Stmts.badChunk (hS : S.Ok) {v : Option N} {i b : Nat} {calls : List (Call N T)} {m : Mach N T} {c : Chunk T} {z : List T}
    (h : S.St m (listP i v) b calls) (hd : input.drop b = c.text ++ z)
    (hsep : ∀ s ∈ c.1 :: c.2, idx s.2 = S.sync ∧ ∀ t ∈ s.1, idx t ≠ S.sync)
    (hbad : ∀ s ∈ c.2, ∀ t, (s.1 ++ [s.2]).head? = some t → ¬ S.Starts idx t)
    (hno : c.2 = [] → ∀ b ∈ S.bodies, b.1 ≠ c.1.1.map idx) :
    S.Reach fresh idx input m (listP i v ++ [.err b (if S.wide idx c then b + c.text.length - 1 else b + c.text.length - 2),
      .tok c.last.2 (b + c.text.length - 1)]) (b + c.text.length) calls := by
  obtain ⟨⟨toks, semi⟩, tail⟩ := c
  simp only at hsep hbad hno
  obtain ⟨hs1, hs2⟩ := hsep (toks, semi) (by simp)
  simp only at hs1 hs2
  have htext : Chunk.text ((toks, semi), tail) = toks ++ semi :: textOf tail := by simp [Chunk.text, textOf]
  by_cases hbody : ∃ b ∈ S.bodies, b.1 = toks.map idx
  · -- the first segment is a statement, but what follows is not
    obtain ⟨bd, hb1, hb2⟩ := hbody
    cases tail with
    | nil => exact absurd hb2 (hno rfl bd hb1)
    | cons s2 tail =>
      obtain ⟨t', z', hz⟩ : ∃ t' z', s2.1 ++ [s2.2] = t' :: z' := by
        cases s2.1 with
        | nil => exact ⟨_, _, rfl⟩
        | cons a l => exact ⟨_, _, rfl⟩
      have htx : textOf (s2 :: tail) = t' :: (z' ++ textOf tail) := by simp only [textOf, List.flatMap_cons, hz]; simp
      have hd1 : input.drop b = (toks ++ [semi]) ++ t' :: (z' ++ textOf tail ++ z) := by
        rw [hd, htext, htx]; simp
      have hst := hbad s2 (by simp) t' (by rw [hz]; rfl)
      have h1 := S.firstErr hf h hd1 (.inr ⟨bd, hb1, by simp [hb2, hs1]⟩) (hS.pre_end hs1) (fun _ _ => hst)
      rw [if_neg (by simp)] at h1
      refine h1.trans fun m' h' => ?_
      have hwide : S.wide idx ((toks, semi), s2 :: tail) = (Chunk.last ((toks, semi), s2 :: tail)).1.isEmpty := by
        rcases toks with _ | ⟨a, _ | _⟩ <;> rfl
      have hd2 : input.drop (b + 1) = (toks ++ [semi]).tail ++ textOf (s2 :: tail) ++ z := by
        rw [← List.tail_drop, hd, htext]
        cases toks <;> simp
      cases toks with
      | nil =>
        have := S.scanSegs hf z tail s2 (b + 1) (b + 1) m' (by simpa using h') (by omega) (by simpa using hd2)
          (fun s hs => hsep s (by simp at hs ⊢; right; exact hs)) (fun s hs => hbad s (by simp [hs]))
        rw [htext, hwide, chunk_last_cons]
        have hlen : ([] ++ semi :: textOf (s2 :: tail)).length = 1 + (textOf (s2 :: tail)).length := by simp; omega
        rw [hlen, ← Nat.add_assoc]
        have e : (if (Chunk.last (s2, tail)).1.isEmpty = true then b + 1 + (textOf (s2 :: tail)).length - 1 else b + 1 + (textOf (s2 :: tail)).length - 2) =
            (if (Chunk.last (s2, tail)).1 ≠ [] then b + 1 + (textOf (s2 :: tail)).length - 2 else if tail = [] then b + 1 else
              b + 1 + (textOf (s2 :: tail)).length - 1) := by
          by_cases h1 : (Chunk.last (s2, tail)).1 = []
          · simp only [h1, List.isEmpty_nil, if_true, ne_eq, not_true_eq_false, if_false]
            by_cases h2 : tail = []
            · subst h2
              have : s2.1 = [] := h1
              simp [textOf, this]
            · simp [h2]
          · have : (Chunk.last (s2, tail)).1.isEmpty = false := by simpa using h1
            simp [h1, this]
        rw [e]
        exact this
      | cons t0 toks =>
        have := S.scanSegs hf z (s2 :: tail) (toks, semi) (b + 1) _ m' h' (by omega) (by rw [hd2]; simp [textOf])
          (fun s hs => by
            rcases List.mem_cons.1 hs with rfl | hs
            · exact ⟨hs1, fun t ht => hs2 t (by simp [ht])⟩
            · exact hsep s (by simp at hs ⊢; right; exact hs)) hbad
        rw [htext, hwide, chunk_last_cons]
        rw [chunk_last_cons] at this
        have hlen : (t0 :: toks ++ semi :: textOf (s2 :: tail)).length = 1 + (textOf ((toks, semi) :: s2 :: tail)).length := by
          simp [textOf]; omega
        rw [hlen, ← Nat.add_assoc]
        have e : (if (Chunk.last (s2, tail)).1.isEmpty = true then b + 1 + (textOf ((toks, semi) :: s2 :: tail)).length - 1 else
            b + 1 + (textOf ((toks, semi) :: s2 :: tail)).length - 2) =
            (if (Chunk.last (s2, tail)).1 ≠ [] then b + 1 + (textOf ((toks, semi) :: s2 :: tail)).length - 2 else if (s2 :: tail) = [] then
              b + (t0 :: toks ++ [semi]).length else b + 1 + (textOf ((toks, semi) :: s2 :: tail)).length - 1) := by
          by_cases h1 : (Chunk.last (s2, tail)).1 = []
          · simp [h1]
          · have : (Chunk.last (s2, tail)).1.isEmpty = false := by simpa using h1
            simp [h1, this]
        rw [e]
        exact this
  · -- the first segment is no statement
    have hnp : ¬ S.Pre ((toks ++ [semi]).map idx) := fun hp => hbody (hS.pre_whole hs1 hp)
    obtain ⟨u, t, u', hu1, hu2, hu3⟩ := Stmts.mismatch (by simp) hnp
    have hd1 : input.drop b = u ++ t :: (u' ++ textOf tail ++ z) := by
      rw [hd, htext, show toks ++ semi :: textOf tail ++ z = (toks ++ [semi]) ++ (textOf tail ++ z) by simp, hu1]; simp
    have huns : ∀ t ∈ u, idx t ≠ S.sync := by
      intro x hx
      have hsub : u <+: toks := by
        rcases List.eq_nil_or_concat u' with rfl | ⟨u2, y, rfl⟩
        · have := List.append_inj_left' hu1 rfl
          exact ⟨[], by simp [this]⟩
        · have : toks ++ [semi] = (u ++ t :: u2) ++ [y] := by simp [hu1]
          have := List.append_inj_left' this rfl
          exact ⟨t :: u2, by simp [this]⟩
      exact hs2 x (hsub.subset hx)
    have h1 := S.firstErr hf h hd1 hu2 hu3 (fun r hI => absurd hI (S.body_none huns))
    refine h1.trans fun m' h' => ?_
    cases u with
    | nil =>
      simp only [if_true] at h'
      have := S.scanSegs hf z tail (toks, semi) b _ m' h' (by omega) hd hsep hbad
      rw [show textOf ((toks, semi) :: tail) = Chunk.text ((toks, semi), tail) from rfl] at this
      have e : (if S.wide idx ((toks, semi), tail) = true then b + (Chunk.text ((toks, semi), tail)).length - 1 else b + (Chunk.text ((toks, semi), tail)).length - 2) =
          (if (Chunk.last ((toks, semi), tail)).1 ≠ [] then b + (Chunk.text ((toks, semi), tail)).length - 2 else if tail = [] then b + ([] : List T).length else
            b + (Chunk.text ((toks, semi), tail)).length - 1) := by
        have hw : S.wide idx ((toks, semi), tail) = (Chunk.last ((toks, semi), tail)).1.isEmpty := by
          rcases toks with _ | ⟨a, _ | ⟨a2, l⟩⟩
          · rfl
          · cases tail with
            | cons => rfl
            | nil =>
              have : t = a := by simp at hu1; exact hu1.1.symm
              subst this
              have : ¬ S.Starts idx t := fun hst => hu3 (S.starts_iff.1 hst)
              simp [wide, this, Chunk.last]
          · rfl
        rw [hw]
        by_cases h1 : (Chunk.last ((toks, semi), tail)).1 = []
        · simp only [h1, List.isEmpty_nil, if_true, ne_eq, not_true_eq_false, if_false]
          by_cases h2 : tail = []
          · subst h2
            have : toks = [] := h1
            simp [Chunk.text, textOf, this]
          · simp [h2]
        · have : (Chunk.last ((toks, semi), tail)).1.isEmpty = false := by simpa using h1
          simp [h1, this]
      rw [e]
      exact this
    | cons t0 u =>
      cases toks with
      | nil =>
        cases u <;> simp at hu1
      | cons t0' toks =>
        have ht0 : t0' = t0 := by simp at hu1; exact hu1.1
        subst ht0
        simp only [List.cons_ne_nil, if_false] at h'
        have hd2 : input.drop (b + 1) = textOf ((toks, semi) :: tail) ++ z := by
          rw [← List.tail_drop, hd, htext]
          simp [textOf]
        have := S.scanSegs hf z tail (toks, semi) (b + 1) _ m' h' (by omega) hd2 (fun s hs => by
            rcases List.mem_cons.1 hs with rfl | hs
            · exact ⟨hs1, fun t ht => hs2 t (by simp [ht])⟩
            · exact hsep s (by simp at hs ⊢; right; exact hs)) hbad
        have hlen : (Chunk.text ((t0' :: toks, semi), tail)).length = 1 + (textOf ((toks, semi) :: tail)).length := by
          simp [Chunk.text, textOf]; omega
        have hl : (Chunk.last ((t0' :: toks, semi), tail)).2 = (Chunk.last ((toks, semi), tail)).2 := by
          cases tail with
          | nil => rfl
          | cons => rw [chunk_last_cons, chunk_last_cons]
        rw [hlen, hl, ← Nat.add_assoc]
        have e : (if S.wide idx ((t0' :: toks, semi), tail) = true then b + 1 + (textOf ((toks, semi) :: tail)).length - 1 else
            b + 1 + (textOf ((toks, semi) :: tail)).length - 2) =
            (if (Chunk.last ((toks, semi), tail)).1 ≠ [] then b + 1 + (textOf ((toks, semi) :: tail)).length - 2 else if tail = [] then
              b + (t0' :: u).length else b + 1 + (textOf ((toks, semi) :: tail)).length - 1) := by
          cases tail with
          | nil =>
            cases toks with
            | nil =>
              have hu : u = [] := by
                cases u with
                | nil => rfl
                | cons => simp at hu1
              subst hu
              have hst : S.Starts idx t0' := by
                rcases hu2 with hu2 | hu2
                · cases hu2
                · exact S.starts_iff.2 hu2
              simp [wide, hst, Chunk.last, textOf]
            | cons a l => simp [wide, Chunk.last]
          | cons s2 tail =>
            have hw : S.wide idx ((t0' :: toks, semi), s2 :: tail) = (Chunk.last (s2, tail)).1.isEmpty := by
              rw [← chunk_last_cons (t0' :: toks, semi)]
              rcases toks with _ | ⟨a, l⟩ <;> rfl
            rw [hw, chunk_last_cons]
            by_cases h1 : (Chunk.last (s2, tail)).1 = []
            · simp [h1]
            · have : (Chunk.last (s2, tail)).1.isEmpty = false := by simpa using h1
              simp [h1, this]
        rw [e]
        exact this

omit hf in
theorem head_drop {pos : Nat} {z : List T} (h : input.drop pos = z) : input[pos]? = z.head? := by
  rw [← h]; simp

/-- The call for a chunk, with something behind it that can begin a statement or with nothing behind it. -/
theorem Stmts.chunkItem (hS : S.Ok) {v : Option N} {i b : Nat} {calls : List (Call N T)} {m : Mach N T} {c : Chunk T} {z : List T}
    (h : S.St m (listP i v) b calls) (hd : input.drop b = c.text ++ z)
    (hsep : ∀ s ∈ c.1 :: c.2, idx s.2 = S.sync ∧ ∀ t ∈ s.1, idx t ≠ S.sync)
    (hbad : ∀ s ∈ c.2, ∀ t, (s.1 ++ [s.2]).head? = some t → ¬ S.Starts idx t)
    (hz : ∀ t, z.head? = some t → S.Starts idx t) {k : Call N T} {gen : List (Arg N T) → Except E N} (hk : S.ItemCall idx c k gen) :
    (∀ w, gen k.2 = .ok w → ∃ i', S.Reach fresh idx input m (listP i v ++ [.nt 1 w i']) (b + c.text.length) (calls ++ [k])) ∧
    ∀ x, gen k.2 = .error x → S.Ends fresh idx input m (.error (.reducer x)) (calls ++ [k]) := by
  have hnext : input[b + c.text.length]? = z.head? := by
    apply head_drop
    rw [← List.drop_drop, hd]; simp
  have hcomp : ∀ (Y : List (Piece N T)), S.Reach fresh idx input m (listP i v ++ Y) (b + c.text.length) calls →
      NoNt (Y.map (Piece.sym idx)) → S.IRule k.1 (Y.map (Piece.sym idx)) →
      (∀ t' k rhs, S.IRule k rhs → ¬ Y.map (Piece.sym idx) ++ [.tm (.sym (idx t'))] <+: rhs) →
      (∀ r', S.IRule r' (Y.map (Piece.sym idx)) → k.1 ≤ r') → (∃ l rhs, S.rules[k.1]? = some ⟨l, rhs, gen⟩) → (∀ P ∈ Y, ¬ P.Bad input) →
      Y.map (Piece.arg input) = k.2 →
      (∀ w, gen k.2 = .ok w → ∃ i', S.Reach fresh idx input m (listP i v ++ [.nt 1 w i']) (b + c.text.length) (calls ++ [k])) ∧
      ∀ x, gen k.2 = .error x → S.Ends fresh idx input m (.error (.reducer x)) (calls ++ [k]) := by
    intro Y hr hy h1 h2 h3 ⟨l, rhs, h4⟩ h5 h6
    obtain ⟨n, m', hr1, hr2⟩ := hr
    have := S.item hf hr2 hy h1 (fun t ht => hz t (by rw [← hnext]; exact ht)) (fun t _ => h2 t) h3 h4 h5
    rw [h6] at this
    refine ⟨fun w hw => ?_, fun x hx => ?_⟩
    · obtain ⟨i', k', m2, e1, e2⟩ := this.1 w hw
      exact ⟨i', n + k', m2, hr1.then e1, e2⟩
    · obtain ⟨k', m2, e1, e2⟩ := this.2 x hx
      exact ⟨n + k', m2, hr1.then e1, e2⟩
  cases hk with
  | stmt s j bd h1 h2 h3 =>
    obtain ⟨hs1, hs2⟩ := hsep s (by simp)
    have ht : Chunk.text (s, []) = s.1 ++ [s.2] := by simp [Chunk.text, textOf]
    refine hcomp (tokP b (s.1 ++ [s.2])) ?_ ?_ ?_ ?_ ?_ ?_ (tokP_good b _) (tokP_arg b _)
    · have := S.scanWord (idx := idx) hf z (s.1 ++ [s.2]) [] m (b0 := b) (by simpa [tokP] using h) (by rw [← ht]; simpa using hd)
        (.inr ⟨bd, List.mem_of_getElem? h1, by simp [h2, hs1]⟩)
      rw [ht]
      simpa using this
    · rw [tokP_sym]; exact kinds_noNt _
    · rw [tokP_sym]; exact (S.body_iff hs1).2 ⟨j, bd, rfl, h1, h2⟩
    · intro t' k rhs hI hp
      rw [tokP_sym] at hp
      exact hS.pre_end hs1 (S.prefix_iff.1 ⟨k, rhs, hI, hp⟩)
    · intro r' hr'
      rw [tokP_sym] at hr'
      obtain ⟨j', b', rfl, h4, h5⟩ := (S.body_iff hs1).1 hr'
      exact Nat.add_le_add_right (h3 j' b' h4 h5) 2
    · exact ⟨_, _, S.rules_at.2 (.inr (.inr (.inl ⟨j, bd, rfl, h1, rfl⟩)))⟩
  | bad c hno =>
    have hlast : idx c.last.2 = S.sync := by
      have : c.last ∈ c.1 :: c.2 := by
        unfold Chunk.last
        cases hl : c.2.getLast? with
        | none => simp
        | some x => exact List.mem_cons_of_mem _ (List.mem_of_getLast? hl)
      exact (hsep _ this).1
    have hpos : 0 < c.text.length := by simp [Chunk.text, textOf]; omega
    have hw2 : S.wide idx c = false → 1 < c.text.length := by
      intro hw
      obtain ⟨⟨toks, semi⟩, tail⟩ := c
      cases toks with
      | cons => simp [Chunk.text, textOf]; omega
      | nil => cases tail with
        | cons => simp [Chunk.text, textOf]; omega
        | nil => simp [wide, Chunk.last] at hw
    have hlen : input.length = b + c.text.length + z.length := by
      have := congrArg List.length hd
      simp at this
      omega
    refine hcomp _ (S.badChunk hf hS h hd hsep hbad hno) (errTok_noNt _ _ _ _) ((S.errTok_whole hlast).2 rfl) (fun t' k rhs hI => S.errTok_prefix hI)
      (fun r' hr' => by rw [(S.errTok_whole hlast).1 hr']; exact Nat.le_refl _) ⟨_, _, S.rules_at.2 (.inr (.inr (.inr ⟨rfl, rfl⟩)))⟩ ?_ ?_
    · intro P hP
      rcases List.mem_cons.1 hP with rfl | hP
      · simp only [Piece.Bad]
        split <;> omega
      · simp at hP
        subst hP
        exact id
    · simp only [List.map_cons, List.map_nil, Piece.arg, blame]
      congr 2
      rw [hd]
      cases hw : S.wide idx c with
      | true =>
        simp only [if_true]
        rw [show b + c.text.length - 1 + 1 - b = c.text.length by omega]
        simp
      | false =>
        have := hw2 hw
        simp only [Bool.false_eq_true, if_false]
        rw [show b + c.text.length - 2 + 1 - b = c.text.length - 1 by omega, List.take_append_of_le_length (by omega), List.dropLast_eq_take]

theorem Stmts.chunksRun (hS : S.Ok) {v : Option N} {cs : List (Chunk T)} {l : List (Call N T)} {r : Except E (Option N)} (he : S.Eval idx v cs l r) :
    ∀ (i b : Nat) (calls : List (Call N T)) (m : Mach N T) (z : List T), S.St m (listP i v) b calls → input.drop b = cs.flatMap Chunk.text ++ z →
    (∀ c ∈ cs, ∀ s ∈ c.1 :: c.2, idx s.2 = S.sync ∧ ∀ t ∈ s.1, idx t ≠ S.sync) →
    (∀ c ∈ cs, ∀ s ∈ c.2, ∀ t, (s.1 ++ [s.2]).head? = some t → ¬ S.Starts idx t) →
    (∀ c ∈ cs.tail, ∀ t, (c.1.1 ++ [c.1.2]).head? = some t → S.Starts idx t) →
    (cs = [] ∨ ∀ t, z.head? = some t → S.Starts idx t) →
    (∀ v', r = .ok v' → ∃ i', S.Reach fresh idx input m (listP i' v') (b + (cs.flatMap Chunk.text).length) (calls ++ l)) ∧
    ∀ x, r = .error x → S.Ends fresh idx input m (.error (.reducer x)) (calls ++ l) := by
  have hnext : ∀ (c : Chunk T) (cs : List (Chunk T)) (z : List T), (∀ c' ∈ (c :: cs).tail, ∀ t, (c'.1.1 ++ [c'.1.2]).head? = some t → S.Starts idx t) →
      ((c :: cs) = [] ∨ ∀ t, z.head? = some t → S.Starts idx t) → ∀ t, (cs.flatMap Chunk.text ++ z).head? = some t → S.Starts idx t := by
    intro c cs z h1 h2 t ht
    cases cs with
    | nil =>
      rcases h2 with h2 | h2
      · cases h2
      · exact h2 t ht
    | cons c' cs =>
      refine h1 c' (by simp) t ?_
      obtain ⟨⟨toks, semi⟩, tail⟩ := c'
      cases toks <;> simpa [Chunk.text, textOf] using ht
  induction he with
  | nil v =>
    intro i b calls m z h _ _ _ _ _
    refine ⟨?_, fun x hx => by cases hx⟩
    intro v' hv
    cases hv
    exact ⟨i, by simpa using h.reach⟩
  | item v c cs k gen x hk hx =>
    intro i b calls m z h hd h1 h2 h3 h4
    refine ⟨fun v' hv => (by cases hv), ?_⟩
    intro x' hx'
    cases hx'
    exact (S.chunkItem hf hS h (by simpa using hd) (h1 c (by simp)) (h2 c (by simp)) (hnext c cs z h3 h4) hk).2 x hx
  | list v c cs k gen w x hk hw hx =>
    intro i b calls m z h hd h1 h2 h3 h4
    refine ⟨fun v' hv => (by cases hv), ?_⟩
    intro x' hx'
    cases hx'
    have hd' : input.drop b = c.text ++ (cs.flatMap Chunk.text ++ z) := by simpa using hd
    obtain ⟨i', hi⟩ := (S.chunkItem hf hS h hd' (h1 c (by simp)) (h2 c (by simp)) (hnext c cs z h3 h4) hk).1 w hw
    refine hi.ends fun m' h' => ?_
    have hpos : input[b + c.text.length]? = (cs.flatMap Chunk.text ++ z).head? := head_drop (by rw [← List.drop_drop, hd']; simp)
    have := (S.list hf h' (fun t ht => hnext c cs z h3 h4 t (by rw [← hpos]; exact ht))).2 x hx
    simpa using this
  | cons v c cs k gen w v1 l r hk hw hv he ih =>
    intro i b calls m z h hd h1 h2 h3 h4
    have hd' : input.drop b = c.text ++ (cs.flatMap Chunk.text ++ z) := by simpa using hd
    obtain ⟨i', hi⟩ := (S.chunkItem hf hS h hd' (h1 c (by simp)) (h2 c (by simp)) (hnext c cs z h3 h4) hk).1 w hw
    have hdrop : input.drop (b + c.text.length) = cs.flatMap Chunk.text ++ z := by rw [← List.drop_drop, hd']; simp
    have hpos : input[b + c.text.length]? = (cs.flatMap Chunk.text ++ z).head? := head_drop hdrop
    obtain ⟨n, m', e1, h'⟩ := hi
    obtain ⟨i2, n2, m2, e2, h''⟩ := (S.list hf h' (fun t ht => hnext c cs z h3 h4 t (by rw [← hpos]; exact ht))).1 v1 hv
    have := ih i2 (b + c.text.length) _ m2 z h'' hdrop (fun c' hc' => h1 c' (by simp [hc'])) (fun c' hc' => h2 c' (by simp [hc']))
      (fun c' hc' => h3 c' (List.mem_of_mem_tail hc')) (by
        rcases h4 with h4 | h4
        · cases h4
        · exact .inr h4)
    refine ⟨fun v' hv' => ?_, fun x hx => ?_⟩
    · obtain ⟨i3, n3, m3, e3, h3⟩ := this.1 v' hv'
      refine ⟨i3, n + (n2 + n3), m3, e1.then (e2.then e3), ?_⟩
      simpa [Nat.add_assoc] using h3
    · obtain ⟨n3, m3, e3, h3⟩ := this.2 x hx
      refine ⟨n + (n2 + n3), m3, e1.then (e2.then e3), ?_⟩
      simpa using h3

/-- Behind `error` there is no separator any more. -/
theorem Stmts.lostErr {v : Option N} {i lo hi pos : Nat} {calls : List (Call N T)} {m : Mach N T} {z : List T}
    (h : S.St m (listP i v ++ [.err lo hi]) pos calls) (hlo : lo ≤ pos) (hd : input.drop pos = z) (hz : ∀ t ∈ z, idx t ≠ S.sync) :
    S.Ends fresh idx input m (.error .noRecovery) calls := by
  refine (S.scanErr hf [] z pos hi m h hlo (by simpa using hd) hz).ends fun m' h' => ?_
  refine S.giveUp hf h' ?_ (by simp) (err_noNt _ _) (fun r => S.err_whole)
  have := congrArg List.length hd
  simp at this ⊢
  omega

/-- Something stands behind the last separator. -/
theorem Stmts.lostRest {v : Option N} {i b : Nat} {calls : List (Call N T)} {m : Mach N T} {z : List T}
    (h : S.St m (listP i v) b calls) (hd : input.drop b = z) (hz : ∀ t ∈ z, idx t ≠ S.sync) (hne : z ≠ []) :
    S.Ends fresh idx input m (.error .noRecovery) calls := by
  by_cases hp : S.Pre (z.map idx)
  · have h0 := S.scanWord hf [] z [] m (b0 := b) (by simpa [tokP] using h) (by simpa using hd) (by simpa using .inr hp)
    simp only [List.nil_append] at h0
    refine h0.ends fun m' h' => ?_
    refine S.giveUp hf h' ?_ ?_ (by rw [tokP_sym]; exact kinds_noNt z) (fun r => by rw [tokP_sym]; exact S.body_none hz)
    · have := congrArg List.length hd
      simp at this ⊢
      omega
    · cases z with
      | nil => exact absurd rfl hne
      | cons => simp [tokP]
  · obtain ⟨u, t, u', rfl, hu2, hu3⟩ := Stmts.mismatch hne hp
    have h1 := S.firstErr hf h hd hu2 hu3 (fun r hI => absurd hI (S.body_none fun t ht => hz t (by simp [ht])))
    refine h1.ends fun m' h' => ?_
    refine S.lostErr hf h' (by split <;> omega) rfl ?_
    intro x hx
    apply hz
    rw [← hd]
    split at hx
    · exact hx
    · rw [← List.drop_drop] at hx
      exact List.mem_of_mem_drop hx

/-- A chunk with something behind it that cannot begin a statement. -/
theorem Stmts.lostChunk (hS : S.Ok) {v : Option N} {i b : Nat} {calls : List (Call N T)} {m : Mach N T} {c : Chunk T} {z : List T} {t : T}
    (h : S.St m (listP i v) b calls) (hd : input.drop b = c.text ++ t :: z)
    (hsep : ∀ s ∈ c.1 :: c.2, idx s.2 = S.sync ∧ ∀ t ∈ s.1, idx t ≠ S.sync)
    (hbad : ∀ s ∈ c.2, ∀ t, (s.1 ++ [s.2]).head? = some t → ¬ S.Starts idx t)
    (hz : ∀ t' ∈ t :: z, idx t' ≠ S.sync) (ht : ¬ S.Starts idx t) :
    S.Ends fresh idx input m (.error .noRecovery) calls := by
  have hpos : 0 < c.text.length := by simp [Chunk.text, textOf]; omega
  have hdrop : input.drop (b + c.text.length) = t :: z := by rw [← List.drop_drop, hd]; simp
  have hend : ∀ (lo hi : Nat) (t0 : T) (m : Mach N T), lo ≤ b + 1 → (c.text.length = 1 → lo ≤ b) →
      S.St m (listP i v ++ [.err lo hi, .tok t0 (b + c.text.length - 1)]) (b + c.text.length) calls →
      S.Ends fresh idx input m (.error .noRecovery) calls := by
    intro lo hi t0 m h1 h2 h3
    have e : b + c.text.length = b + c.text.length - 1 + 1 := by omega
    have := S.rejoin (t' := t) hf (by rw [← e]; exact h3) (by omega) (by rw [← e]; exact (drop_cons hdrop).1) ht
    rw [← e] at this
    exact this.ends fun m' h' => S.lostErr hf h' (by omega) hdrop hz
  by_cases hno : c.2 = [] → ∀ b ∈ S.bodies, b.1 ≠ c.1.1.map idx
  · exact (S.badChunk hf hS h hd hsep hbad hno).ends fun m' h' => hend _ _ _ m' (by omega) (by omega) h'
  · obtain ⟨hc, hb⟩ := Classical.not_imp.1 hno
    obtain ⟨⟨toks, semi⟩, tail⟩ := c
    simp only at hc
    subst hc
    obtain ⟨hs1, hs2⟩ := hsep (toks, semi) (by simp)
    simp only at hs1 hs2 hb
    have htext : Chunk.text ((toks, semi), []) = toks ++ [semi] := by simp [Chunk.text, textOf]
    rw [htext] at hd hdrop hend
    obtain ⟨bd, hb1, hb2⟩ : ∃ bd ∈ S.bodies, bd.1 = toks.map idx := by
      apply Classical.byContradiction
      intro hn
      exact hb fun bd hb1 hb2 => hn ⟨bd, hb1, hb2⟩
    have h1 := S.firstErr hf h hd (.inr ⟨bd, hb1, by simp [hb2, hs1]⟩) (hS.pre_end hs1) (fun _ _ => ht)
    rw [if_neg (by simp)] at h1
    refine h1.ends fun m' h' => ?_
    cases toks with
    | nil => exact S.lostErr hf h' (by omega) (by simpa using hdrop) hz
    | cons t0 toks =>
      have hd2 : input.drop (b + 1) = textOf [(toks, semi)] ++ t :: z := by
        rw [← List.tail_drop, hd]
        simp [textOf]
      have := S.scanSegs hf (t :: z) [] (toks, semi) (b + 1) _ m' h' (by omega) hd2 (fun s hs => by
          rcases List.mem_cons.1 hs with rfl | hs
          · exact ⟨hs1, fun t ht => hs2 t (by simp [ht])⟩
          · cases hs) (fun s hs => by cases hs)
      have hlen : b + (t0 :: toks ++ [semi]).length = b + 1 + (textOf [(toks, semi)]).length := by simp [textOf]; omega
      refine this.ends fun m2 h2 => hend b _ _ m2 (by omega) (by omega) (by rw [hlen]; exact h2)

end

end Verif.Par
