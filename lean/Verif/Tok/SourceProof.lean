import Verif.Tok.Source
import Verif.Tok.IterProof
import Verif.Par.SourceProof

/-!
# Helper lemmas: tokenizing a source is tokenizing the list of its answers
-/

namespace Verif.Tok

open Verif.Par (Source after answer Gives Endless Begins after_add answer_add)

variable {α E σ : Type} {d : DFA} {map : α → Nat} {nxt : Source σ α}

theorem Gives.head {s : σ} {x : α} {l : List α} (h : Gives nxt s (x :: l)) : nxt s = (some x, (nxt s).2) ∧ Gives nxt (nxt s).2 l := by
  have h0 := h 0 (by simp)
  refine ⟨by cases hn : nxt s; simp [answer, after, hn] at h0 ⊢; exact h0, ?_⟩
  intro k hk
  have := h (1 + k) (by simp; omega)
  rw [answer_add] at this
  rw [Nat.add_comm] at this
  simpa [after] using this

theorem Gives.stop {s : σ} (h : Gives nxt s ([] : List α)) : nxt s = (none, (nxt s).2) := by
  have h0 := h 0 (by simp)
  cases hn : nxt s; simp [answer, after, hn] at h0 ⊢; exact h0

theorem Begins.nil {s : σ} : Begins nxt s ([] : List α) := by intro k hk; simp at hk

theorem Begins.cons {s s' : σ} {x : α} {l : List α} (h : nxt s = (some x, s')) (hl : Begins nxt s' l) : Begins nxt s (x :: l) := by
  intro k hk
  rcases k with _ | k
  · simp [answer, after, h]
  · rw [Nat.add_comm, answer_add]
    have : after nxt 1 s = s' := by simp [after, h]
    rw [this, Nat.add_comm]
    simpa using hl k (by simpa using hk)

theorem Begins.head {s : σ} {x : α} {l : List α} (h : Begins nxt s (x :: l)) : nxt s = (some x, (nxt s).2) ∧ Begins nxt (nxt s).2 l := by
  have h0 := h 0 (by simp)
  refine ⟨by cases hn : nxt s; simp [answer, after, hn] at h0 ⊢; exact h0, ?_⟩
  intro k hk
  have := h (1 + k) (by simp; omega)
  rw [answer_add] at this
  rw [Nat.add_comm] at this
  simpa [after] using this

theorem Gives.cons {s s' : σ} {x : α} {l : List α} (h : nxt s = (some x, s')) (hl : Gives nxt s' l) : Gives nxt s (x :: l) := by
  intro k hk
  rcases k with _ | k
  · simp [answer, after, h]
  · rw [Nat.add_comm, answer_add]
    have : after nxt 1 s = s' := by simp [after, h]
    rw [this, Nat.add_comm]
    simpa using hl k (by simpa using hk)

theorem Gives.nil {s s' : σ} (h : nxt s = (none, s')) : Gives nxt s ([] : List α) := by
  intro k hk
  obtain rfl : k = 0 := by simpa using hk
  simp [answer, after, h]

/-- More fuel does not change a result. -/
theorem scanSrcFrom_mono : ∀ {n m : Nat} {sc : Scan α} {s : σ}, n ≤ m → scanSrcFrom d map nxt n sc s ≠ .wait →
    scanSrcFrom d map nxt m sc s = scanSrcFrom d map nxt n sc s := by
  intro n
  induction n with
  | zero => intro m sc s _ h; exact absurd rfl h
  | succ n ih =>
    intro m sc s hm h
    obtain ⟨m, rfl⟩ : ∃ m', m = m' + 1 := ⟨m - 1, by omega⟩
    unfold scanSrcFrom at h ⊢
    split
    · rfl
    · rename_i x s' hn
      simp only [hn] at h
      split
      · rfl
      · rfl
      · rename_i sc' hi
        simp only [hi] at h
        exact ih (by omega) h

theorem scanFrom_mono {n m : Nat} (hm : n ≤ m) : ∀ {q : List α} {sc : Scan α} {s : σ}, scanFrom d map nxt n sc q s ≠ .wait →
    scanFrom d map nxt m sc q s = scanFrom d map nxt n sc q s := by
  intro q
  induction q with
  | nil => intro sc s h; exact scanSrcFrom_mono hm h
  | cons x q ih =>
    intro sc s h
    unfold scanFrom at h ⊢
    split
    · rfl
    · rfl
    · rename_i hi
      simp only [hi] at h
      exact ih h

/-- A source that ends behaves like the list. -/
theorem scanSrcFrom_gives : ∀ {l : List α} {sc : Scan α} {s : σ} {sc' : Scan α} {it : It α}, Gives nxt s l →
    scanSrc d map sc l = some (sc', it) →
    ∃ k, scanSrcFrom d map nxt (l.length + 1) sc s = .done sc' ⟨[], after nxt k s⟩ ∧ it.queue = [] ∧
      ((k ≤ l.length ∧ it.src = l.drop k) ∨ (k = l.length + 1 ∧ it.src = [])) := by
  intro l
  induction l with
  | nil =>
    intro sc s sc' it hg h
    cases h
    have := Gives.stop hg
    exact ⟨1, by simp only [List.length_nil, scanSrcFrom]; rw [this]; rfl, rfl, Or.inr ⟨rfl, rfl⟩⟩
  | cons x l ih =>
    intro sc s sc' it hg h
    obtain ⟨h1, h2⟩ := Gives.head hg
    unfold scanSrc at h
    simp only [List.length_cons]
    unfold scanSrcFrom
    rw [h1]
    simp only
    cases hi : scanItem d map sc x with
    | none => rw [hi] at h; cases h
    | some r =>
      obtain ⟨b, sc1⟩ := r
      rw [hi] at h
      cases b with
      | false =>
        cases h
        exact ⟨1, rfl, rfl, Or.inl ⟨by omega, rfl⟩⟩
      | true =>
        obtain ⟨k, k1, k2, k3⟩ := ih h2 h
        refine ⟨k + 1, k1, k2, ?_⟩
        rcases k3 with ⟨k3, k4⟩ | ⟨k3, k4⟩
        · exact Or.inl ⟨by omega, k4⟩
        · exact Or.inr ⟨by omega, k4⟩

theorem scanFrom_gives {l : List α} {s : σ} (hg : Gives nxt s l) : ∀ {q : List α} {sc : Scan α} {sc' : Scan α} {it : It α},
    scan d map sc q l = some (sc', it) →
    ∃ k, scanFrom d map nxt (l.length + 1) sc q s = .done sc' ⟨it.queue, after nxt k s⟩ ∧
      ((k ≤ l.length ∧ it.src = l.drop k) ∨ (k = l.length + 1 ∧ it.src = [])) := by
  intro q
  induction q with
  | nil =>
    intro sc sc' it h
    obtain ⟨k, k1, k2, k3⟩ := scanSrcFrom_gives hg h
    exact ⟨k, by unfold scanFrom; rw [k1, k2], k3⟩
  | cons x q ih =>
    intro sc sc' it h
    unfold scan at h
    unfold scanFrom
    cases hi : scanItem d map sc x with
    | none => rw [hi] at h; cases h
    | some r =>
      obtain ⟨b, sc1⟩ := r
      rw [hi] at h
      cases b with
      | false => cases h; exact ⟨0, rfl, Or.inl ⟨by omega, rfl⟩⟩
      | true => exact ih h

/-- What the loop has read explains its result. -/
theorem scanSrcFrom_done : ∀ {n : Nat} {sc : Scan α} {s : σ} {sc' : Scan α} {it : ItFrom σ α},
    scanSrcFrom d map nxt n sc s = .done sc' it → it.queue = [] ∧
    ∃ l, (Begins nxt s l ∧ it.src = after nxt l.length s ∧ ∀ more, scanSrc d map sc (l ++ more) = some (sc', ⟨[], more⟩)) ∨
      (Gives nxt s l ∧ it.src = after nxt (l.length + 1) s ∧ scanSrc d map sc l = some (sc', ⟨[], []⟩)) := by
  intro n
  induction n with
  | zero => intro sc s sc' it h; cases h
  | succ n ih =>
    intro sc s sc' it h
    unfold scanSrcFrom at h
    split at h
    · rename_i s1 hn
      cases h
      exact ⟨rfl, [], Or.inr ⟨Gives.nil hn, by simp [after, hn], rfl⟩⟩
    · rename_i x s1 hn
      split at h
      · cases h
      · rename_i sc1 hi
        cases h
        exact ⟨rfl, [x], Or.inl ⟨Begins.cons hn Begins.nil, by simp [after, hn], fun more => by simp [scanSrc, hi]⟩⟩
      · rename_i sc1 hi
        obtain ⟨h1, l, h2 | h2⟩ := ih h
        · refine ⟨h1, x :: l, Or.inl ⟨Begins.cons hn h2.1, by simp [after, hn, h2.2.1], ?_⟩⟩
          intro more
          simp only [List.cons_append, scanSrc, hi]
          exact h2.2.2 more
        · refine ⟨h1, x :: l, Or.inr ⟨Gives.cons hn h2.1, ?_, ?_⟩⟩
          · rw [h2.2.1]; simp [after, hn]
          · simp only [scanSrc, hi]; exact h2.2.2

theorem scanFrom_done {n : Nat} {s : σ} : ∀ {q : List α} {sc sc' : Scan α} {it : ItFrom σ α},
    scanFrom d map nxt n sc q s = .done sc' it →
    ∃ l, (Begins nxt s l ∧ it.src = after nxt l.length s ∧ ∀ more, scan d map sc q (l ++ more) = some (sc', ⟨it.queue, more⟩)) ∨
      (Gives nxt s l ∧ it.src = after nxt (l.length + 1) s ∧ scan d map sc q l = some (sc', ⟨it.queue, []⟩)) := by
  intro q
  induction q with
  | nil =>
    intro sc sc' it h
    obtain ⟨h1, l, h2⟩ := scanSrcFrom_done h
    rw [h1]
    exact ⟨l, h2⟩
  | cons x q ih =>
    intro sc sc' it h
    unfold scanFrom at h
    split at h
    · cases h
    · rename_i sc1 hi
      cases h
      exact ⟨[], Or.inl ⟨Begins.nil, rfl, fun more => by simp [scan, hi]⟩⟩
    · rename_i sc1 hi
      obtain ⟨l, h2 | h2⟩ := ih h
      · exact ⟨l, Or.inl ⟨h2.1, h2.2.1, fun more => by simp only [scan, hi]; exact h2.2.2 more⟩⟩
      · exact ⟨l, Or.inr ⟨h2.1, h2.2.1, by simp only [scan, hi]; exact h2.2.2⟩⟩

/-- The tail of `next`, iter.rs:70-78. -/
def finish (t : Tokenizer α E) (s : Scan α) (q : List α) : Out E × List α :=
  match s.pat with
  | none => (.none, q)
  | some k =>
    let (items, q) := putBack s.len s.items.reverse q
    match t.maker[k]? with
    | none => (.panic, q)
    | some f => (.token (f (s.chars.take s.len) items), q)

def scan0 (d : DFA) : Scan α := { node := d.b, pat := d.accept d.b, len := 0, i := 0, items := [], chars := [] }

theorem next_finish {t : Tokenizer α E} {q src : List α} {sc : Scan α} {it : It α} (h : scan t.dfa map (scan0 t.dfa) q src = some (sc, it)) :
    t.next map ⟨q, src⟩ = ((finish t sc it.queue).1, ⟨(finish t sc it.queue).2, it.src⟩) := by
  unfold Tokenizer.next
  simp only
  unfold scan0 at h
  rw [h]
  simp only [finish]
  cases hp : sc.pat with
  | none => rfl
  | some k =>
    simp only
    cases hm : t.maker[k]? with
    | none => rfl
    | some f => rfl

theorem nextFrom_finish {t : Tokenizer α E} {n : Nat} {it : ItFrom σ α} {sc : Scan α} {it' : ItFrom σ α}
    (h : scanFrom t.dfa map nxt n (scan0 t.dfa) it.queue it.src = .done sc it') :
    t.nextFrom map nxt n it = some ((finish t sc it'.queue).1, ⟨(finish t sc it'.queue).2, it'.src⟩) := by
  unfold Tokenizer.nextFrom
  simp only
  unfold scan0 at h
  rw [h]
  simp only [finish]
  cases hp : sc.pat with
  | none => rfl
  | some k =>
    simp only
    cases hm : t.maker[k]? with
    | none => rfl
    | some f => rfl

theorem nextFrom_wait {t : Tokenizer α E} {n : Nat} {it : ItFrom σ α} :
    t.nextFrom map nxt n it = none ↔ scanFrom t.dfa map nxt n (scan0 t.dfa) it.queue it.src = .wait := by
  constructor
  · intro h
    cases hs : scanFrom t.dfa map nxt n (scan0 t.dfa) it.queue it.src with
    | wait => rfl
    | panic =>
      unfold Tokenizer.nextFrom at h
      simp only at h
      unfold scan0 at hs
      rw [hs] at h
      cases h
    | done sc it' => rw [nextFrom_finish hs] at h; cases h
  · intro h
    unfold Tokenizer.nextFrom
    simp only
    unfold scan0 at h
    rw [h]

theorem nextFrom_mono {t : Tokenizer α E} {n m : Nat} {it : ItFrom σ α} {r} (hm : n ≤ m) (h : t.nextFrom map nxt n it = some r) :
    t.nextFrom map nxt m it = some r := by
  rw [← h]
  have : scanFrom t.dfa map nxt n (scan0 t.dfa) it.queue it.src ≠ .wait := by
    intro hw
    rw [← nextFrom_wait, h] at hw
    cases hw
  unfold Tokenizer.nextFrom
  simp only
  have := scanFrom_mono hm this
  unfold scan0 at this
  rw [this]

theorem Returns.det {t : Tokenizer α E} {it : ItFrom σ α} {o o' : Out E} {it1 it2 : ItFrom σ α} (h : t.Returns map nxt it o it1)
    (h' : t.Returns map nxt it o' it2) : o = o' ∧ it1 = it2 := by
  obtain ⟨n, h⟩ := h
  obtain ⟨m, h'⟩ := h'
  have h1 := nextFrom_mono (Nat.le_max_left n m) h
  have h2 := nextFrom_mono (Nat.le_max_right n m) h'
  rw [h1] at h2
  cases h2
  exact ⟨rfl, rfl⟩

/-- The loop is never stopped by a panic. -/
theorem scanFrom_no_panic {p} (hd : d.WF p) {n : Nat} : ∀ {q : List α} {pre : List α} {sc : Scan α} {s : σ}, ScanInv d map pre sc →
    scanFrom d map nxt n sc q s ≠ .panic := by
  have src : ∀ {n : Nat} {pre : List α} {sc : Scan α} {s : σ}, ScanInv d map pre sc → scanSrcFrom d map nxt n sc s ≠ .panic := by
    intro n
    induction n with
    | zero => intro pre sc s _ h; cases h
    | succ n ih =>
      intro pre sc s hi h
      unfold scanSrcFrom at h
      split at h
      · cases h
      · rename_i x s1 hn
        rcases scanItem_spec hd hi x with ⟨sc', he, hi'⟩ | ⟨sc', he, _, _⟩
        · rw [he] at h; exact ih hi' h
        · rw [he] at h; cases h
  intro q
  induction q with
  | nil => intro pre sc s hi; exact src hi
  | cons x q ih =>
    intro pre sc s hi h
    unfold scanFrom at h
    rcases scanItem_spec hd hi x with ⟨sc', he, hi'⟩ | ⟨sc', he, _, _⟩
    · rw [he] at h; exact ih hi' h
    · rw [he] at h; cases h

theorem scan0_inv : ScanInv d map [] (scan0 d : Scan α) := by
  refine ⟨rfl, rfl, rfl, rfl, ?_⟩
  have h0 : d.obs [] = some (d.accept d.b) := rfl
  simp only [scan0]
  cases ha : d.accept d.b with
  | none =>
    refine ⟨rfl, ?_⟩
    intro m hm j hj
    simp [DFA.Acc, h0, ha] at hj
  | some k =>
    refine ⟨by simp, by simp [DFA.Acc, h0, ha], ?_⟩
    intro m hm hm'
    simp at hm'
    omega

/-- The loop goes on for ever exactly if the source does and the table is never stuck. -/
theorem scanSrcFrom_hangs {p} (hd : d.WF p) {pre : List α} {sc : Scan α} {s : σ} (hi : ScanInv d map pre sc) :
    (∀ n, scanSrcFrom d map nxt n sc s = .wait) ↔ Endless nxt s ∧ ∀ l, Begins nxt s l → d.obs ((pre ++ l).map map) ≠ none := by
  constructor
  · intro h
    have key : ∀ (l : List α) (pre : List α) (sc : Scan α) (s : σ), ScanInv d map pre sc → (∀ n, scanSrcFrom d map nxt n sc s = .wait) →
        Begins nxt s l → ∃ sc', ScanInv d map (pre ++ l) sc' ∧ ∀ n, scanSrcFrom d map nxt n sc' (after nxt l.length s) = .wait := by
      intro l
      induction l with
      | nil => intro pre sc s hi h _; exact ⟨sc, by simpa using hi, h⟩
      | cons x l ih =>
        intro pre sc s hi h hb
        obtain ⟨h1, h2⟩ := Begins.head hb
        rcases scanItem_spec hd hi x with ⟨sc', he, hi'⟩ | ⟨sc', he, _, _⟩
        · obtain ⟨sc'', k1, k2⟩ := ih (pre ++ [x]) sc' (nxt s).2 hi' (fun n => by
            have := h (n + 1)
            unfold scanSrcFrom at this
            rw [h1] at this
            simpa only [he] using this) h2
          exact ⟨sc'', by simpa using k1, k2⟩
        · have := h 1
          unfold scanSrcFrom at this
          rw [h1] at this
          simp only [he] at this
          cases this
    have all : ∀ k, ∃ l : List α, l.length = k ∧ Begins nxt s l := by
      intro k
      induction k with
      | zero => exact ⟨[], rfl, Begins.nil⟩
      | succ k ih =>
        obtain ⟨l, hl, hb⟩ := ih
        obtain ⟨sc', _, hw⟩ := key l pre sc s hi h hb
        have := hw 1
        unfold scanSrcFrom at this
        cases hn : nxt (after nxt l.length s) with
        | mk a s1 =>
          rw [hn] at this
          cases a with
          | none => cases this
          | some x =>
            refine ⟨l ++ [x], by simp [hl], ?_⟩
            intro j hj
            by_cases hjl : j < l.length
            · rw [List.getElem?_append_left hjl]; exact hb j hjl
            · obtain rfl : j = l.length := by simp at hj; omega
              simp [answer, hn]
    refine ⟨?_, ?_⟩
    · intro k hk
      obtain ⟨l, hl, hb⟩ := all (k + 1)
      have := hb k (by omega)
      rw [hk] at this
      have hlt : k < l.length := by omega
      rw [List.getElem?_eq_getElem hlt] at this
      cases this
    · intro l hb
      obtain ⟨sc', hi', _⟩ := key l pre sc s hi h hb
      rw [DFA.obs, hi'.run]; simp
  · rintro ⟨he, hv⟩ n
    induction n generalizing pre sc s with
    | zero => rfl
    | succ n ih =>
      unfold scanSrcFrom
      cases hn : nxt s with
      | mk a s1 =>
        cases a with
        | none => exact absurd (by simp [answer, after, hn]) (he 0)
        | some x =>
          simp only
          rcases scanItem_spec hd hi x with ⟨sc', hx, hi'⟩ | ⟨sc', hx, _, ho⟩
          · simp only [hx]
            refine ih hi' ?_ ?_
            · intro k
              have := he (1 + k)
              rw [answer_add] at this
              simpa [after, hn] using this
            · intro l hl
              have := hv (x :: l) (Begins.cons hn hl)
              simpa using this
          · exact absurd ho (by simpa using hv [x] (Begins.cons hn Begins.nil))

theorem scanFrom_hangs {p} (hd : d.WF p) {s : σ} : ∀ {q pre : List α} {sc : Scan α}, ScanInv d map pre sc →
    ((∀ n, scanFrom d map nxt n sc q s = .wait) ↔ Endless nxt s ∧ ∀ l, Begins nxt s l → d.obs ((pre ++ q ++ l).map map) ≠ none) := by
  intro q
  induction q with
  | nil => intro pre sc hi; simpa [scanFrom] using scanSrcFrom_hangs hd hi
  | cons x q ih =>
    intro pre sc hi
    rcases scanItem_spec hd hi x with ⟨sc', hx, hi'⟩ | ⟨sc', hx, _, ho⟩
    · have := ih hi'
      unfold scanFrom
      simp only [hx]
      simpa using this
    · unfold scanFrom
      simp only [hx, reduceCtorEq, forall_const, false_iff, not_and]
      intro _ hv
      have h0 := hv [] Begins.nil
      apply h0
      have e : (pre ++ x :: q ++ []).map map = (pre ++ [x]).map map ++ q.map map := by simp
      rw [e, DFA.obs, DFA.run_append]
      have : d.run d.b ((pre ++ [x]).map map) = none := by simpa [DFA.obs] using ho
      rw [this]
      rfl

end Verif.Tok
