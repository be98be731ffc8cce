import Verif.Par.TestErr
import Verif.Par.Height
import Verif.Props.ParFamily
import Verif.Props.ParLL1
import Verif.Props.ParHeight
import Verif.Props.ParContract

/-!
# Finite automata as rules

Specification: an automaton, what it computes while it reads tokens, and the two ways to write it as rules for
`LR1Parser::new`: with the state before the token (left recursion) and behind the token (right recursion).
-/

namespace Verif.Machine

open Verif.Par

structure Edge where
  src : Nat
  tok : Nat
  dst : Nat
deriving DecidableEq

/-- A finite automaton. -/
structure Machine where
  start : Nat
  edges : List Edge
  finals : List Nat

namespace Machine

variable {N T E : Type}

/-- At most one edge for a state and a token; no edge or final state is listed twice. -/
def Det (M : Machine) : Prop := M.edges.Pairwise (fun e e' => ¬ (e.src = e'.src ∧ e.tok = e'.tok)) ∧ M.finals.Nodup

/-- The automaton gets from a state to another one with a word. -/
inductive Runs (M : Machine) : Nat → List Nat → Nat → Prop
  | nil (q) : Runs M q [] q
  | cons (e w q) : e ∈ M.edges → Runs M e.dst w q → Runs M e.src (e.tok :: w) q

/-- The automaton accepts a word. -/
def Reads (M : Machine) (w : List Nat) : Prop := ∃ q, M.Runs M.start w q ∧ q ∈ M.finals

/-- A final state can be reached from wherever an edge leads. -/
def Live (M : Machine) : Prop := ∀ q, (q = M.start ∨ ∃ e ∈ M.edges, e.dst = q) → ∃ w f, M.Runs q w f ∧ f ∈ M.finals

/-- All edges and final states can be reached, and there is a final state. -/
def InReach (M : Machine) : Prop := M.finals ≠ [] ∧ ∀ q, (q ∈ M.finals ∨ ∃ e ∈ M.edges, e.src = q) → ∃ w, M.Runs M.start w q

/-- The automaton reads tokens from left to right and changes a value at each of them. -/
inductive Forth (M : Machine) (idx : T → Nat) (step : Nat → N → T → N) : Nat → N → List T → Nat → N → Prop
  | nil (q v) : Forth M idx step q v [] q v
  | cons (e v t w q v') : e ∈ M.edges → idx t = e.tok → Forth M idx step e.dst (step e.src v t) w q v' →
      Forth M idx step e.src v (t :: w) q v'

/-- The automaton reads tokens; the value is made from right to left. -/
inductive Back (M : Machine) (idx : T → Nat) (base : Nat → N) (step : Nat → T → N → N) : Nat → List T → N → Prop
  | nil (q) : q ∈ M.finals → Back M idx base step q [] (base q)
  | cons (e t w v) : e ∈ M.edges → idx t = e.tok → Back M idx base step e.dst w v → Back M idx base step e.src (t :: w) (step e.src t v)

/-- Left recursion: `q' → q a` for every edge, nothing for the state at the start, and `S → q` for final states.  State `q` is the
non-terminal `q + 1`; `S` is 0. -/
def left (M : Machine) (init : N) (step : Nat → N → T → N) (last : Nat → N → N) (bad : E) : List (Rule N T E) :=
  ⟨M.start + 1, [], fun _ => .ok init⟩ ::
    (M.edges.map (fun e => ⟨e.dst + 1, [.nt (e.src + 1), .tm (.sym e.tok)], fun
      | [.nt v, .tok t] => .ok (step e.src v t)
      | _ => .error bad⟩) ++
    M.finals.map fun q => ⟨0, [.nt (q + 1)], fun
      | [.nt v] => .ok (last q v)
      | _ => .error bad⟩)

/-- Right recursion: `q → a q'` for every edge, and `q → ` for final states. -/
def right (M : Machine) (base : Nat → N) (step : Nat → T → N → N) (bad : E) : List (Rule N T E) :=
  M.edges.map (fun e => ⟨e.src, [.tm (.sym e.tok), .nt e.dst], fun
    | [.tok t, .nt v] => .ok (step e.src t v)
    | _ => .error bad⟩) ++
  M.finals.map fun q => ⟨q, [], fun _ => .ok (base q)⟩

end Machine

/-! ## Parsers whose callbacks do not fail -/

section
variable {N T E : Type} {idx : T → Nat}

theorem built_clean {R : List PRule} {input : List T} {us : List Sym} {fs : List (Tree T)} (h : Built R idx input us fs)
    (hR : ∀ r ∈ R, Sym.tm .err ∉ r.rhs) (hu : Sym.tm .err ∉ us) : errs fs = [] := by
  induction h with
  | nil => rfl
  | leaf i t us fs _ _ ih => simpa [errs, Tree.errs] using ih fun h => hu (.tail _ h)
  | err => exact absurd (.head _) hu
  | node r rule cs us fs hr _ _ ih1 ih2 =>
    simp [errs, Tree.errs, ih1 (hR rule (List.mem_of_getElem? hr)), ih2 fun h => hu (.tail _ h)]

theorem settle (o : Seeds) (ho : o.Fair) (rules : List (Rule N T E)) (start : Nat) (hok : (gram rules start).Ok) (hn : (gram rules start).NoError)
    (hp : (gram rules start).Productive) (p : Parser N T E) (hm : MakesParser o rules start p [])
    (hg : ∀ rule ∈ rules, ∀ args, ArgsFit idx (fun _ _ => True) rule.rhs args → ∃ v, rule.gen args = .ok v)
    {Q : Nat → List T → N → Prop} (hQ : Computes idx Q rules) (input : List T) :
    (∃ v c, ParsesTo idx p input (.ok v) c ∧ Q start input v ∧ (gram rules start).Sentence (input.map idx)) ∨
    (¬ (gram rules start).Sentence (input.map idx) ∧ ∃ c, ParsesTo idx p input (.error .noRecovery) c) := by
  have nofail : ∀ e c, ¬ ParsesTo idx p input (.error (.reducer e)) c := by
    intro e c h
    obtain ⟨r, args, rest, rule, h1, h2, h3, _⟩ := (c30_first_failure o ho rules start hok p [] hm idx input _ c h).1 e rfl
    obtain ⟨n, hn⟩ := h
    obtain ⟨rule', h4, h5⟩ := (c48_contract o ho rules start hok p [] hm idx (fun _ _ => True) (fun _ _ _ _ _ _ => trivial) input).1 n c (Or.inr ⟨_, hn⟩)
      r args (by
        have : (r, args) ∈ c.log.reverse := by rw [h1]; simp
        simpa using this)
    rw [h2] at h4
    cases h4
    obtain ⟨v, h6⟩ := hg rule (List.mem_of_getElem? h2) args h5
    rw [h6] at h3
    cases h3
  have hok' : ∀ v c, ParsesTo idx p input (.ok v) c → Q start input v := by
    intro v c h
    obtain ⟨f, calls, h1, h2, _, _, h5⟩ := c23_sound o ho rules start hok p [] hm idx input v c h
    have he := built_clean h1 hn (by simp)
    have hs := evals_spans hQ h2 rfl h1 he
    rw [(h5 he).1] at hs
    simp only [List.zipIdx_map_fst] at hs
    obtain ⟨v', u, as, w', e1, e2, hq, hs'⟩ := TestErr.spans_nt hs
    obtain ⟨rfl, rfl⟩ := TestErr.spans_nil hs'
    cases e1
    rw [e2]
    simpa using hq
  by_cases hs : (gram rules start).Sentence (input.map idx)
  · obtain ⟨f, c, h1, ⟨v, _, h3⟩ | ⟨e, h2, h3⟩⟩ := c24_complete o ho rules start hok p hm idx input hs
    · exact .inl ⟨v, c, h3, hok' v c h3, hs⟩
    · exact absurd h3 (nofail _ _)
  · refine .inr ⟨hs, ?_⟩
    rcases c26_rejects o ho rules start hok hn hp p hm idx input hs with h | ⟨e, c, h⟩
    · exact h
    · exact absurd h (nofail _ _)

/-- Where non-terminals come from. -/
theorem nts_from {R : List PRule} {u ζ : List Sym} (h : Derives R u ζ) {n : Nat} (hn : Sym.nt n ∈ ζ) : .nt n ∈ u ∨ ∃ r ∈ R, Sym.nt n ∈ r.rhs := by
  induction h with
  | refl => exact .inl hn
  | step x y r _ hr ih =>
    simp only [List.mem_append] at hn
    rcases hn with (hn | hn) | hn
    · exact ih (by simp [hn])
    · exact .inr ⟨r, hr, hn⟩
    · exact ih (by simp [hn])
end

end Verif.Machine
