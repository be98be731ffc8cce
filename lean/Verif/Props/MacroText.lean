import Verif.Macro.ReadProof
import Verif.Props.ParGen
import Verif.Props.TokGen

/-!
# The syntax of the macros: C50
-/

namespace Verif.Macro

open Verif.Par (TokenKey BnfSym BnfKey MacroInput BnfRule Arg)

variable {Vis Path Ty Pat Expr : Type}

/-- C50: `parser!` accepts exactly the texts of its grammar, and understands them as the grammar says. -/
theorem c50_parser_input (R : Rust Vis Path Ty Pat Expr) (ts : List TT) (m : ParserIn Vis Path Ty Pat Expr) :
    readParser R ts = some m ↔ ParserText R m ts := readParser_some R

/-- C50: `tokenizer!` accepts exactly the texts of its grammar, and understands them as the grammar says. -/
theorem c50_tokenizer_input (R : Rust Vis Path Ty Pat Expr) (ts : List TT) (m : TokenizerIn Vis Ty Expr) :
    readTokenizer R ts = some m ↔ TokenizerText R m ts := readTokenizer_some R

/-- C50: a text has at most one reading. -/
theorem c50_one_reading (R : Rust Vis Path Ty Pat Expr) (ts : List TT) :
    (∀ m m', ParserText R m ts → ParserText R m' ts → m = m') ∧ (∀ m m', TokenizerText R m ts → TokenizerText R m' ts → m = m') := by
  constructor
  · intro m m' h h'
    rw [← c50_parser_input] at h h'
    rw [h] at h'
    exact Option.some.inj h'
  · intro m m' h h'
    rw [← c50_tokenizer_input] at h h'
    rw [h] at h'
    exact Option.some.inj h'

/-! ## From the text to the parser -/

/-- What the expressions in a text of `parser!` evaluate to: the `enum_index` of `Path::expression`, and the callback
`|list| match list { pattern => expression, _ => panic!(..) }`. -/
structure Meaning (Path Pat Expr N T E : Type) where
  index : Path → Expr → Nat
  callback : Pat → Expr → List (Arg N T) → Except E N

/-- What the translation of the macro is given (`Par/Gen`). -/
def ParserIn.input {N T E : Type} (M : Meaning Path Pat Expr N T E) (m : ParserIn Vis Path Ty Pat Expr) : MacroInput N T E where
  tokens := m.tokens.map fun x => (x.1, M.index m.tokenType x.2)
  symbols := m.symbols.map fun x => (x.1, M.index m.symbolType x.2)
  start := m.start
  rules := m.rules.map fun r => ⟨r.key, r.rule, M.callback r.pattern r.generator⟩

/-- `parser! { ts }` expands, and the function it defines returns the parser `p`. -/
def ParserMacroGives {N T E : Type} (R : Rust Vis Path Ty Pat Expr) (M : Meaning Path Pat Expr N T E) (o : Par.Seeds) (go : Par.GSeeds)
    (ts : List TT) (p : Par.Parser N T E) : Prop :=
  ∃ m, readParser R ts = some m ∧ Par.MacroGives o go (m.input M) p

/-- C50 and C36: the parser that `parser!` makes from a text behaves like the one that `LR1Parser::new` makes from the rules written in it. -/
theorem c50_parser_text {N T E : Type} (R : Rust Vis Path Ty Pat Expr) (M : Meaning Path Pat Expr N T E) (ts : List TT)
    (m : ParserIn Vis Path Ty Pat Expr) (htext : ParserText R m ts) (direct : List (Par.Rule N T E)) (start : Nat)
    (hm : (m.input M).Means direct start)
    (ht : (m.tokens.map fun x => M.index m.tokenType x.2).Nodup) (hs : (m.symbols.map fun x => M.index m.symbolType x.2).Nodup)
    (hstart : ∃ r ∈ direct, r.lhs = start) (o o' : Par.Seeds) (ho : o.Fair) (ho' : o'.Fair) (go : Par.GSeeds) (hgo : go.Fair) :
    ((∃ p, ParserMacroGives R M o go ts p) ↔ ¬ Par.NewGives o' (Par.gram direct start) .panic) ∧
    ∀ p p' ws, ParserMacroGives R M o go ts p → Par.MakesParser o' direct start p' ws → ∀ (idx : T → Nat) (input : List T),
      (∀ x l n, (∃ c, Par.ParsesTo idx p input x c ∧ c.log = l ∧ c.pulls = n) ↔ ∃ c, Par.ParsesTo idx p' input x c ∧ c.log = l ∧ c.pulls = n) ∧
      (Par.ParsePanics idx p input ↔ Par.ParsePanics idx p' input) ∧ (Par.ParseDiverges idx p input ↔ Par.ParseDiverges idx p' input) := by
  have hr := (c50_parser_input R ts m).2 htext
  have ht' : ((m.input M).tokens.map Prod.snd).Nodup := by simpa [ParserIn.input, List.map_map, Function.comp_def] using ht
  have hs' : ((m.input M).symbols.map Prod.snd).Nodup := by simpa [ParserIn.input, List.map_map, Function.comp_def] using hs
  obtain ⟨h1, h2, h3⟩ := Par.c36_expands_iff _ direct start hm ht' hs' hstart o o' ho ho' go hgo
  constructor
  · constructor
    · rintro ⟨p, m', hr', fuel, g, hg, _⟩ hp
      rw [hr] at hr'; cases hr'
      obtain ⟨fuel', hp'⟩ := h1.2 hp
      obtain ⟨e1, e2, _⟩ := Par.emitted hm ht' hs' hstart ho hgo
      obtain ⟨tab, _, _, hb⟩ := e2 fuel g hg
      exact hb (e1 fuel' hp')
    · intro hp
      obtain ⟨p, hg, _⟩ := h2 fun h => hp (h1.1 h)
      exact ⟨p, m, hr, hg⟩
  · rintro p p' ws ⟨m', hr', hg⟩ hp' idx input
    rw [hr] at hr'; cases hr'
    exact Par.c36_same_outcome _ direct start hm ht' hs' hstart o o' ho ho' go hgo p p' ws hg hp' idx input

/-- What the translation of `tokenizer!` is given (`Tok/Gen`); `closure` is what generator expressions evaluate to. -/
def TokenizerMacroBuildsTo {ρ α E : Type} (R : Rust Vis Path Ty Pat Expr) (closure : Expr → List Nat → List α → E) (s : Tok.Seeds)
    (ord : List (Nat × Nat) → List (Nat × Nat)) (parse : String → Except ρ Tok.Hir) (ts : List TT)
    (r : Except (Tok.BuildError ρ) (Tok.Tokenizer α E)) : Prop :=
  ∃ m, readTokenizer R ts = some m ∧ Tok.MacroBuildsTo s ord parse (m.rules.map fun x => (x.1, closure x.2)) r

/-- C50 and C18: the tokenizer that `tokenizer!` makes from a text is the one the builder makes from the patterns written in it. -/
theorem c50_tokenizer_text {ρ α E : Type} (R : Rust Vis Path Ty Pat Expr) (closure : Expr → List Nat → List α → E) (ts : List TT)
    (m : TokenizerIn Vis Ty Expr) (htext : TokenizerText R m ts) (s : Tok.Seeds) (hs : s.Fair)
    (ord : List (Nat × Nat) → List (Nat × Nat)) (hord : ∀ l, (ord l).Perm l) (parse : String → Except ρ Tok.Hir) (hparse : Tok.ParserOk parse) :
    (∀ e, TokenizerMacroBuildsTo R closure s ord parse ts (.error e) ↔
      Tok.BuildsTo s parse (m.rules.map fun x => (x.1, closure x.2)) (.error e)) ∧
    (∀ t, TokenizerMacroBuildsTo R closure s ord parse ts (.ok t) ↔
      ∃ ws, Tok.BuildsTo s parse (m.rules.map fun x => (x.1, closure x.2)) (.ok (t, ws))) := by
  have hr := (c50_tokenizer_input R ts m).2 htext
  have key : ∀ r, TokenizerMacroBuildsTo R closure s ord parse ts r ↔
      Tok.MacroBuildsTo s ord parse (m.rules.map fun x => (x.1, closure x.2)) r := by
    intro r
    constructor
    · rintro ⟨m', hr', h⟩
      rw [hr] at hr'; cases hr'; exact h
    · intro h; exact ⟨m, hr, h⟩
  obtain ⟨h1, h2⟩ := Tok.c18_macro_tables (ps := m.rules.map fun x => (x.1, closure x.2)) hparse hs hord
  exact ⟨fun e => (key _).trans (h1 e), fun t => (key _).trans (h2 t)⟩

/-! ## Cases -/

/-- A small part of Rust: visibilities are empty or `pub`, paths are one word, and the other pieces reach to the next `,`, `;` or `=`. -/
def untilStop (ts : List TT) : List TT × List TT :=
  match ts with
  | [] => ([], [])
  | .punct c j :: r => if c = ',' ∨ c = ';' ∨ c = '=' then ([], .punct c j :: r) else let x := untilStop r; (.punct c j :: x.1, x.2)
  | t :: r => let x := untilStop r; (t :: x.1, x.2)

theorem untilStop_append (ts : List TT) : ts = (untilStop ts).1 ++ (untilStop ts).2 := by
  induction ts with
  | nil => rfl
  | cons t r ih =>
    unfold untilStop
    split
    · rename_i h; cases h
    · rename_i h; cases h
      split
      · rfl
      · simp only [List.cons_append]; rw [← ih]
    · rename_i h; cases h
      simp only [List.cons_append]; rw [← ih]

/-- A piece that reaches to the next stop. -/
def toyPiece : Piece (List TT) where
  run ts := some (untilStop ts)
  suffix ts v r h := by
    refine ⟨v, ?_⟩
    rw [Option.some.injEq] at h
    have := untilStop_append ts
    rwa [h] at this

def toyWord : Piece String where
  run ts := match ts with
    | .ident s :: r => some (s, r)
    | _ => none
  suffix ts v r h := by
    split at h
    · cases h; exact ⟨[.ident v], rfl⟩
    · cases h

def toyVis : Piece Bool where
  run ts := match ts with
    | .ident "pub" :: r => some (true, r)
    | r => some (false, r)
  suffix ts v r h := by
    split at h
    · cases h; exact ⟨[.ident "pub"], rfl⟩
    · cases h; exact ⟨[], rfl⟩

def toyRust : Rust Bool String (List TT) (List TT) (List TT) :=
  ⟨toyVis, toyWord, toyPiece, toyPiece, toyPiece, fun s => s == "fn" || s == "pub" || s == "_"⟩

/-- ```
pub fn create() -> LR1Parser {
    token Terminal { Number = Number(0), "+" = Plus, }
    symbol NonTerminal { E = E }
    errortype Error;
    start E;
    <E>::=<E> "+" [Number]: x => y;
    | ERROR: x => z;
}
``` -/
def toyText (last : List TT) : List TT :=
  [.ident "pub", .ident "fn", .ident "create", .group .paren [], .punct '-' true, .punct '>' false, .ident "LR1Parser", .group .brace (
    [.ident "token", .ident "Terminal", .group .brace [.ident "Number", .punct '=' false, .ident "Number", .group .paren [.lit "0"], .punct ',' false,
      .str "+", .punct '=' false, .ident "Plus", .punct ',' false],
     .ident "symbol", .ident "NonTerminal", .group .brace [.ident "E", .punct '=' false, .ident "E"],
     .ident "errortype", .ident "Error", .punct ';' false,
     .ident "start", .ident "E", .punct ';' false,
     .punct '<' false, .ident "E", .punct '>' true, .punct ':' true, .punct ':' true, .punct '=' true, .punct '<' false, .ident "E", .punct '>' false,
       .str "+", .group .bracket [.ident "Number"], .punct ':' false, .ident "x", .punct '=' true, .punct '>' false, .ident "y", .punct ';' false,
     .punct '|' false] ++ last ++ [.punct ':' false, .ident "x", .punct '=' true, .punct '>' false, .ident "z", .punct ';' false])]

/-- The text is read as meant. -/
example : readParser toyRust (toyText [.ident "ERROR"]) = some
    { visibility := true, functionName := "create", tokenType := "Terminal",
      tokens := [(.named "Number", [.ident "Number", .group .paren [.lit "0"]]), (.raw "+", [.ident "Plus"])],
      symbolType := "NonTerminal", symbols := [("E", [.ident "E"])], error := [.ident "Error"], start := "E",
      rules := [⟨.named "E", [.nt "E", .tok (.raw "+"), .tok (.named "Number")], [.ident "x"], [.ident "y"]⟩,
        ⟨.follow, [.error], [.ident "x"], [.ident "z"]⟩] } := rfl

/-- A meaning of the expressions: `Number(0)` has index 2, `Plus` 1, `E` 1; callbacks return what their expression is long. -/
def toyMeaning : Meaning String (List TT) (List TT) Nat Nat Unit := ⟨fun _ e => e.length, fun _ e _ => .ok e.length⟩

def toyIn : ParserIn Bool String (List TT) (List TT) (List TT) :=
  { visibility := true, functionName := "create", tokenType := "Terminal",
    tokens := [(.named "Number", [.ident "Number", .group .paren [.lit "0"]]), (.raw "+", [.ident "Plus"])],
    symbolType := "NonTerminal", symbols := [("E", [.ident "E"])], error := [.ident "Error"], start := "E",
    rules := [⟨.named "E", [.nt "E", .tok (.raw "+"), .tok (.named "Number")], [.ident "x"], [.ident "y"]⟩,
      ⟨.follow, [.error], [.ident "x"], [.ident "z"]⟩] }

def toyRules : List (Par.Rule Nat Nat Unit) :=
  [⟨1, [.nt 1, .tm (.sym 1), .tm (.sym 2)], fun _ => .ok 1⟩, ⟨1, [.tm .err], fun _ => .ok 1⟩]

/-- The hypotheses of `c50_parser_text` can be met, and a parser comes out. -/
example : ParserText toyRust toyIn (toyText [.ident "ERROR"]) ∧ (toyIn.input toyMeaning).Means toyRules 1 ∧
    (toyIn.tokens.map fun x => toyMeaning.index toyIn.tokenType x.2).Nodup ∧
    (toyIn.symbols.map fun x => toyMeaning.index toyIn.symbolType x.2).Nodup ∧ (∃ r ∈ toyRules, r.lhs = 1) ∧
    ∃ p, ParserMacroGives toyRust toyMeaning Par.idSeeds Par.idGSeeds (toyText [.ident "ERROR"]) p := by
  have hE : Par.LastNamed (toyIn.input toyMeaning).symbols "E" 1 := ⟨[], [], rfl, by decide⟩
  have hN : Par.LastNamed (toyIn.input toyMeaning).tokens (.named "Number") 2 := ⟨[], _, rfl, by decide⟩
  have hP : Par.LastNamed (toyIn.input toyMeaning).tokens (.raw "+") 1 := ⟨[_], [], rfl, by decide⟩
  refine ⟨(c50_parser_input _ _ _).1 rfl, ⟨?_, hE⟩, by decide, by decide, ⟨_, List.mem_cons_self, rfl⟩, _, toyIn, rfl, 20, _, rfl, rfl⟩
  exact .named _ _ _ _ _ _ _ _ hE (.cons _ _ _ _ (.nt _ _ hE) (.cons _ _ _ _ (.tok _ _ hP) (.cons _ _ _ _ (.tok _ _ hN) .nil)))
    (.follow _ _ _ _ _ _ (.cons _ _ _ _ .error .nil) (.nil _))

/-- A rule may have no symbols. -/
example : ((readParser toyRust (toyText [])).map fun m => m.rules.map fun r => r.rule.length) = some [3, 0] := rfl

/-- Names without `<>` or `[]` are refused on the right-hand side, so are two names in one pair of brackets. -/
example : (readParser toyRust (toyText [.ident "E"])).isNone = true := rfl
example : (readParser toyRust (toyText [.group .bracket [.ident "Number", .ident "Number"]])).isNone = true := rfl

/-- `fn lexer() -> DFATokenizer { character char; token Token; "[a-z]+" : Word; "," : Comma }` -/
def toyTokenizer (sep : Char) : List TT :=
  [.ident "fn", .ident "lexer", .group .paren [], .punct '-' true, .punct '>' false, .ident "DFATokenizer", .group .brace
    [.ident "character", .ident "char", .punct ';' false, .ident "token", .ident "Token", .punct ';' false,
     .str "[a-z]+", .punct ':' false, .ident "Word", .punct sep false, .str ",", .punct ':' false, .ident "Comma"]]

example : readTokenizer toyRust (toyTokenizer ';') = some
    { visibility := false, functionName := "lexer", characterType := [.ident "char"], tokenType := [.ident "Token"],
      rules := [("[a-z]+", [.ident "Word"]), (",", [.ident "Comma"])] } := rfl

/-- Patterns are separated by `;`, not by `,`. -/
example : (readTokenizer toyRust (toyTokenizer ',')).isNone = true := rfl

end Verif.Macro
