import Verif.Macro.Read

/-!
# The syntax of macro inputs (specification)

Grammars of the two macros.  `Takes piece u v rest` says that Rust's own syntax, met with the tokens `u` followed by `rest`, takes exactly `u`,
as `v`.
-/

namespace Verif.Macro

open Verif.Par (TokenKey BnfSym BnfKey)

variable {Vis Path Ty Pat Expr : Type}

def Piece.Takes {α : Type} (p : Piece α) (u : List TT) (v : α) (rest : List TT) : Prop := p.run (u ++ rest) = some (v, rest)

/-- `p₁ sep p₂ sep …`, with or without a separator behind the last. -/
inductive Listed {α : Type} (item : α → List TT → List TT → Prop) (sep : Char) : List α → List TT → Prop
  | nil : Listed item sep [] []
  | last (x u) : item x u [] → u ≠ [] → Listed item sep [x] u
  | cons (x u j xs r) : item x u (.punct sep j :: r) → Listed item sep xs r → Listed item sep (x :: xs) (u ++ .punct sep j :: r)

/-- `Name` or `"text"` -/
inductive KeyText (R : Rust Vis Path Ty Pat Expr) : TokenKey → List TT → Prop
  | named (s) : R.reserved s = false → KeyText R (.named s) [.ident s]
  | raw (s) : KeyText R (.raw s) [.str s]

/-- `Name = value` or `"text" = value` -/
inductive TokenText (R : Rust Vis Path Ty Pat Expr) : TokenKey × Expr → List TT → List TT → Prop
  | mk (k u j e v rest) : KeyText R k u → R.expr.Takes v e rest → TokenText R (k, e) (u ++ .punct '=' j :: v) rest

/-- `Name = value` -/
inductive SymbolText (R : Rust Vis Path Ty Pat Expr) : String × Expr → List TT → List TT → Prop
  | mk (s j e v rest) : R.reserved s = false → R.expr.Takes v e rest → SymbolText R (s, e) (.ident s :: .punct '=' j :: v) rest

/-- A symbol on the right-hand side of a rule: `[Name]`, `"text"`, `<Name>`, `ERROR`. -/
inductive SymText (R : Rust Vis Path Ty Pat Expr) : BnfSym → List TT → Prop
  | named (s) : R.reserved s = false → SymText R (.tok (.named s)) [.group .bracket [.ident s]]
  | raw (s) : SymText R (.tok (.raw s)) [.str s]
  | nt (s j j') : R.reserved s = false → SymText R (.nt s) [.punct '<' j, .ident s, .punct '>' j']
  | error : SymText R .error [.ident "ERROR"]

inductive SymsText (R : Rust Vis Path Ty Pat Expr) : List BnfSym → List TT → Prop
  | nil : SymsText R [] []
  | cons (x u xs us) : SymText R x u → SymsText R xs us → SymsText R (x :: xs) (u ++ us)

/-- `<Name> ::=` or `|` -/
inductive HeadText (R : Rust Vis Path Ty Pat Expr) : BnfKey → List TT → Prop
  | named (s j j' j'' j''') : R.reserved s = false →
      HeadText R (.named s) [.punct '<' j, .ident s, .punct '>' j', .punct ':' true, .punct ':' j'', .punct '=' j''']
  | follow (j) : HeadText R .follow [.punct '|' j]

/-- `head symbols : pattern => generator ;` -/
inductive RuleText (R : Rust Vis Path Ty Pat Expr) : RuleIn Pat Expr → List TT → List TT → Prop
  | mk (k u xs us j p pu j' e eu j'' rest) : HeadText R k u → SymsText R xs us →
      R.pat.Takes pu p (.punct '=' true :: .punct '>' j' :: (eu ++ .punct ';' j'' :: rest)) → R.expr.Takes eu e (.punct ';' j'' :: rest) →
      RuleText R ⟨k, xs, p, e⟩ (u ++ us ++ .punct ':' j :: pu ++ .punct '=' true :: .punct '>' j' :: eu ++ [.punct ';' j'']) rest

inductive RulesText (R : Rust Vis Path Ty Pat Expr) : List (RuleIn Pat Expr) → List TT → Prop
  | nil : RulesText R [] []
  | cons (x u xs us) : RuleText R x u us → RulesText R xs us → RulesText R (x :: xs) (u ++ us)

/-- `vis fn name() -> marker { body }` -/
inductive FnText (R : Rust Vis Path Ty Pat Expr) (marker : String) : Vis → String → List TT → List TT → Prop
  | mk (v vu f j body) : R.reserved f = false →
      R.vis.Takes vu v [.ident "fn", .ident f, .group .paren [], .punct '-' true, .punct '>' j, .ident marker, .group .brace body] →
      FnText R marker v f body
        (vu ++ [.ident "fn", .ident f, .group .paren [], .punct '-' true, .punct '>' j, .ident marker, .group .brace body])

/-- `token Path { tokens } symbol Path { symbols } errortype Type; start Name; rules` -/
inductive ParserBody (R : Rust Vis Path Ty Pat Expr) (v : Vis) (f : String) : ParserIn Vis Path Ty Pat Expr → List TT → Prop
  | mk (tp tpu toks toksu sp spu syms symsu ty tyu j s j' rules rulesu) :
      R.path.Takes tpu tp (.group .brace toksu :: .ident "symbol" :: (spu ++ .group .brace symsu :: .ident "errortype" ::
        (tyu ++ .punct ';' j :: .ident "start" :: .ident s :: .punct ';' j' :: rulesu))) →
      Listed (TokenText R) ',' toks toksu →
      R.path.Takes spu sp (.group .brace symsu :: .ident "errortype" ::
        (tyu ++ .punct ';' j :: .ident "start" :: .ident s :: .punct ';' j' :: rulesu)) →
      Listed (SymbolText R) ',' syms symsu →
      R.ty.Takes tyu ty (.punct ';' j :: .ident "start" :: .ident s :: .punct ';' j' :: rulesu) →
      R.reserved s = false →
      RulesText R rules rulesu →
      ParserBody R v f ⟨v, f, tp, toks, sp, syms, ty, s, rules⟩
        (.ident "token" :: (tpu ++ .group .brace toksu :: .ident "symbol" :: (spu ++ .group .brace symsu :: .ident "errortype" ::
        (tyu ++ .punct ';' j :: .ident "start" :: .ident s :: .punct ';' j' :: rulesu))))

/-- The text of an input of `parser!`. -/
def ParserText (R : Rust Vis Path Ty Pat Expr) (m : ParserIn Vis Path Ty Pat Expr) (ts : List TT) : Prop :=
  ∃ body, FnText R "LR1Parser" m.visibility m.functionName body ts ∧ ParserBody R m.visibility m.functionName m body

/-- `"pattern" : generator` -/
inductive PatternText (R : Rust Vis Path Ty Pat Expr) : String × Expr → List TT → List TT → Prop
  | mk (s j e v rest) : R.expr.Takes v e rest → PatternText R (s, e) (.str s :: .punct ':' j :: v) rest

/-- `character Type; token Type; patterns` -/
inductive TokenizerBody (R : Rust Vis Path Ty Pat Expr) (v : Vis) (f : String) : TokenizerIn Vis Ty Expr → List TT → Prop
  | mk (ct ctu j tt ttu j' rules rulesu) :
      R.ty.Takes ctu ct (.punct ';' j :: .ident "token" :: (ttu ++ .punct ';' j' :: rulesu)) →
      R.ty.Takes ttu tt (.punct ';' j' :: rulesu) →
      Listed (PatternText R) ';' rules rulesu →
      TokenizerBody R v f ⟨v, f, ct, tt, rules⟩
        (.ident "character" :: (ctu ++ .punct ';' j :: .ident "token" :: (ttu ++ .punct ';' j' :: rulesu)))

/-- The text of an input of `tokenizer!`. -/
def TokenizerText (R : Rust Vis Path Ty Pat Expr) (m : TokenizerIn Vis Ty Expr) (ts : List TT) : Prop :=
  ∃ body, FnText R "DFATokenizer" m.visibility m.functionName body ts ∧ TokenizerBody R m.visibility m.functionName m body

end Verif.Macro
