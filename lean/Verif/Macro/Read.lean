import Verif.Macro.Syn

/-!
# Model of the `Parse` implementations of the two macro crates

Unused parts (`EnumValue`, `EnumItem`, `NoneToken`, parser_generator/src/lib.rs:96-152, 188-194) are left out.
-/

namespace Verif.Macro

open Verif.Par (TokenKey BnfSym BnfKey)

variable {Vis Path Ty Pat Expr : Type}

/-! ## `parser!` (parser_generator/src/lib.rs) -/

/-- `TokenKey::parse`, lib.rs:29-39. -/
def tokenKey (R : Rust Vis Path Ty Pat Expr) : P TokenKey := do
  if ← peekStr then return .raw (← str)
  else return .named (← ident R.reserved)

/-- `TokenItem::parse`, lib.rs:47-51. -/
def tokenItem (R : Rust Vis Path Ty Pat Expr) : P (TokenKey × Expr) := do
  let key ← tokenKey R
  punct '='
  let value ← R.expr.run
  return (key, value)

/-- `TokenList::parse`, lib.rs:60-70. -/
def tokenList (R : Rust Vis Path Ty Pat Expr) : P (Path × List (TokenKey × Expr)) := do
  kw "token"
  let name ← R.path.run
  let items ← inGroup .brace (terminated (tokenItem R) ',')
  return (name, items)

/-- `SymbolItem::parse`, lib.rs:78-83. -/
def symbolItem (R : Rust Vis Path Ty Pat Expr) : P (String × Expr) := do
  let key ← ident R.reserved
  punct '='
  let value ← R.expr.run
  return (key, value)

/-- `SymbolList::parse`, lib.rs:92-102. -/
def symbolList (R : Rust Vis Path Ty Pat Expr) : P (Path × List (String × Expr)) := do
  kw "symbol"
  let name ← R.path.run
  let items ← inGroup .brace (terminated (symbolItem R) ',')
  return (name, items)

/-- `BNFTerminalSymbol::parse`, lib.rs:159-168. -/
def bnfTerminal (R : Rust Vis Path Ty Pat Expr) : P TokenKey := do
  if ← peekGroup .bracket then return .named (← inGroup .bracket (ident R.reserved))
  else return .raw (← str)

/-- `BNFSymbol::parse`, lib.rs:176-186. -/
def bnfSymbol (R : Rust Vis Path Ty Pat Expr) : P BnfSym := do
  if ← peekPunct '<' then
    punct '<'
    let name ← ident R.reserved
    punct '>'
    return .nt name
  else if ← peekKw "ERROR" then
    kw "ERROR"
    return .error
  else return .tok (← bnfTerminal R)

/-- `BNFRuleKey::parse`, lib.rs:201-215. -/
def bnfRuleKey (R : Rust Vis Path Ty Pat Expr) : P BnfKey := do
  if ← peekPunct '<' then
    punct '<'
    let name ← ident R.reserved
    punct '>'
    punct2 ':' ':'
    punct '='
    return .named name
  else
    punct '|'
    return .follow

/-- The loop lib.rs:231-237, with fuel that is shown to be enough. -/
def bnfSymbolsGo (R : Rust Vis Path Ty Pat Expr) : Nat → P (List BnfSym)
  | 0 => fun _ => none
  | n + 1 => do
    if ← peekPunct ':' then return []
    let x ← bnfSymbol R
    let xs ← bnfSymbolsGo R n
    return x :: xs

def bnfSymbols (R : Rust Vis Path Ty Pat Expr) : P (List BnfSym) := fun ts => bnfSymbolsGo R (ts.length + 1) ts

/-- `BNFRule`, lib.rs:217-225, as far as it is used. -/
structure RuleIn (Pat Expr : Type) where
  key : BnfKey
  rule : List BnfSym
  pattern : Pat
  generator : Expr

/-- `BNFRule::parse`, lib.rs:227-245. -/
def bnfRule (R : Rust Vis Path Ty Pat Expr) : P (RuleIn Pat Expr) := do
  let key ← bnfRuleKey R
  let rule ← bnfSymbols R
  punct ':'
  let pattern ← R.pat.run
  punct2 '=' '>'
  let generator ← R.expr.run
  punct ';'
  return ⟨key, rule, pattern, generator⟩

/-- The loop lib.rs:292-297, with fuel that is shown to be enough. -/
def bnfRulesGo (R : Rust Vis Path Ty Pat Expr) : Nat → P (List (RuleIn Pat Expr))
  | 0 => fun _ => none
  | n + 1 => do
    if ← isEmpty then return []
    let x ← bnfRule R
    let xs ← bnfRulesGo R n
    return x :: xs

def bnfRules (R : Rust Vis Path Ty Pat Expr) : P (List (RuleIn Pat Expr)) := fun ts => bnfRulesGo R (ts.length + 1) ts

/-- `ParserGeneratorInput`, lib.rs:247-264, as far as it is used. -/
structure ParserIn (Vis Path Ty Pat Expr : Type) where
  visibility : Vis
  functionName : String
  tokenType : Path
  tokens : List (TokenKey × Expr)
  symbolType : Path
  symbols : List (String × Expr)
  error : Ty
  start : String
  rules : List (RuleIn Pat Expr)

/-- The part of `ParserGeneratorInput::parse` inside the braces, lib.rs:284-297. -/
def parserItems (R : Rust Vis Path Ty Pat Expr) (v : Vis) (f : String) : P (ParserIn Vis Path Ty Pat Expr) := do
  let (tt, tokens) ← tokenList R
  let (st, symbols) ← symbolList R
  kw "errortype"
  let error ← R.ty.run
  punct ';'
  kw "start"
  let start ← ident R.reserved
  punct ';'
  let rules ← bnfRules R
  return ⟨v, f, tt, tokens, st, symbols, error, start, rules⟩

/-- `ParserGeneratorInput::parse`, lib.rs:266-299. -/
def parserInput (R : Rust Vis Path Ty Pat Expr) : P (ParserIn Vis Path Ty Pat Expr) := do
  let v ← R.vis.run
  kw "fn"
  let f ← ident R.reserved
  inGroup .paren (pure ())
  punct2 '-' '>'
  kw "LR1Parser"
  inGroup .brace (parserItems R v f)

/-- `parse_macro_input!(input as ParserGeneratorInput)`, lib.rs:312. -/
def readParser (R : Rust Vis Path Ty Pat Expr) (ts : List TT) : Option (ParserIn Vis Path Ty Pat Expr) := whole (parserInput R) ts

/-! ## `tokenizer!` (tokenizer_generator/src/lib.rs) -/

/-- `TokenizerRule::parse`, lib.rs:21-29. -/
def tokenizerRule (R : Rust Vis Path Ty Pat Expr) : P (String × Expr) := do
  let rule ← str
  punct ':'
  let generator ← R.expr.run
  return (rule, generator)

/-- `TokenizerGeneratorInput`, lib.rs:31-46, as far as it is used. -/
structure TokenizerIn (Vis Ty Expr : Type) where
  visibility : Vis
  functionName : String
  characterType : Ty
  tokenType : Ty
  rules : List (String × Expr)

/-- The part of `TokenizerGeneratorInput::parse` inside the braces, lib.rs:64-70. -/
def tokenizerItems (R : Rust Vis Path Ty Pat Expr) (v : Vis) (f : String) : P (TokenizerIn Vis Ty Expr) := do
  kw "character"
  let ct ← R.ty.run
  punct ';'
  kw "token"
  let tt ← R.ty.run
  punct ';'
  let rules ← terminated (tokenizerRule R) ';'
  return ⟨v, f, ct, tt, rules⟩

/-- `TokenizerGeneratorInput::parse`, lib.rs:48-73. -/
def tokenizerInput (R : Rust Vis Path Ty Pat Expr) : P (TokenizerIn Vis Ty Expr) := do
  let v ← R.vis.run
  kw "fn"
  let f ← ident R.reserved
  inGroup .paren (pure ())
  punct2 '-' '>'
  kw "DFATokenizer"
  inGroup .brace (tokenizerItems R v f)

/-- `parse_macro_input!(input as TokenizerGeneratorInput)`, lib.rs:77. -/
def readTokenizer (R : Rust Vis Path Ty Pat Expr) (ts : List TT) : Option (TokenizerIn Vis Ty Expr) := whole (tokenizerInput R) ts

end Verif.Macro
