import Verif.Spec.Accepted

/-
The grammar of the Lua 5.1 reference manual (section 8, "The Complete Syntax of Lua"), over the kinds of tokens.
No parser code, no tree shapes and none of the other grammars are used here.
-/
namespace Verif.Spec.Manual

/-- What a statement or an expression ends in, which decides what a `(` right behind it means. -/
inductive End where
  /-- a literal, a name list or a keyword: a `(` starts something new -/
  | closed
  /-- a prefix expression: Lua reads a `(` as call arguments (manual, section 2.5.8) -/
  | prefixexp
  /-- a function or a table constructor: for Lua a `(` starts something new -/
  | constructor
  deriving DecidableEq, Repr

/-- The nonterminals of the manual. -/
inductive NT where
  | chunk | stat (e : End) | laststat | elses | funcname | dotted | varlist | var | namelist | explist (e : End)
  | exp (e : End) | prefixexp | functioncall | args | funcbody | parlist | tableconstructor | fieldlist | field

/-- nil, false, true, Number, String, `...` -/
def constants : List SyntaxKind := [.nilKw, .falseKw, .trueKw, .number, .str, .tripleDot]
/-- `+` `-` `*` `/` `^` `%` `..` `<` `<=` `>` `>=` `==` `~=` and or -/
def binops : List SyntaxKind :=
  [.plus, .minus, .asterisk, .slash, .caret, .modulo, .doubleDot, .lt, .ltEq, .gt, .gtEq, .eqEq, .notEq, .andKw, .orKw]
/-- `-` not `#` -/
def unops : List SyntaxKind := [.minus, .notKw, .hash]

/-- `Derives all nt w`: the manual derives the tokens `w` from `nt`.  With `all = false` two things are left out: lists of
several expressions after `in`, and statements that start with `(` right behind a function or a table constructor. -/
inductive Derives (all : Bool) : NT → List SyntaxKind → Prop where
  -- chunk ::= {stat [`;´]} [laststat [`;´]]
  | empty : Derives all .chunk []
  | stat {e w c} : Derives all (.stat e) w → Derives all .chunk c →
      (c.head? = some .lParen → e = .closed ∨ (e = .constructor ∧ all = true)) → Derives all .chunk (w ++ c)
  | statSemi {e w c} : Derives all (.stat e) w → Derives all .chunk c → Derives all .chunk (w ++ [.semicolon] ++ c)
  | last {w} : Derives all .laststat w → Derives all .chunk w
  | lastSemi {w} : Derives all .laststat w → Derives all .chunk (w ++ [.semicolon])
  -- stat ::= varlist `=´ explist | functioncall | do block end | while exp do block end | repeat block until exp |
  | assign {v e w} : Derives all .varlist v → Derives all (.explist e) w → Derives all (.stat e) (v ++ [.eq] ++ w)
  | call {w} : Derives all .functioncall w → Derives all (.stat .prefixexp) w
  | do_ {b} : Derives all .chunk b → Derives all (.stat .closed) ([.doKw] ++ b ++ [.endKw])
  | while_ {e c b} : Derives all (.exp e) c → Derives all .chunk b →
      Derives all (.stat .closed) ([.whileKw] ++ c ++ [.doKw] ++ b ++ [.endKw])
  | repeat_ {b e c} : Derives all .chunk b → Derives all (.exp e) c →
      Derives all (.stat e) ([.repeatKw] ++ b ++ [.untilKw] ++ c)
  -- if exp then block {elseif exp then block} [else block] end |
  | if_ {e c b r} : Derives all (.exp e) c → Derives all .chunk b → Derives all .elses r →
      Derives all (.stat .closed) ([.ifKw] ++ c ++ [.thenKw] ++ b ++ r ++ [.endKw])
  | noElse : Derives all .elses []
  | else_ {b} : Derives all .chunk b → Derives all .elses ([.elseKw] ++ b)
  | elseif {e c b r} : Derives all (.exp e) c → Derives all .chunk b → Derives all .elses r →
      Derives all .elses ([.elseifKw] ++ c ++ [.thenKw] ++ b ++ r)
  -- for Name `=´ exp `,´ exp [`,´ exp] do block end | for namelist in explist do block end |
  | for2 {e e' a a' b} : Derives all (.exp e) a → Derives all (.exp e') a' → Derives all .chunk b →
      Derives all (.stat .closed) ([.forKw, .ident, .eq] ++ a ++ [.comma] ++ a' ++ [.doKw] ++ b ++ [.endKw])
  | for3 {e e' e'' a a' a'' b} : Derives all (.exp e) a → Derives all (.exp e') a' → Derives all (.exp e'') a'' →
      Derives all .chunk b →
      Derives all (.stat .closed) ([.forKw, .ident, .eq] ++ a ++ [.comma] ++ a' ++ [.comma] ++ a'' ++ [.doKw] ++ b ++ [.endKw])
  | forIn {n e c b} : Derives all .namelist n → Derives all (.exp e) c → Derives all .chunk b →
      Derives all (.stat .closed) ([.forKw] ++ n ++ [.inKw] ++ c ++ [.doKw] ++ b ++ [.endKw])
  | forInList {n e c b} : all = true → Derives all .namelist n → Derives all (.explist e) c → Derives all .chunk b →
      Derives all (.stat .closed) ([.forKw] ++ n ++ [.inKw] ++ c ++ [.doKw] ++ b ++ [.endKw])
  -- function funcname funcbody | local function Name funcbody | local namelist [`=´ explist]
  | function_ {n f} : Derives all .funcname n → Derives all .funcbody f →
      Derives all (.stat .closed) ([.functionKw] ++ n ++ f)
  | localFunction {f} : Derives all .funcbody f → Derives all (.stat .closed) ([.localKw, .functionKw, .ident] ++ f)
  | local_ {n} : Derives all .namelist n → Derives all (.stat .closed) ([.localKw] ++ n)
  | localAssign {n e w} : Derives all .namelist n → Derives all (.explist e) w →
      Derives all (.stat e) ([.localKw] ++ n ++ [.eq] ++ w)
  -- laststat ::= return [explist] | break
  | return_ : Derives all .laststat [.returnKw]
  | returnList {e w} : Derives all (.explist e) w → Derives all .laststat ([.returnKw] ++ w)
  | break_ : Derives all .laststat [.breakKw]
  -- funcname ::= Name {`.´ Name} [`:´ Name]
  | dotted1 : Derives all .dotted [.ident]
  | dotted {w} : Derives all .dotted w → Derives all .dotted ([.ident, .dot] ++ w)
  | name {w} : Derives all .dotted w → Derives all .funcname w
  | method {w} : Derives all .dotted w → Derives all .funcname (w ++ [.colon, .ident])
  -- varlist ::= var {`,´ var}
  | var1 {w} : Derives all .var w → Derives all .varlist w
  | vars {w l} : Derives all .var w → Derives all .varlist l → Derives all .varlist (w ++ [.comma] ++ l)
  -- var ::= Name | prefixexp `[´ exp `]´ | prefixexp `.´ Name
  | varName : Derives all .var [.ident]
  | varIndex {p e c} : Derives all .prefixexp p → Derives all (.exp e) c →
      Derives all .var (p ++ [.lBracket] ++ c ++ [.rBracket])
  | varField {p} : Derives all .prefixexp p → Derives all .var (p ++ [.dot, .ident])
  -- namelist ::= Name {`,´ Name}
  | name1 : Derives all .namelist [.ident]
  | names {w} : Derives all .namelist w → Derives all .namelist ([.ident, .comma] ++ w)
  -- explist ::= {exp `,´} exp
  | exp1 {e w} : Derives all (.exp e) w → Derives all (.explist e) w
  | exps {e e' w l} : Derives all (.exp e) w → Derives all (.explist e') l → Derives all (.explist e') (w ++ [.comma] ++ l)
  -- exp ::= nil | false | true | Number | String | `...´ | function | prefixexp | tableconstructor | exp binop exp | unop exp
  | constant {k} : k ∈ constants → Derives all (.exp .closed) [k]
  | function {f} : Derives all .funcbody f → Derives all (.exp .constructor) ([.functionKw] ++ f)
  | prefixexp {w} : Derives all .prefixexp w → Derives all (.exp .prefixexp) w
  | table {w} : Derives all .tableconstructor w → Derives all (.exp .constructor) w
  | binop {e e' k l r} : Derives all (.exp e) l → k ∈ binops → Derives all (.exp e') r → Derives all (.exp e') (l ++ [k] ++ r)
  | unop {e k w} : k ∈ unops → Derives all (.exp e) w → Derives all (.exp e) ([k] ++ w)
  -- prefixexp ::= var | functioncall | `(´ exp `)´
  | prefixVar {w} : Derives all .var w → Derives all .prefixexp w
  | prefixCall {w} : Derives all .functioncall w → Derives all .prefixexp w
  | paren {e w} : Derives all (.exp e) w → Derives all .prefixexp ([.lParen] ++ w ++ [.rParen])
  -- functioncall ::= prefixexp args | prefixexp `:´ Name args
  | callArgs {p a} : Derives all .prefixexp p → Derives all .args a → Derives all .functioncall (p ++ a)
  | callMethod {p a} : Derives all .prefixexp p → Derives all .args a → Derives all .functioncall (p ++ [.colon, .ident] ++ a)
  -- args ::= `(´ [explist] `)´ | tableconstructor | String
  | args0 : Derives all .args [.lParen, .rParen]
  | args {e w} : Derives all (.explist e) w → Derives all .args ([.lParen] ++ w ++ [.rParen])
  | argsTable {w} : Derives all .tableconstructor w → Derives all .args w
  | argsString : Derives all .args [.str]
  -- function ::= function funcbody;  funcbody ::= `(´ [parlist] `)´ block end
  | body0 {b} : Derives all .chunk b → Derives all .funcbody ([.lParen, .rParen] ++ b ++ [.endKw])
  | body {p b} : Derives all .parlist p → Derives all .chunk b →
      Derives all .funcbody ([.lParen] ++ p ++ [.rParen] ++ b ++ [.endKw])
  -- parlist ::= namelist [`,´ `...´] | `...´
  | params {w} : Derives all .namelist w → Derives all .parlist w
  | paramsDots {w} : Derives all .namelist w → Derives all .parlist (w ++ [.comma, .tripleDot])
  | dots : Derives all .parlist [.tripleDot]
  -- tableconstructor ::= `{´ [fieldlist] `}´;  fieldlist ::= field {fieldsep field} [fieldsep]
  | table0 : Derives all .tableconstructor [.lBrace, .rBrace]
  | tableFields {w} : Derives all .fieldlist w → Derives all .tableconstructor ([.lBrace] ++ w ++ [.rBrace])
  | field1 {w} : Derives all .field w → Derives all .fieldlist w
  | fieldSep {w sep} : Derives all .field w → sep ∈ [SyntaxKind.comma, .semicolon] → Derives all .fieldlist (w ++ [sep])
  | fields {w sep l} : Derives all .field w → sep ∈ [SyntaxKind.comma, .semicolon] → Derives all .fieldlist l →
      Derives all .fieldlist (w ++ [sep] ++ l)
  -- field ::= `[´ exp `]´ `=´ exp | Name `=´ exp | exp
  | fieldIndex {e e' i w} : Derives all (.exp e) i → Derives all (.exp e') w →
      Derives all .field ([.lBracket] ++ i ++ [.rBracket, .eq] ++ w)
  | fieldName {e w} : Derives all (.exp e) w → Derives all .field ([.ident, .eq] ++ w)
  | fieldExp {e w} : Derives all (.exp e) w → Derives all .field w

/-- Every string token of the text has only the escapes lua-analyzer knows. -/
def StringsOk (text : Text) (tokens : List Token) : Prop :=
  ∃ words : List Text, words.flatten = text ∧ words.map Text.len = tokens.map (·.len) ∧
    ∀ p ∈ tokens.zip words, p.1.kind = .str → StringOk p.2

end Verif.Spec.Manual
