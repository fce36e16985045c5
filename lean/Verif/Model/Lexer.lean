import Verif.Model.Accept
import Verif.Model.SyntaxKind

/-
Model of crates/syntax/src/lua_lexer.rs and lexer.rs.
-/
namespace Verif
namespace Lexer
open Accept

/-- The lexer's state is the rest of the text (`CharSource`), panics are `Fail.panic`. -/
abbrev Lex := StateT Text (Except Fail)

/-- `LexResult<T>` = `OkResult<T, String>` (lexer/error.rs:4, 60): a value and an optional error. -/
abbrev LexResult (α : Type) := α × Option String

def panic {α : Type} : Lex α := fun _ => .error .panic
def outOfFuel {α : Type} : Lex α := fun _ => .error .fuel

/-- `self.source.accept(a)` -/
def accept (a : Acc) : Lex Bool := fun s => a.accept s
/-- `self.source.accept_count(a)` -/
def acceptCount (a : Acc) : Lex Nat := fun s => a.acceptCount s
/-- `self.source.at(a)` (accept.rs:10-15) -/
def atA (a : Acc) : Lex Bool := fun s => .ok (a.peek s, s)
/-- `self.source.current()` (source.rs:26-28) -/
def current : Lex Char := fun s => .ok (nthChar s 0, s)
/-- accept.rs:89-94, `bump`: `assert!(self.accept(l))` -/
def bump (a : Acc) : Lex Unit := do
  if ← accept a then return () else panic
/-- accept.rs:24-30, `bump_then` -/
def bumpThen (a : Acc) : Lex Char := do
  bump a
  current

/-! ### character classes -/

/-- lua_lexer.rs:329-331 -/
def isNumber (c : Char) : Bool := decide (48 ≤ c.toNat ∧ c.toNat ≤ 57)
/-- lua_lexer.rs:334-336 (`is_ascii_alphabetic`) -/
def isIdentStart (c : Char) : Bool :=
  decide ((65 ≤ c.toNat ∧ c.toNat ≤ 90) ∨ (97 ≤ c.toNat ∧ c.toNat ≤ 122)) || c == '_'
/-- lua_lexer.rs:339-341 -/
def isIdentContinue (c : Char) : Bool := isIdentStart c || isNumber c
/-- lua_lexer.rs:344-346 (`is_ascii_whitespace`: space, tab, line feed, form feed, carriage return) -/
def isWhitespace (c : Char) : Bool :=
  decide (c.toNat = 32 ∨ c.toNat = 9 ∨ c.toNat = 10 ∨ c.toNat = 12 ∨ c.toNat = 13)
/-- lua_lexer.rs:349-351 -/
def isHex (c : Char) : Bool :=
  isNumber c || decide ((65 ≤ c.toNat ∧ c.toNat ≤ 70) ∨ (97 ≤ c.toNat ∧ c.toNat ≤ 102))

/-! ### the lexer functions -/

/-- `LexResult::just` / `done!` -/
def just {α : Type} (a : α) : Lex (LexResult α) := pure (a, none)
/-- `bail!` -/
def bail {α : Type} (a : α) (msg : String) : Lex (LexResult α) := pure (a, some msg)

/-- lua_lexer.rs:189-207, `number`. -/
def number : Lex (LexResult SyntaxKind) := do
  if !(← atA (.pred isNumber)) then panic else
  if ← accept (.seq (.ch '0') (.ch 'x')) then
    let _ ← accept (.while (.pred isHex))
    just .number
  else
    let _ ← accept (.while (.pred isNumber))
    if ← accept (.ch '.') then
      let _ ← accept (.while (.pred isNumber))
    let e ← accept (.ch 'e')
    let e ← if e then pure true else accept (.ch 'E')
    if e then
      let _ ← accept (.ch '-')
      let _ ← accept (.while (.pred isNumber))
    just .number

/-- lua_lexer.rs:209-215, `whitespace`. -/
def whitespace : Lex SyntaxKind := do
  if !(← atA (.pred isWhitespace)) then panic else
  let _ ← accept (.while (.pred isWhitespace))
  return .whitespace

/-- lua_lexer.rs:251-265, the `loop` of `close`; `true` = closed, `false` = hit the end. -/
def closeLoop (count : Nat) : Nat → Lex Bool
  | 0 => outOfFuel
  | n + 1 => do
    let _ ← accept (.while (.or (.seq (.ch '\\') (.ch ']')) (.not (.ch ']'))))
    if !(← accept (.ch ']')) then
      return false
    else
      let closeCount ← acceptCount (.while (.ch '='))
      if count != closeCount then closeLoop count n else return true

/-- lua_lexer.rs:232-270, `close`. -/
def close (count : Nat) : Lex (LexResult Unit) := do
  let err1 ← accept (.ch '[')
  let fuel := (← get).length + 1
  if ← closeLoop count fuel then
    let err2 ← accept (.ch ']')
    return ((), if err1 && err2 then none else some "Invalid bracket notation")
  else
    bail () "Could not find bracket string close"

/-- lua_lexer.rs:231-282, `bracket_enclosed`. -/
def bracketEnclosed : Lex (LexResult Unit) := do
  let c ← current
  if !(c == '[' || c == '=') then panic else
  if ← atA (.ch '[') then close 0
  else if ← atA (.ch '=') then
    let count ← acceptCount (.while (.ch '='))
    close count
  else just ()

/-- lua_lexer.rs:217-229, `comment` (the error of `bracket_enclosed` is dropped). -/
def comment : Lex (LexResult SyntaxKind) := do
  bump (.ch '-')
  if ← accept (.ch '[') then
    if ← atA (.ch '[') then
      let _ ← bracketEnclosed
  let _ ← accept (.until (.ch '\n'))
  just .comment

/-- lua_lexer.rs:284-288, `multiline_string`. -/
def multilineString : Lex (LexResult SyntaxKind) := do
  if !(← atA (.or (.ch '[') (.ch '='))) then panic else
  let (_, err) ← bracketEnclosed
  return (.str, err)

/-- lua_lexer.rs:302, the message for a missing delimiter. -/
def closingMsg (delimit : Char) : String :=
  "Could not find closing delimiter `" ++ String.ofList [delimit] ++ "`"

/-- lua_lexer.rs:300-311, the `loop` of `string`. -/
def stringLoop (delimit : Char) : Nat → Lex (LexResult SyntaxKind)
  | 0 => outOfFuel
  | n + 1 => do
    let c ← current
    if c == EOF_CHAR then bail .str (closingMsg delimit)
    else if c == '\n' then bail .str "Unexpected newline in string"
    else if c == delimit then
      bump (.ch delimit)
      just .str
    else
      bump (.or (.seq (.ch '\\') (.ch delimit)) .any)
      stringLoop delimit n

/-- lua_lexer.rs:296-314, `string`. -/
def string (delimit : Char) : Lex (LexResult SyntaxKind) := do
  if !(delimit == '\'' || delimit == '"') then panic else
  bump (.ch delimit)
  let fuel := (← get).length + 1
  stringLoop delimit fuel

/-- lua_lexer.rs:316-325, `ident`.  `pos()` differences are differences of remaining lengths
(source.rs:56-63). -/
def ident : Lex SyntaxKind := do
  let text ← get
  bump (.pred isIdentStart)
  let _ ← accept (.while (.pred isIdentContinue))
  let rest ← get
  match Text.slice 0 (text.len - rest.len) text with
  | none => panic
  | some word => return (SyntaxKind.fromKeyword word).getD .ident

/-- lua_lexer.rs:107-164, the single-character tokens of the `match`. -/
def singleKind (c : Char) : Option SyntaxKind :=
  if c == '(' then some .lParen
  else if c == ')' then some .rParen
  else if c == '{' then some .lBrace
  else if c == '}' then some .rBrace
  else if c == ']' then some .rBracket
  else if c == ',' then some .comma
  else if c == ';' then some .semicolon
  else if c == '#' then some .hash
  else if c == '+' then some .plus
  else if c == '*' then some .asterisk
  else if c == '/' then some .slash
  else if c == '%' then some .modulo
  else if c == '^' then some .caret
  else if c == '!' then some .bang
  else none

/-- lua_lexer.rs:86-187, `lex_main`.  The arms match distinct characters, so their order only matters
for the last four. -/
def lexMain : Lex (LexResult SyntaxKind) := do
  let c ← current
  if c == '=' then
    if (← bumpThen .any) == '=' then
      bump (.ch '=')
      just .eqEq
    else just .eq
  else if c == '~' then
    if (← bumpThen .any) == '=' then
      bump (.ch '=')
      just .notEq
    else just .unknown
  else if c == '[' then
    let c2 ← bumpThen .any
    if c2 == '[' then multilineString
    else if c2 == '=' then multilineString
    else just .lBracket
  else if c == '.' then
    if (← bumpThen .any) == '.' then
      if (← bumpThen .any) == '.' then
        bump (.ch '.')
        just .tripleDot
      else just .doubleDot
    else just .dot
  else if c == ':' then
    if (← bumpThen .any) == ':' then
      bump (.ch ':')
      just .doubleColon
    else just .colon
  else if c == '>' then
    if (← bumpThen .any) == '=' then
      bump (.ch '=')
      just .gtEq
    else just .gt
  else if c == '<' then
    if (← bumpThen .any) == '=' then
      bump (.ch '=')
      just .ltEq
    else just .lt
  else if c == '-' then
    if (← bumpThen .any) == '-' then comment
    else just .minus
  else if c == '\'' || c == '"' then string c
  else match singleKind c with
    | some kind => do
      bump .any
      just kind
    | none =>
      if isIdentStart c then do just (← ident)
      else if isNumber c then number
      else if isWhitespace c then do just (← whitespace)
      else do
        bump .any
        bail .unknown "Got an unknown token"

end Lexer

/-- parser/src/lib.rs:29-34, `Token`: a kind and a byte length. -/
structure Token where
  kind : SyntaxKind
  len : Nat
  deriving DecidableEq, Repr, Inhabited

/-- syntax_node.rs:26, `SyntaxError`: message and range. -/
structure SyntaxError where
  msg : String
  range : Range
  deriving DecidableEq, Repr

/-- lexer.rs:17-24 and 29-40, `first_token` (`None` on the empty text); lua_lexer.rs:70-72: the token
length is the number of bytes consumed. -/
def firstToken (text : Text) : Except Fail (Option (Token × Option SyntaxError)) :=
  if text = [] then .ok none
  else match Lexer.lexMain text with
    | .error e => .error e
    | .ok ((kind, err), rest) =>
      let len := text.len - rest.len
      .ok (some (⟨kind, len⟩, err.map fun e => ⟨e, Range.upTo len⟩))

/-- lexer.rs:67-86, `tokenizer`, iterated; fuel bounds the number of tokens. -/
def tokenizeLoop : Nat → Nat → Text → Except Fail (List (Token × Option SyntaxError))
  | 0, _, _ => .error .fuel
  | n + 1, pos, text =>
    match firstToken text with
    | .error e => .error e
    | .ok none => .ok []
    | .ok (some (tok, err)) =>
      let err := err.map fun e => { e with range := e.range.shift pos }
      match Text.sliceFrom tok.len text with
      | none => .error .panic
      | some text' =>
        match tokenizeLoop n (pos + tok.len) text' with
        | .error e => .error e
        | .ok rest => .ok ((tok, err) :: rest)

/-- lexer.rs:50-64, `tokenize`. -/
def tokenize (text : Text) : Except Fail (List Token × List SyntaxError) :=
  match tokenizeLoop (text.length + 1) 0 text with
  | .error e => .error e
  | .ok ts => .ok (ts.map (·.1), ts.filterMap (·.2))

end Verif
