import Verif.Model.Lexer

/-
How many characters the lexer reads: a model of crates/syntax/src/lua_lexer.rs, lexer.rs and lib/accept which counts
every call of `Chars::next`.  The functions of lua_lexer.rs are written once more over an arbitrary character source, so
that they run on the source of Model/Lexer.lean (`plain`; Props/LexerCost.lean shows that they are then the functions of
Model/Lexer.lean) and on one that counts (`counting`).
-/
namespace Verif
namespace Accept

/-- A text and the number of characters read so far. -/
abbrev Counted := StateT (Text × Nat) (Except Fail)

/-- `n` characters are read. -/
def tick (n : Nat) : Counted Unit := fun (s, k) => .ok ((), (s, k + n))
def restC : Counted Text := fun (s, k) => .ok (s, (s, k))
def failC {α : Type} (e : Fail) : Counted α := fun _ => .error e

/-- source.rs:75-77, `advance`: one character is read. -/
def advanceC : Counted Bool := fun (s, k) => match s with
  | [] => .ok (false, ([], k + 1))
  | _ :: cs => .ok (true, (cs, k + 1))

/-- The number of characters read by `Lexable::nth` (accept.rs:97-143, combinators.rs:11-19, 54-62, 88-96, 146-157,
169-177, 206-214, 233-241): `nth(n)` of the source steps over `n + 1` characters (source.rs:78-80, 86-88), and `&&`, `||`
and `all` stop at the first that decides. -/
def Acc.nthReads : Acc → Text → Nat → Nat
  | .ch _, _, n | .pred _, _, n | .range _ _, _, n | .any, _, n => n + 1
  | .seq a b, s, n => a.nthReads s n + if a.nth s n then b.nthReads s (n + 1) else 0
  | .and a b, s, n => a.nthReads s n + if a.nth s n then b.nthReads s n else 0
  | .or a b, s, n => a.nthReads s n + if a.nth s n then 0 else b.nthReads s n
  | .not a, s, n | .until a, s, n => 1 + if nthIsEof s 0 then 0 else a.nthReads s n
  | .while a, s, n => a.nthReads s n
  | .repeat a k, s, n =>
    (((List.range k).takeWhile fun i => a.nth s (n + i)).map fun i => a.nthReads s (n + i)).sum +
      match (List.range k).find? fun i => !a.nth s (n + i) with
      | some i => a.nthReads s (n + i)
      | none => 0

/-- accept.rs:58-63, `peek`. -/
def Acc.peekC (a : Acc) : Counted Bool := fun (s, k) => .ok (a.peek s, (s, k + a.nthReads s 0))

/-- source.rs:30-33, `is_eof`. -/
def isEofC : Counted Bool := fun (s, k) => .ok (nthIsEof s 0, (s, k + 1))

/-- accept.rs:70-80, the default `accept`. -/
def acceptDefaultC (a : Acc) : Counted Bool := do
  if ← a.peekC then
    if ← advanceC then return true else failC .panic
  else return false

/-- combinators.rs:189, with fuel. -/
def whileLoopC (f : Counted Bool) : Nat → Counted Unit
  | 0 => failC .fuel
  | n + 1 => do
    if ← isEofC then return ()
    else if ← f then whileLoopC f n
    else return ()

/-- combinators.rs:250-252 -/
def timesLoopC (f : Counted Bool) : Nat → Counted Unit
  | 0 => return ()
  | n + 1 => do
    let _ ← f
    timesLoopC f n

/-- combinators.rs:185-187: `l.is_eof() && !self.peek(l)` -/
def atEndC (a : Acc) : Counted Bool := do
  if ← isEofC then return !(← a.peekC) else return false

/-- `Accept::accept`: accept.rs:70-80, combinators.rs:26-35, 64-69, 103-106, 159-164, 184-192, 221-223,
248-257. -/
def Acc.acceptC : Acc → Counted Bool
  | .seq a b => do
    if ← (Acc.seq a b).peekC then
      let _ ← a.acceptC
      let _ ← b.acceptC
      return true
    else return false
  | .or a b => do
    if ← a.acceptC then return true else b.acceptC
  | .while a => do
    if ← atEndC a then return false
    else
      whileLoopC a.acceptC ((← restC).length + 1)
      return true
  | .until a => do
    if ← atEndC (.not a) then return false
    else
      whileLoopC (acceptDefaultC (.not a)) ((← restC).length + 1)
      return true
  | .repeat a n => do
    if ← (Acc.repeat a n).peekC then
      timesLoopC a.acceptC n
      return true
    else return false
  | a => acceptDefaultC a

/-- combinators.rs:194-200, with fuel. -/
def countLoopC (f : Counted Bool) : Nat → Nat → Counted Nat
  | 0, _ => failC .fuel
  | n + 1, k => do
    if ← f then countLoopC f n (k + 1) else return k

/-- `Accept::accept_count`: accept.rs:82-87, combinators.rs:194-200, 225-227. -/
def Acc.acceptCountC : Acc → Counted Nat
  | .while a => do countLoopC a.acceptC ((← restC).length + 1) 0
  | .until a => do countLoopC (acceptDefaultC (.not a)) ((← restC).length + 1) 0
  | a => do return if ← a.acceptC then 1 else 0

end Accept

namespace Lexer
open Accept

/-- What the lexer uses of a source (accept.rs:8-45, source.rs:65-88). -/
structure Source (m : Type → Type) where
  accept : Acc → m Bool
  acceptCount : Acc → m Nat
  atA : Acc → m Bool
  current : m Char
  rest : m Text
  fail : {α : Type} → Fail → m α

/-- The source of Model/Lexer.lean. -/
def plain : Source Lex where
  accept := Lexer.accept
  acceptCount := Lexer.acceptCount
  atA := Lexer.atA
  current := Lexer.current
  rest := get
  fail := fun e _ => .error e

/-- The source that counts the characters read. -/
def counting : Source Counted where
  accept := Acc.acceptC
  acceptCount := Acc.acceptCountC
  atA := Acc.peekC
  current := fun (s, k) => .ok (nthChar s 0, (s, k + 1))
  rest := restC
  fail := failC

namespace Over
variable {m : Type → Type} [Monad m]

/-- accept.rs:89-94, `bump` -/
def bump (o : Source m) (a : Acc) : m Unit := do
  if ← o.accept a then return () else o.fail .panic
/-- accept.rs:24-30, `bump_then` -/
def bumpThen (o : Source m) (a : Acc) : m Char := do
  bump o a
  o.current
/-- `LexResult::just` / `done!` -/
def just {α : Type} (a : α) : m (LexResult α) := pure (a, none)
/-- `bail!` -/
def bail {α : Type} (a : α) (msg : String) : m (LexResult α) := pure (a, some msg)

/-- lua_lexer.rs:189-207, `number`. -/
def number (o : Source m) : m (LexResult SyntaxKind) := do
  if !(← o.atA (.pred isNumber)) then o.fail .panic else
  if ← o.accept (.seq (.ch '0') (.ch 'x')) then
    let _ ← o.accept (.while (.pred isHex))
    just .number
  else
    let _ ← o.accept (.while (.pred isNumber))
    if ← o.accept (.ch '.') then
      let _ ← o.accept (.while (.pred isNumber))
    let e ← o.accept (.ch 'e')
    let e ← if e then pure true else o.accept (.ch 'E')
    if e then
      let _ ← o.accept (.ch '-')
      let _ ← o.accept (.while (.pred isNumber))
    just .number

/-- lua_lexer.rs:209-215, `whitespace`. -/
def whitespace (o : Source m) : m SyntaxKind := do
  if !(← o.atA (.pred isWhitespace)) then o.fail .panic else
  let _ ← o.accept (.while (.pred isWhitespace))
  return .whitespace

/-- lua_lexer.rs:251-265, the `loop` of `close`; `true` = closed, `false` = hit the end. -/
def closeLoop (o : Source m) (count : Nat) : Nat → m Bool
  | 0 => o.fail .fuel
  | n + 1 => do
    let _ ← o.accept (.while (.or (.seq (.ch '\\') (.ch ']')) (.not (.ch ']'))))
    if !(← o.accept (.ch ']')) then
      return false
    else
      let closeCount ← o.acceptCount (.while (.ch '='))
      if count != closeCount then closeLoop o count n else return true

/-- lua_lexer.rs:232-270, `close`. -/
def close (o : Source m) (count : Nat) : m (LexResult Unit) := do
  let err1 ← o.accept (.ch '[')
  let fuel := (← o.rest).length + 1
  if ← closeLoop o count fuel then
    let err2 ← o.accept (.ch ']')
    return ((), if err1 && err2 then none else some "Invalid bracket notation")
  else
    bail () "Could not find bracket string close"

/-- lua_lexer.rs:231-282, `bracket_enclosed`. -/
def bracketEnclosed (o : Source m) : m (LexResult Unit) := do
  let c ← o.current
  if !(c == '[' || c == '=') then o.fail .panic else
  if ← o.atA (.ch '[') then close o 0
  else if ← o.atA (.ch '=') then
    let count ← o.acceptCount (.while (.ch '='))
    close o count
  else just ()

/-- lua_lexer.rs:217-229, `comment` (the error of `bracket_enclosed` is dropped). -/
def comment (o : Source m) : m (LexResult SyntaxKind) := do
  bump o (.ch '-')
  if ← o.accept (.ch '[') then
    if ← o.atA (.ch '[') then
      let _ ← bracketEnclosed o
  let _ ← o.accept (.until (.ch '\n'))
  just .comment

/-- lua_lexer.rs:284-288, `multiline_string`. -/
def multilineString (o : Source m) : m (LexResult SyntaxKind) := do
  if !(← o.atA (.or (.ch '[') (.ch '='))) then o.fail .panic else
  let (_, err) ← bracketEnclosed o
  return (.str, err)

/-- lua_lexer.rs:300-311, the `loop` of `string`. -/
def stringLoop (o : Source m) (delimit : Char) : Nat → m (LexResult SyntaxKind)
  | 0 => o.fail .fuel
  | n + 1 => do
    let c ← o.current
    if c == EOF_CHAR then bail .str (closingMsg delimit)
    else if c == '\n' then bail .str "Unexpected newline in string"
    else if c == delimit then
      bump o (.ch delimit)
      just .str
    else
      bump o (.or (.seq (.ch '\\') (.ch delimit)) .any)
      stringLoop o delimit n

/-- lua_lexer.rs:296-314, `string`. -/
def string (o : Source m) (delimit : Char) : m (LexResult SyntaxKind) := do
  if !(delimit == '\'' || delimit == '"') then o.fail .panic else
  bump o (.ch delimit)
  let fuel := (← o.rest).length + 1
  stringLoop o delimit fuel

/-- lua_lexer.rs:316-325, `ident`.  `pos()` differences are differences of remaining lengths
(source.rs:56-63). -/
def ident (o : Source m) : m SyntaxKind := do
  let text ← o.rest
  bump o (.pred isIdentStart)
  let _ ← o.accept (.while (.pred isIdentContinue))
  let rest ← o.rest
  match Text.slice 0 (text.len - rest.len) text with
  | none => o.fail .panic
  | some word => return (SyntaxKind.fromKeyword word).getD .ident

/-- lua_lexer.rs:86-187, `lex_main`.  The arms match distinct characters, so their order only matters
for the last four. -/
def lexMain (o : Source m) : m (LexResult SyntaxKind) := do
  let c ← o.current
  if c == '=' then
    if (← bumpThen o .any) == '=' then
      bump o (.ch '=')
      just .eqEq
    else just .eq
  else if c == '~' then
    if (← bumpThen o .any) == '=' then
      bump o (.ch '=')
      just .notEq
    else just .unknown
  else if c == '[' then
    let c2 ← bumpThen o .any
    if c2 == '[' then multilineString o
    else if c2 == '=' then multilineString o
    else just .lBracket
  else if c == '.' then
    if (← bumpThen o .any) == '.' then
      if (← bumpThen o .any) == '.' then
        bump o (.ch '.')
        just .tripleDot
      else just .doubleDot
    else just .dot
  else if c == ':' then
    if (← bumpThen o .any) == ':' then
      bump o (.ch ':')
      just .doubleColon
    else just .colon
  else if c == '>' then
    if (← bumpThen o .any) == '=' then
      bump o (.ch '=')
      just .gtEq
    else just .gt
  else if c == '<' then
    if (← bumpThen o .any) == '=' then
      bump o (.ch '=')
      just .ltEq
    else just .lt
  else if c == '-' then
    if (← bumpThen o .any) == '-' then comment o
    else just .minus
  else if c == '\'' || c == '"' then string o c
  else match singleKind c with
    | some kind => do
      bump o .any
      just kind
    | none =>
      if isIdentStart c then do just (← ident o)
      else if isNumber c then number o
      else if isWhitespace c then do just (← whitespace o)
      else do
        bump o .any
        bail .unknown "Got an unknown token"


end Over
end Lexer

/-- lexer.rs:67-86, `tokenizer`, iterated over the whole text as in Model/Lexer.lean, with the number of characters
read (lexer.rs:17-24: every token has a fresh source). -/
def tokenizeLoopC : Nat → Nat → Text → Except Fail (List (Token × Option SyntaxError) × Nat)
  | 0, _, _ => .error .fuel
  | n + 1, pos, text =>
    if text = [] then .ok ([], 0)
    else match Lexer.Over.lexMain Lexer.counting (text, 0) with
      | .error e => .error e
      | .ok ((kind, err), (rest, reads)) =>
        let len := text.len - rest.len
        match Text.sliceFrom len text with
        | none => .error .panic
        | some text' =>
          match tokenizeLoopC n (pos + len) text' with
          | .error e => .error e
          | .ok (ts, more) =>
            .ok ((⟨kind, len⟩, err.map fun e => ⟨e, (Range.upTo len).shift pos⟩) :: ts, reads + more)

/-- lexer.rs:50-64, `tokenize`, with the number of characters read. -/
def tokenizeC (text : Text) : Except Fail ((List Token × List SyntaxError) × Nat) :=
  match tokenizeLoopC (text.length + 1) 0 text with
  | .error e => .error e
  | .ok (ts, reads) => .ok ((ts.map (·.1), ts.filterMap (·.2)), reads)

end Verif
