import Verif.Model.TokenSet

/-
Model of crates/parser/src/parser.rs, event.rs and the `accept` layer the parser uses.

The grammar functions only touch the parser through the small API below.  They are modelled as
programs `Prog` over that API; `Prog.run` gives the meaning of each API call on the parser state
(remaining tokens, event list), exactly as in parser.rs.
-/
namespace Verif

/-- crates/parser/src/parse_error.rs, `enum ParseError`. -/
inductive ParseError where
  | message (s : String)
  | expected (expected got : SyntaxKind)
  deriving DecidableEq, Repr

/-- crates/parser/src/event.rs:7-19, `enum Event`. -/
inductive Event where
  | start (kind : SyntaxKind) (forwardParent : Option Nat)
  | finish
  | startError
  | finishError (e : ParseError)
  | token
  | error (e : ParseError)
  deriving DecidableEq, Repr

/-- event.rs:22-24, `Event::tombstone`. -/
def Event.tombstone : Event := .start .tombstone none

/-- Ways in which running the model can fail: a Rust panic, or the model's fuel running out (the
model of non-termination). -/
inductive Fail where
  | panic | fuel
  deriving DecidableEq, Repr

/-- Programs over the `Parser` API.  Markers are event positions (`Marker::pos`,
`CompletedMarker::start_pos`); a `CompletedMarker`'s `finish_pos` and `kind` are never used by the
grammar.  Dropping an unfinished `Marker` (its `DropBomb` panics) is an explicit `panic`. -/
inductive Prog (α : Type) : Type where
  | pure (a : α)
  /-- `p.nth(n)` -/
  | nth (n : Nat) (k : SyntaxKind → Prog α)
  /-- `Source::advance`; the continuation gets `is_some()` of the result -/
  | advance (k : Bool → Prog α)
  /-- `Parser::start` -/
  | start (k : Nat → Prog α)
  /-- `Marker<RegularMarker>::complete` -/
  | complete (m : Nat) (kind : SyntaxKind) (k : Prog α)
  /-- `CompletedMarker::precede` -/
  | precede (cm : Nat) (k : Nat → Prog α)
  /-- `Parser::start_error` -/
  | startError (k : Nat → Prog α)
  /-- `Marker<ErrorMarker>::complete` -/
  | completeError (m : Nat) (e : ParseError) (k : Prog α)
  /-- `push_event(Event::Error(e))` -/
  | error (e : ParseError) (k : Prog α)
  /-- a failed assertion, `unreachable!()` or dropped marker -/
  | panic
  /-- the model ran out of fuel -/
  | outOfFuel

namespace Prog

def bind {α β : Type} : Prog α → (α → Prog β) → Prog β
  | .pure a, f => f a
  | .nth n k, f => .nth n fun x => (k x).bind f
  | .advance k, f => .advance fun x => (k x).bind f
  | .start k, f => .start fun x => (k x).bind f
  | .complete m kd k, f => .complete m kd (k.bind f)
  | .precede c k, f => .precede c fun x => (k x).bind f
  | .startError k, f => .startError fun x => (k x).bind f
  | .completeError m e k, f => .completeError m e (k.bind f)
  | .error e k, f => .error e (k.bind f)
  | .panic, _ => .panic
  | .outOfFuel, _ => .outOfFuel

instance : Monad Prog where
  pure := Prog.pure
  bind := Prog.bind

end Prog

/-- parser.rs:10-13, `struct Parser`: the token source is abstracted to the kinds of the tokens not
yet consumed (crates/syntax/src/parsing/text_token_source.rs:8-17: the non-trivia tokens from
`curr.1` on), plus the event list. -/
structure PState where
  toks : List SyntaxKind
  events : List Event
  deriving Repr

/-- text_token_source.rs:59-61 and 78-83, `lookahead_nth`/`mk_token`: `Eof` past the end. -/
def lookahead (toks : List SyntaxKind) (n : Nat) : SyntaxKind := toks.getD n .eof

/-- Meaning of a parser program on the parser state. -/
def Prog.run {α : Type} : Prog α → PState → Except Fail (α × PState)
  | .pure a, s => .ok (a, s)
  -- parser.rs:23-26
  | .nth n k, s => (k (lookahead s.toks n)).run s
  -- parser.rs:18-21 and text_token_source.rs:63-71: the `Token` event is pushed in any case, the
  -- token source only moves if the current token is not `Eof`
  | .advance k, s =>
    if lookahead s.toks 0 = .eof then
      (k false).run { s with events := s.events ++ [.token] }
    else
      (k true).run { toks := s.toks.tail, events := s.events ++ [.token] }
  -- parser.rs:49-53
  | .start k, s =>
    (k s.events.length).run { s with events := s.events ++ [Event.tombstone] }
  -- parser.rs:169-185
  | .complete m kind k, s =>
    match s.events[m]? with
    | some (.start _ fp) =>
      k.run { s with events := s.events.set m (.start kind fp) ++ [.finish] }
    | _ => .error .panic
  -- parser.rs:244-254
  | .precede cm k, s =>
    let newPos := s.events.length
    let evs := s.events ++ [Event.tombstone]
    match evs[cm]? with
    | some (.start kind _) =>
      (k newPos).run { s with events := evs.set cm (.start kind (some (newPos - cm))) }
    | _ => .error .panic
  -- parser.rs:55-59
  | .startError k, s =>
    (k s.events.length).run { s with events := s.events ++ [.startError] }
  -- parser.rs:202-213
  | .completeError m e k, s =>
    match s.events[m]? with
    | some .startError => k.run { s with events := s.events ++ [.finishError e] }
    | _ => .error .panic
  -- parser.rs:65-67, 113, 134
  | .error e k, s => k.run { s with events := s.events ++ [.error e] }
  | .panic, _ => .error .panic
  | .outOfFuel, _ => .error .fuel

/-! ### The parser API used by the grammar -/

namespace P

/-- source.rs (lib/accept/src/source.rs:25-27), `current`. -/
def current : Prog SyntaxKind := .nth 0 .pure

/-- parser.rs:23-26, `nth`. -/
def nth (n : Nat) : Prog SyntaxKind := .nth n .pure

/-- `p.at(kind)`: lib/accept/src/accept.rs:10-15, syntax_kind.rs:21-28. -/
def atK (kind : SyntaxKind) : Prog Bool := do
  let c ← current
  return c == kind

/-- `p.at(token_set)`: token_set.rs:47-54. -/
def atTs (ts : TokenSet) : Prog Bool := do
  let c ← current
  return ts.contains c

/-- lib/accept/src/source.rs:18-20, `bump_expect`. -/
def bumpExpect : Prog Unit := .advance fun some? => if some? then .pure () else .panic

/-- `p.accept(kind)`: lib/accept/src/accept.rs:70-80. -/
def accept (kind : SyntaxKind) : Prog Bool := do
  if ← P.atK kind then
    bumpExpect
    return true
  else
    return false

/-- `p.accept(Any)`: accept.rs:70-80 with accept.rs:136-143 (`!nth_is_eof`, parser.rs:28-30). -/
def acceptAny : Prog Bool := do
  if (← current) != .eof then
    bumpExpect
    return true
  else
    return false

/-- `p.bump(kind)`: accept.rs:89-94, `assert!(self.accept(l))`. -/
def bump (kind : SyntaxKind) : Prog Unit := do
  if ← accept kind then return () else .panic

/-- `p.bump(Any)`. -/
def bumpAny : Prog Unit := do
  if ← acceptAny then return () else .panic

def start : Prog Nat := .start .pure
/-- Returns the completed marker, i.e. its start position. -/
def complete (m : Nat) (kind : SyntaxKind) : Prog Nat := .complete m kind (.pure m)
def precede (cm : Nat) : Prog Nat := .precede cm .pure
def startError : Prog Nat := .startError .pure
def completeError (m : Nat) (e : ParseError) : Prog Unit := .completeError m e (.pure ())
def pushError (e : ParseError) : Prog Unit := .error e (.pure ())

/-- parser.rs:65-67, `error`. -/
def error (msg : String) : Prog Unit := pushError (.message msg)

/-- parser.rs:74-91, `err_recover`. -/
def errRecover (msg : String) (recovery : TokenSet) : Prog Unit := do
  if (← current) == .endKw then
    error msg
  else if ← atTs recovery then
    error msg
  else
    let m ← startError
    let _ ← acceptAny
    completeError m (.message msg)

/-- parser.rs:93-95, `err_and_bump`. -/
def errAndBump (msg : String) : Prog Unit := errRecover msg TokenSet.empty

/-- parser.rs:102-104, the loop of `err_until`. -/
def errUntilLoop (recovery : TokenSet) : Nat → Prog Unit
  | 0 => .outOfFuel
  | n + 1 => do
    if !(← atTs recovery) && !(← P.atK .eof) then
      bumpAny
      errUntilLoop recovery n
    else
      return ()

/-- parser.rs:97-107, `err_until`. -/
def errUntil (fuel : Nat) (msg : String) (recovery : TokenSet) : Prog Unit := do
  let recovery := recovery.union (TokenSet.new [.endKw])
  let m ← startError
  errUntilLoop recovery fuel
  completeError m (.message msg)

/-- parser.rs:119-124, `bump_ts`. -/
def bumpTs (kinds : TokenSet) : Prog Unit := do
  if !(← atTs kinds) then .panic else bumpAny

/-- parser.rs:128-136, `expect`. -/
def expect (kind : SyntaxKind) : Prog Bool := do
  let c ← current
  if c == kind then
    bumpAny
    return true
  else
    pushError (.expected kind c)
    return false

end P

/-! ### Turning events into tree-sink calls -/

/-- crates/parser/src/lib.rs:63-83, the calls made on a `TreeSink` (without the final `finish`). -/
inductive SinkCall where
  | token
  | startNode (k : SyntaxKind)
  | finishNode
  | startErrorNode
  | finishErrorNode (e : ParseError)
  | error (e : ParseError)
  deriving DecidableEq, Repr

/-- event.rs:42-55, the `while let Some(fwd) = fp` walk of `process`.  `evs` are the events after the
one being processed; `off` is the index (into `evs`) just before which the current chain element
sits, i.e. `idx = i + off`, so `events[idx + fwd]` is `evs[off + fwd - 1]`.  Returns the kinds pushed
and the events with the visited ones replaced by tombstones.  `fuel` bounds the number of steps. -/
def walkParents : Nat → Nat → Option Nat → List Event → List SyntaxKind →
    Except Fail (List SyntaxKind × List Event)
  | _, _, none, evs, acc => .ok (acc, evs)
  | 0, _, some _, _, _ => .error .fuel
  | n + 1, off, some fwd, evs, acc =>
    -- `fwd = 0` with `off = 0` would address the event being processed, already replaced by a
    -- tombstone: nothing is pushed and the walk ends
    if off + fwd = 0 then .ok (acc, evs)
    else match evs[off + fwd - 1]? with
      | some (.start kind fp) =>
        walkParents n (off + fwd) fp (evs.set (off + fwd - 1) Event.tombstone)
          (if kind ≠ .tombstone then acc ++ [kind] else acc)
      | _ => .error .panic

theorem walkParents_length {n off fp evs acc r} (h : walkParents n off fp evs acc = .ok r) :
    r.2.length = evs.length := by
  induction n generalizing off fp evs acc with
  | zero =>
    cases fp with
    | none => simp [walkParents] at h; subst h; rfl
    | some f => simp [walkParents] at h
  | succ n ih =>
    cases fp with
    | none => simp [walkParents] at h; subst h; rfl
    | some f =>
      unfold walkParents at h
      split at h
      · simp at h; subst h; rfl
      · split at h
        · have := ih h; simpa using this
        · simp at h

/-- event.rs:27-70, `process`: the `for` loop over the events, on the suffix still to be processed
(earlier events are never read again). -/
def processEvents (evs : List Event) : Except Fail (List SinkCall) :=
  match evs with
  | [] => .ok []
  | .start kind fp :: rest =>
    if kind = .tombstone then processEvents rest
    else
      match h : walkParents (rest.length + 1) 0 fp rest [kind] with
      | .error e => .error e
      | .ok (kinds, rest') =>
        have : rest'.length = rest.length := walkParents_length h
        match processEvents rest' with
        | .error e => .error e
        | .ok cs => .ok ((kinds.reverse.map .startNode) ++ cs)
  | .error e :: rest => (processEvents rest).map (.error e :: ·)
  | .finish :: rest => (processEvents rest).map (.finishNode :: ·)
  | .token :: rest => (processEvents rest).map (.token :: ·)
  | .startError :: rest => (processEvents rest).map (.startErrorNode :: ·)
  | .finishError e :: rest => (processEvents rest).map (.finishErrorNode e :: ·)
termination_by evs.length
decreasing_by all_goals simp_all

end Verif
