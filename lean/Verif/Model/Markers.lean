import Verif.Model.Parser

/-
Model of the whole marker API of crates/parser/src/parser.rs, including the calls the Lua grammar
never makes (`Marker::abandon`, `CompletedMarker::undo_completion`, `change_kind`, `kind`).

`Api` are arbitrary grammar programs over that API: any Rust code that drives a `Parser`.  The programs
of `Model/Parser.lean` (`Prog`) are those that use only part of it (`Prog.api`).
-/
namespace Verif

/-- parser.rs:215-220, `struct CompletedMarker<RegularMarker>`. -/
structure Completed where
  startPos : Nat
  finishPos : Nat
  kind : SyntaxKind
  deriving DecidableEq, Repr

/-- The calls a grammar can make on a `Parser` and its markers.  A `Marker` is its `pos`
(parser.rs:147-151). -/
inductive Op : Type → Type where
  /-- `Parser::nth` -/
  | nth (n : Nat) : Op SyntaxKind
  /-- `Source::advance` -/
  | advance : Op Bool
  /-- `Parser::start` -/
  | start : Op Nat
  /-- `Marker<RegularMarker>::complete` -/
  | complete (m : Nat) (kind : SyntaxKind) : Op Completed
  /-- `Marker<RegularMarker>::abandon` -/
  | abandon (m : Nat) : Op Unit
  /-- `CompletedMarker::precede` -/
  | precede (c : Completed) : Op Nat
  /-- `CompletedMarker::undo_completion` -/
  | undoCompletion (c : Completed) : Op Nat
  /-- `CompletedMarker::change_kind` -/
  | changeKind (c : Completed) (kind : SyntaxKind) : Op Completed
  /-- `Parser::start_error` -/
  | startError : Op Nat
  /-- `Marker<ErrorMarker>::complete` -/
  | completeError (m : Nat) (e : ParseError) : Op Unit
  /-- `push_event(Event::Error(e))` -/
  | error (e : ParseError) : Op Unit

/-- Meaning of one call on the parser state. -/
def Op.run : {β : Type} → Op β → PState → Except Fail (β × PState)
  -- parser.rs:23-26
  | _, .nth n, s => .ok (lookahead s.toks n, s)
  -- parser.rs:18-21, text_token_source.rs:63-71
  | _, .advance, s =>
    if lookahead s.toks 0 = .eof then .ok (false, { s with events := s.events ++ [.token] })
    else .ok (true, { toks := s.toks.tail, events := s.events ++ [.token] })
  -- parser.rs:49-53
  | _, .start, s => .ok (s.events.length, { s with events := s.events ++ [Event.tombstone] })
  -- parser.rs:169-185
  | _, .complete m kind, s =>
    match s.events[m]? with
    | some (.start _ fp) =>
      .ok (⟨m, s.events.length, kind⟩,
        { s with events := s.events.set m (.start kind fp) ++ [.finish] })
    | _ => .error .panic
  -- parser.rs:189-198 (`p.events.len() - 1` underflows on an empty list)
  | _, .abandon m, s =>
    if s.events.length = 0 then .error .panic
    else if m = s.events.length - 1 then
      match s.events.getLast? with
      | some (.start .tombstone none) => .ok ((), { s with events := s.events.dropLast })
      | _ => .error .panic
    else .ok ((), s)
  -- parser.rs:244-254
  | _, .precede c, s =>
    let newPos := s.events.length
    let evs := s.events ++ [Event.tombstone]
    match evs[c.startPos]? with
    | some (.start kind _) =>
      .ok (newPos, { s with events := evs.set c.startPos (.start kind (some (newPos - c.startPos))) })
    | _ => .error .panic
  -- parser.rs:257-269
  | _, .undoCompletion c, s =>
    match s.events[c.startPos]? with
    | some (.start _ none) =>
      let evs := s.events.set c.startPos (.start .tombstone none)
      match evs[c.finishPos]? with
      | some .finish => .ok (c.startPos, { s with events := evs.set c.finishPos Event.tombstone })
      | _ => .error .panic
    | _ => .error .panic
  -- parser.rs:271-278: the marker is returned as it was, with its old `kind`
  | _, .changeKind c kind, s =>
    match s.events[c.startPos]? with
    | some (.start _ none) =>
      .ok (c, { s with events := s.events.set c.startPos (.start kind none) })
    | _ => .error .panic
  -- parser.rs:55-59
  | _, .startError, s => .ok (s.events.length, { s with events := s.events ++ [.startError] })
  -- parser.rs:202-213
  | _, .completeError m e, s =>
    match s.events[m]? with
    | some .startError => .ok ((), { s with events := s.events ++ [.finishError e] })
    | _ => .error .panic
  -- parser.rs:65-67, 113, 134
  | _, .error e, s => .ok ((), { s with events := s.events ++ [.error e] })

/-- Any code driving a parser: a call and what is done with its result, or a stop with a panic. -/
inductive Api (α : Type) : Type 1 where
  | pure (a : α)
  | call {β : Type} (op : Op β) (k : β → Api α)
  | stop (f : Fail)

/-- Running such code. -/
def Api.run {α : Type} : Api α → PState → Except Fail (α × PState)
  | .pure a, s => .ok (a, s)
  | .call op k, s =>
    match op.run s with
    | .ok (b, s') => (k b).run s'
    | .error e => .error e
  | .stop f, _ => .error f

/-- parser.rs:280-282, `CompletedMarker::kind`. -/
def Completed.kindOf (c : Completed) : SyntaxKind := c.kind

/-- parser.rs:110-117, `expect_at`. -/
def Api.expectAt (kind : SyntaxKind) : Api Bool :=
  .call (.nth 0) fun current =>
    if current ≠ kind then .call (.error (.expected kind current)) fun _ => .pure false
    else .pure true

/-- The programs of `Model/Parser.lean` as programs over the whole API (a `CompletedMarker` is there
identified with its `start_pos`). -/
def Prog.api {α : Type} : Prog α → Api α
  | .pure a => .pure a
  | .nth n k => .call (.nth n) fun x => (k x).api
  | .advance k => .call .advance fun x => (k x).api
  | .start k => .call .start fun x => (k x).api
  | .complete m kd k => .call (.complete m kd) fun _ => k.api
  | .precede c k => .call (.precede ⟨c, 0, .tombstone⟩) fun x => (k x).api
  | .startError k => .call .startError fun x => (k x).api
  | .completeError m e k => .call (.completeError m e) fun _ => k.api
  | .error e k => .call (.error e) fun _ => k.api
  | .panic => .stop .panic
  | .outOfFuel => .stop .fuel

end Verif
