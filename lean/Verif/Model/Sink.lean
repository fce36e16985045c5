import Verif.Model.Lexer
import Verif.Model.Grammar

/-
Model of crates/syntax/src/parsing/text_tree_sink.rs, text_token_source.rs, syntax_node.rs:59-93 and
parsing.rs: building the green tree from the parser's callbacks.
-/
namespace Verif

/-- rowan's green tree: a token is a kind and a text, a node is a kind and its children. -/
inductive Green where
  | token (kind : SyntaxKind) (text : Text)
  | node (kind : SyntaxKind) (children : List Green)
  deriving Repr, Inhabited

namespace Green
mutual
/-- `SyntaxNode::text`: the concatenated texts of the tokens below a node. -/
def text : Green → Text
  | .token _ t => t
  | .node _ cs => textL cs
def textL : List Green → Text
  | [] => []
  | g :: gs => text g ++ textL gs
end

/-- `SyntaxNode::kind` / `SyntaxToken::kind` -/
def kind : Green → SyntaxKind
  | .token k _ => k
  | .node k _ => k
end Green

/-- rowan 0.12 (src/green/builder.rs), `GreenNodeBuilder`: the open nodes (innermost first) with the
index of their first child, and the flat vector of finished children. -/
structure Builder where
  parents : List (SyntaxKind × Nat) := []
  children : List Green := []

namespace Builder
/-- rowan, `GreenNodeBuilder::token` -/
def token (b : Builder) (k : SyntaxKind) (t : Text) : Builder :=
  { b with children := b.children ++ [.token k t] }
/-- rowan, `GreenNodeBuilder::start_node` -/
def startNode (b : Builder) (k : SyntaxKind) : Builder :=
  { b with parents := (k, b.children.length) :: b.parents }
/-- rowan, `GreenNodeBuilder::finish_node`: `parents.pop().unwrap()`, then the children from
`first_child` on become one node. -/
def finishNode (b : Builder) : Except Fail Builder :=
  match b.parents with
  | [] => .error .panic
  | (k, i) :: ps =>
    .ok { parents := ps, children := b.children.take i ++ [.node k (b.children.drop i)] }
/-- rowan, `GreenNodeBuilder::finish`: `assert_eq!(children.len(), 1)`, and the child must be a node. -/
def finish (b : Builder) : Except Fail Green :=
  match b.children with
  | [.node k cs] => .ok (.node k cs)
  | _ => .error .panic
end Builder

/-- parse_error.rs:7-14, `Display` of `ParseError`. -/
def ParseError.display : ParseError → String
  | .message s => s
  | .expected e g => "Expected " ++ e.debug ++ ", got " ++ g.debug

/-- text_tree_sink.rs:7-14, `struct TextTreeSink` without its constant fields `text` and `tokens`;
`errors` is the field of `inner` (syntax_node.rs:60-63). -/
structure Sink where
  textPos : Nat := 0
  tokenPos : Nat := 0
  inner : Builder := {}
  errors : List SyntaxError := []
  errorRanges : List Range := []

namespace Sink

/-- text_tree_sink.rs:78-92, `do_token` and `update_error_ranges`. -/
def doToken (text : Text) (tokens : List Token) (s : Sink) : Except Fail Sink :=
  match tokens[s.tokenPos]? with
  | none => .error .panic
  | some token =>
    let range := Range.ofLen s.textPos token.len
    match text.slice range.start range.stop with
    | none => .error .panic
    | some t => .ok { s with
        tokenPos := s.tokenPos + 1
        textPos := s.textPos + token.len
        inner := s.inner.token token.kind t
        errorRanges := s.errorRanges.map (·.cover range) }

/-- text_tree_sink.rs:69-76, the loop of `eat_trivias`; fuel bounds the number of tokens eaten. -/
def eatTriviasLoop (text : Text) (tokens : List Token) : Nat → Sink → Except Fail Sink
  | 0, _ => .error .fuel
  | n + 1, s =>
    match tokens[s.tokenPos]? with
    | none => .ok s
    | some token =>
      if !token.kind.isTrivia then .ok s
      else (doToken text tokens s).bind (eatTriviasLoop text tokens n)

/-- text_tree_sink.rs:69-76, `eat_trivias`. -/
def eatTrivias (text : Text) (tokens : List Token) (s : Sink) : Except Fail Sink :=
  eatTriviasLoop text tokens (tokens.length + 1) s

/-- text_tree_sink.rs:19-22 -/
def token (text : Text) (tokens : List Token) (s : Sink) : Except Fail Sink :=
  (eatTrivias text tokens s).bind (doToken text tokens)

/-- text_tree_sink.rs:24-28 -/
def startNode (text : Text) (tokens : List Token) (k : SyntaxKind) (s : Sink) : Except Fail Sink :=
  (eatTrivias text tokens s).bind fun s =>
    eatTrivias text tokens { s with inner := s.inner.startNode k }

/-- text_tree_sink.rs:30-32 -/
def finishNode (s : Sink) : Except Fail Sink :=
  s.inner.finishNode.map fun b => { s with inner := b }

/-- text_tree_sink.rs:34-37.  `error_ranges` is kept with its last element first. -/
def startErrorNode (text : Text) (tokens : List Token) (s : Sink) : Except Fail Sink :=
  (startNode text tokens .error s).map fun s =>
    { s with errorRanges := Range.empty s.textPos :: s.errorRanges }

/-- text_tree_sink.rs:39-42 -/
def finishErrorNode (e : ParseError) (s : Sink) : Except Fail Sink :=
  (finishNode s).bind fun s =>
    match s.errorRanges with
    | [] => .error .panic
    | r :: rs => .ok { s with errorRanges := rs, errors := s.errors ++ [⟨e.display, r⟩] }

/-- text_tree_sink.rs:44-46 -/
def error (e : ParseError) (s : Sink) : Except Fail Sink :=
  .ok { s with errors := s.errors ++ [⟨e.display, Range.empty s.textPos⟩] }

/-- text_tree_sink.rs:48-50 and syntax_node.rs:66-69 -/
def finish (s : Sink) : Except Fail (Green × List SyntaxError) :=
  s.inner.finish.map fun g => (g, s.errors)

/-- One callback on a `TextTreeSink`. -/
def step (text : Text) (tokens : List Token) : SinkCall → Sink → Except Fail Sink
  | .token => token text tokens
  | .startNode k => startNode text tokens k
  | .finishNode => finishNode
  | .startErrorNode => startErrorNode text tokens
  | .finishErrorNode e => finishErrorNode e
  | .error e => error e

/-- A sequence of callbacks on a `TextTreeSink`. -/
def runCalls (text : Text) (tokens : List Token) : List SinkCall → Sink → Except Fail Sink
  | [], s => .ok s
  | c :: cs, s => (step text tokens c s).bind (runCalls text tokens cs)

end Sink

/-- text_tree_sink.rs:116-121, `struct DeferedTextTreeSink` without its constant field `defer`. -/
structure DSink where
  sink : Sink := {}
  started : Nat := 0
  finished : Nat := 0

namespace DSink

/-- text_tree_sink.rs:189-191, the loop of `consume_finish_defers`. -/
def finishN : Nat → Sink → Except Fail Sink
  | 0, s => .ok s
  | n + 1, s => s.finishNode.bind (finishN n)

/-- text_tree_sink.rs:188-193, `consume_finish_defers`. -/
def consume (d : DSink) : Except Fail DSink :=
  (finishN d.finished d.sink).map fun s => { d with sink := s, finished := 0 }

/-- Run an operation of the inner sink. -/
def lift (f : Sink → Except Fail Sink) (d : DSink) : Except Fail DSink :=
  (f d.sink).map fun s => { d with sink := s }

/-- text_tree_sink.rs:126-173: one callback on a `DeferedTextTreeSink`. -/
def step (text : Text) (tokens : List Token) (defer : Nat) (c : SinkCall) (d : DSink) :
    Except Fail DSink :=
  match c with
  -- 126-132
  | .token =>
    if d.started ≠ defer then .error .panic
    else (consume d).bind (lift (Sink.token text tokens))
  -- 134-144
  | .startNode k =>
    (consume d).bind fun d =>
      if d.started < defer then
        .ok { d with
          sink := { d.sink with inner := d.sink.inner.startNode k }
          started := d.started + 1 }
      else lift (Sink.startNode text tokens k) d
  -- 146-153
  | .finishNode =>
    if d.finished < defer then .ok { d with finished := d.finished + 1 }
    else lift Sink.finishNode d
  -- 155-159
  | .error e =>
    if d.started ≠ defer then .error .panic else lift (Sink.error e) d
  -- 161-167
  | .startErrorNode =>
    if d.started ≠ defer then .error .panic
    else (consume d).bind (lift (Sink.startErrorNode text tokens))
  -- 169-173
  | .finishErrorNode e => lift (Sink.finishErrorNode e) d

/-- A sequence of callbacks on a `DeferedTextTreeSink`. -/
def runCalls (text : Text) (tokens : List Token) (defer : Nat) :
    List SinkCall → DSink → Except Fail DSink
  | [], d => .ok d
  | c :: cs, d => (step text tokens defer c d).bind (runCalls text tokens defer cs)

/-- text_tree_sink.rs:175-179, `finish`. -/
def finish (text : Text) (tokens : List Token) (d : DSink) : Except Fail (Green × List SyntaxError) :=
  (lift (Sink.eatTrivias text tokens) d).bind fun d => (consume d).bind fun d => d.sink.finish

end DSink

/-- text_token_source.rs:20-36: the parser sees the kinds of the non-trivia tokens. -/
def sourceKinds (tokens : List Token) : List SyntaxKind :=
  (tokens.filter fun t => !t.kind.isTrivia).map (·.kind)

/-- parsing.rs:15, `DEFER_AMOUNT`. -/
def deferAmount : Nat := 2

/-- parsing.rs:17-28, `parse_text`, with lib.rs:85-106 and event.rs:27-70 of crates/parser.  (The
callbacks are computed first and then run on the sink; `process` makes them one by one, but a panic in
either makes both fail.) -/
def parseText (text : Text) : Except Fail (Green × List SyntaxError) :=
  (tokenize text).bind fun (tokens, errors) =>
  (parseKinds (sourceKinds tokens)).bind fun calls =>
  (DSink.runCalls text tokens deferAmount calls {}).bind fun d =>
  (DSink.finish text tokens d).map fun (tree, parserErrors) => (tree, parserErrors ++ errors)

end Verif
