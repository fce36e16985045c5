import Verif.Model.Red
import Verif.Model.TextEdit

/-
Model of crates/syntax/src/parsing/reparsing.rs and lib.rs:119-140: parsing after an edit by reparsing one token
or one block of the old tree.  `.error .panic` is a panic, `.ok none` is `None`.
-/
namespace Verif

namespace Range
/-- text-size, `TextRange::ordering` -/
def ordering (a b : Range) : Ordering :=
  if a.stop ≤ b.start then .lt else if b.stop ≤ a.start then .gt else .eq

/-- text-size, `TextRange - TextSize` -/
def unshift (r : Range) (n : Nat) : Except Fail Range :=
  if n ≤ r.start ∧ n ≤ r.stop then .ok ⟨r.start - n, r.stop - n⟩ else .error .panic
end Range

namespace Red

/-- rowan 0.12 (src/green/node.rs), `child_at_range`: the index a binary search by `TextRange::ordering` returns, or one
less than the insertion point; the child there, if it contains the range.  (The children are in order, so the insertion
point is the number of children before the range.  If several children overlap the range the search may return any of
them, and none of them contains the range; here it returns the first.) -/
def childAtRange (r : Red) (range : Range) : Option Red :=
  let es := r.elems
  let idx := match es.findIdx? fun (c : Red) => (c.range.ordering range == Ordering.eq) with
    | some i => i
    | none => es.countP (fun (c : Red) => (c.range.ordering range == Ordering.lt)) - 1
  (es[idx]?).filter fun (c : Red) => c.range.containsRange range

/-- rowan 0.12 (src/cursor.rs), the loop of `covering_element`: the element found and the nodes above it, innermost
first.  Fuel bounds the depth. -/
def coverLoop (range : Range) : Nat → Red → List Red → Except Fail (Red × List Red)
  | 0, _, _ => .error .fuel
  | n + 1, res, above =>
    if !res.range.containsRange range then .error .panic
    else if !res.green.isNode then .ok (res, above)
    else match res.childAtRange range with
      | none => .ok (res, above)
      | some c => coverLoop range n c (res :: above)

/-- rowan, `SyntaxNode::covering_element` on the root of a tree. -/
def coveringElement (tree : Green) (range : Range) : Except Fail (Red × List Red) :=
  coverLoop range ((tree.nodes 0).length + 2) (root tree) []

end Red

namespace Green

/-- rowan, `replace_with` (cursor.rs; the path leads to the element that is replaced): the tree with one element
replaced. -/
def replaceAt (new : Green) : List Nat → Green → Green
  | [], _ => new
  | _ :: _, .token k t => .token k t
  | i :: is, .node k cs => .node k (cs.modify i (replaceAt new is))

/-- rowan, `SyntaxNode::replace_with` and `SyntaxToken::replace_with`: the kinds must be equal. -/
def replaceWith (tree : Green) (old : Red) (new : Green) : Except Fail Green :=
  if old.kind = new.kind then .ok (replaceAt new old.path tree) else .error .panic

end Green

namespace Reparse

/-- reparsing.rs:84-93, `get_text_after_edit`. -/
def textAfterEdit (element : Red) (edit : Indel) : Except Fail Text :=
  (edit.delete.unshift element.range.start).bind fun delete =>
    match Indel.apply { edit with delete := delete } element.green.text with
    | some text => .ok text
    | none => .error .panic

/-- reparsing.rs:35-59, the token kinds that are reparsed. -/
def tokenKinds : List SyntaxKind := [.whitespace, .comment, .ident, .str]

/-- reparsing.rs:37-43: the deleted part of a whitespace or comment token contains a line break. -/
def deletesNewline (token : Red) (edit : Indel) : Except Fail Bool :=
  if token.kind = .whitespace ∨ token.kind = .comment then
    (edit.delete.unshift token.range.start).bind fun delete =>
      match token.green.text.slice delete.start delete.stop with
      | some text => .ok (text.contains '\n')
      | none => .error .panic
  else .ok false

/-- reparsing.rs:28-60, `reparse_token`; lexer.rs:42-47, `first_syntax_kind`. -/
def reparseToken (tree : Green) (edit : Indel) : Except Fail (Option (Green × List SyntaxError × Range)) :=
  (Red.coveringElement tree edit.delete).bind fun (token, _) =>
  if token.green.isNode then .ok none
  else if token.kind ∉ tokenKinds then .ok none
  else (deletesNewline token edit).bind fun newline =>
  if newline then .ok none
  else (textAfterEdit token edit).bind fun newText =>
  (firstToken newText).bind fun
    | none => .ok none
    | some (newToken, err) =>
      if newToken.kind ≠ token.kind then .ok none
      else (tree.replaceWith token (.token token.kind newText)).map fun green =>
        some (green, err.toList, token.range)

/-- crates/parser/src/lib.rs:117-127, `Reparser::parse` for the only reparser, `block` (grammar.rs:144-149), up to the
callbacks. -/
def blockKinds (toks : List SyntaxKind) : Except Fail (List SinkCall) :=
  match (Grammar.block (2 * toks.length + 4)).run { toks := toks, events := [] } with
  | .error e => .error e
  | .ok (_, s) => processEvents s.events

/-- reparsing.rs:101-106, `is_balanced`. -/
def isBalanced (tokens : List Token) : Bool :=
  match tokens.getLast? with
  | none => false
  | some t => t.kind == .endKw

/-- reparsing.rs:95-99, `find_reparsable_node`. -/
def reparsableNode (tree : Green) (range : Range) : Except Fail (Option Red) :=
  (Red.coveringElement tree range).map fun (element, above) =>
    (if element.green.isNode then element :: above else above).find? fun r => r.kind == .block

/-- reparsing.rs:68-79: parsing the new text of a block. -/
def parseBlock (text : Text) (tokens : List Token) : Except Fail (Green × List SyntaxError) :=
  (blockKinds (sourceKinds tokens)).bind fun calls =>
  (Sink.runCalls text tokens calls {}).bind fun sink => sink.finish

/-- reparsing.rs:62-82, `reparse_block`. -/
def reparseBlock (tree : Green) (edit : Indel) : Except Fail (Option (Green × List SyntaxError × Range)) :=
  (reparsableNode tree edit.delete).bind fun
  | none => .ok none
  | some node =>
    (textAfterEdit node edit).bind fun text =>
    (tokenize text).bind fun (tokens, lexerErrors) =>
    if !isBalanced tokens then .ok none
    else (parseBlock text tokens).bind fun (green, parserErrors) =>
      (tree.replaceWith node green).map fun newTree => some (newTree, parserErrors ++ lexerErrors, node.range)

/-- reparsing.rs:108-136, `merge_errors`: the old errors that are kept. -/
def keepErrors (range : Range) (edit : Indel) : List SyntaxError → Except Fail (List SyntaxError)
  | [] => .ok []
  | e :: es =>
    if e.range.stop ≤ range.start then (keepErrors range edit es).map (e :: ·)
    else if range.stop ≤ e.range.start then
      match edit.offset with
      | none => .error .panic
      | some n => (keepErrors range edit es).map ({ e with range := e.range.shift n } :: ·)
    else keepErrors range edit es

/-- reparsing.rs:108-136, `merge_errors`. -/
def mergeErrors (old new : List SyntaxError) (range : Range) (edit : Indel) : Except Fail (List SyntaxError) :=
  (keepErrors range edit old).map (· ++ new.map fun e => { e with range := e.range.shift range.start })

/-- reparsing.rs:12-26, `incremental_reparse`. -/
def incremental (tree : Green) (edit : Indel) (errors : List SyntaxError) :
    Except Fail (Option (Green × List SyntaxError × Range)) :=
  let merge := fun (green, newErrors, range) =>
    (mergeErrors errors newErrors range edit).map fun merged => some (green, merged, range)
  (reparseToken tree edit).bind fun
  | some result => merge result
  | none => (reparseBlock tree edit).bind fun
    | some result => merge result
    | none => .ok none

/-- lib.rs:134-138, `full_reparse`. -/
def full (tree : Green) (edit : Indel) : Except Fail (Green × List SyntaxError) :=
  match edit.apply tree.text with
  | none => .error .panic
  | some text => sourceFileParse text

end Reparse

/-- lib.rs:120-133, `Parse::reparse` of a parsed file. -/
def reparse (tree : Green) (errors : List SyntaxError) (edit : Indel) : Except Fail (Green × List SyntaxError) :=
  (Reparse.incremental tree edit errors).bind fun
  | some (green, errors, _) => .ok (green, errors)
  | none => Reparse.full tree edit

end Verif
