import Verif.Model.Sink

/-
Model of crates/syntax/src/validation.rs and of lib.rs:106-117 (`SourceFile::parse`).
-/
namespace Verif

namespace Green

/-- the text length of an element -/
def len (g : Green) : Nat := Text.len (text g)

/-- `children_with_tokens()` of a node starting at `off`: the elements with their start offsets. -/
def withOffsets : Nat → List Green → List (Nat × Green)
  | _, [] => []
  | off, g :: gs => (off, g) :: withOffsets (off + len g) gs

mutual
/-- rowan, `SyntaxNode::descendants`: the nodes of a tree (not the tokens) in pre-order, with their start
offsets. -/
def nodes : Nat → Green → List (Nat × Green)
  | _, .token _ _ => []
  | off, .node k cs => (off, .node k cs) :: nodesL off cs
def nodesL : Nat → List Green → List (Nat × Green)
  | _, [] => []
  | off, g :: gs => nodes off g ++ nodesL (off + len g) gs
end

/-- the children of an element -/
def children : Green → List Green
  | .token _ _ => []
  | .node _ cs => cs

def isNode : Green → Bool
  | .token _ _ => false
  | .node _ _ => true

/-- `SyntaxNode::text_range` of an element starting at `off` -/
def range (off : Nat) (g : Green) : Range := Range.ofLen off g.len

/-- `node.children()`: the child nodes with their offsets. -/
def childNodes (off : Nat) (g : Green) : List (Nat × Green) :=
  (withOffsets off g.children).filter (·.2.isNode)

end Green

namespace Validation

/-- ast/generated/nodes.rs:1663-1678, the kinds that cast to `ast::Expr` (`ParenExpr` is not among
them). -/
def isExprKind (k : SyntaxKind) : Bool :=
  [SyntaxKind.literal, .tableExpr, .infixExpr, .prefixExpr, .indexExpr, .dotExpr, .functionExpr, .callExpr,
    .methodCallExpr, .nameRef].contains k

/-- lib.rs:98-102, `Expr::is_call`. -/
def isCall (k : SyntaxKind) : Bool := k == .callExpr || k == .methodCallExpr

/-- ast/generated/nodes.rs:355-357, `MultivalExpr::exprs`. -/
def exprs (off : Nat) (g : Green) : List (Nat × Green) :=
  (g.childNodes off).filter fun c => isExprKind c.2.kind

/-- ast.rs:81-87: the children of kind `MultivalExpr`. -/
def multivals (off : Nat) (g : Green) : List (Nat × Green) :=
  (g.childNodes off).filter fun c => c.2.kind == .multivalExpr

/-- validation.rs:50-86, `ExprStmt::validate`. -/
def exprStmt (off : Nat) (g : Green) : List SyntaxError :=
  match multivals off g with
  | [] => [⟨"Must have an expression", g.range off⟩]
  | (moff, m) :: _ =>
    let es := exprs moff m
    let bad := es.filter fun e => !isCall e.2.kind
    let count := (es.filter fun e => isCall e.2.kind).length
    (bad.map fun e => ⟨"Expression statements can only be call expressions", e.2.range e.1⟩) ++
    (if count = 0 then [⟨"Expected a call expression", g.range off⟩] else []) ++
    (if count > 1 then
      [⟨"Expected only one call expression, got " ++ toString count, g.range off⟩] else [])

/-- validation.rs:88-117, `AssignStmt::validate`. -/
def assignStmt (off : Nat) (g : Green) : List SyntaxError :=
  match multivals off g with
  | [] => [⟨"Must have at least one expression for the left hand side", g.range off⟩]
  | [_] => [⟨"Must have a least one expression for the right hand side", g.range off⟩]
  | (loff, l) :: _ :: _ =>
    ((exprs loff l).filter fun e =>
      !(e.2.kind == .dotExpr || e.2.kind == .indexExpr || e.2.kind == .nameRef)).map fun e =>
      ⟨"Can only assign name reference or index expression", e.2.range e.1⟩

/-- validation.rs:140-171, `unquote`.  `bytes()` are read as characters: the bytes compared are ASCII, and
an ASCII byte of UTF-8 text is always a whole character.  The outer `Except` is a panic. -/
def unquote (text : Text) : Except Fail (Option (Nat × Text)) :=
  match text with
  | [] => .error .panic
  | delimit :: _ =>
    if delimit = '\'' ∨ delimit = '"' then
      if text.getLast? ≠ some delimit ∨ text.len = 1 then .ok none
      else match text.slice 1 (text.len - 1) with
        | none => .error .panic
        | some t => .ok (some (1, t))
    else if delimit = '[' then
      -- 150-153
      match text.sliceFrom 1 with
      | none => .error .panic
      | some t1 =>
        let equals := (t1.takeWhile (· == '=')).length
        match t1.sliceFrom equals with
        | none => .error .panic
        | some t2 =>
          match (if t2.head? = some '[' then t2.sliceFrom 1 else some t2) with
          | none => .error .panic
          | some t3 =>
            -- 156-164
            let back : Option Text :=
              if t3.getLast? = some ']' then
                (t3.sliceTo (t3.len - 1)).bind fun t4 =>
                let backEquals := (t4.reverse.takeWhile (· == '=')).length
                (t4.sliceTo (t4.len - backEquals)).bind fun t5 =>
                if t5.getLast? = some ']' then t5.sliceTo (t5.len - 1) else some t5
              else some t3
            match back with
            | none => .error .panic
            | some t6 => .ok (some (2 + equals, t6))
    else .error .panic

/-- validation.rs:202, the characters that may follow a backslash. -/
def escapes : List Char := ['a', 'b', 'f', 'n', 'r', 't', 'v', '\\', '"', '\'', '[', ']']

/-- validation.rs:173 -/
def escapeMsg : String := "Invalid escape sequence"

/-- validation.rs:175-210, `unescape` and `unescape_once`; `size` is the length of the whole string. -/
def unescape (size start : Nat) : Text → List SyntaxError
  | [] => []
  | c :: cs =>
    let pos := size - Text.len cs - c.utf8Size
    if c = '\\' then
      match cs with
      | [] => [⟨escapeMsg, (Range.ofLen pos 1).shift start⟩]
      | d :: ds =>
        (if escapes.contains d then []
          else [⟨escapeMsg, (Range.ofLen pos (1 + d.utf8Size)).shift start⟩]) ++ unescape size start ds
    else unescape size start cs

/-- validation.rs:119-135, `Literal::validate`, on the token of the literal. -/
def literalToken (off : Nat) (k : SyntaxKind) (text : Text) : Except Fail (List SyntaxError) :=
  if k = .str then
    match unquote text with
    | .error e => .error e
    | .ok none => .ok []
    | .ok (some (offset, unquoted)) => .ok (unescape (Text.len unquoted) (off + offset) unquoted)
  else if k = .number ∨ k = .trueKw ∨ k = .falseKw ∨ k = .nilKw ∨ k = .tripleDot then .ok []
  else .error .panic

/-- ast/expr_ext.rs:53-79, `Literal::token` and `Literal::kind`, then validation.rs:119-135. -/
def literal (off : Nat) (g : Green) : Except Fail (List SyntaxError) :=
  match (Green.withOffsets off g.children).find? fun c => !c.2.kind.isTrivia with
  | some (toff, .token k text) => literalToken toff k text
  | _ => .error .panic

/-- validation.rs:27-39, the body of the loop of `validate`. -/
def validateNode (off : Nat) (g : Green) : Except Fail (List SyntaxError) :=
  if g.kind = .exprStmt then .ok (exprStmt off g)
  else if g.kind = .literal then literal off g
  else if g.kind = .assignStmt then .ok (assignStmt off g)
  else .ok []

/-- validation.rs:23-42, `validate`. -/
def validate (root : Green) : Except Fail (List SyntaxError) :=
  (root.nodes 0).foldlM (init := []) fun acc (off, g) => (validateNode off g).map (acc ++ ·)

end Validation

/-- lib.rs:106-117, `SourceFile::parse`. -/
def sourceFileParse (text : Text) : Except Fail (Green × List SyntaxError) :=
  match parseText text with
  | .error e => .error e
  | .ok (green, errors) =>
    match Validation.validate green with
    | .error e => .error e
    | .ok more => if green.kind = .sourceFile then .ok (green, errors ++ more) else .error .panic

end Verif
