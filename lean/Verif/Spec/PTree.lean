import Verif.Model.Parser

/-
The trees a sequence of tree-sink callbacks can describe (without trivia and token texts).  This is
specification vocabulary: `PTree.calls` says which callback sequence describes a tree.
-/
namespace Verif

/-- A parse tree over non-trivia tokens: leaves are token kinds, `err` is an error message attached at
that place, `errNode` is an error node wrapping skipped input. -/
inductive PTree where
  | tok (k : SyntaxKind)
  | err (e : ParseError)
  | errNode (children : List PTree) (e : ParseError)
  | node (k : SyntaxKind) (children : List PTree)

namespace PTree

mutual
/-- The callbacks describing a tree: pre-order, every node opened and closed exactly once. -/
def calls : PTree → List SinkCall
  | .tok _ => [.token]
  | .err e => [.error e]
  | .errNode cs e => .startErrorNode :: (callsL cs ++ [.finishErrorNode e])
  | .node k cs => .startNode k :: (callsL cs ++ [.finishNode])
def callsL : List PTree → List SinkCall
  | [] => []
  | t :: ts => calls t ++ callsL ts
end

mutual
/-- The token kinds at the leaves, left to right. -/
def yield : PTree → List SyntaxKind
  | .tok k => [k]
  | .err _ => []
  | .errNode cs _ => yieldL cs
  | .node _ cs => yieldL cs
def yieldL : List PTree → List SyntaxKind
  | [] => []
  | t :: ts => yield t ++ yieldL ts
end

mutual
/-- The errors in a tree, left to right (an error node's message comes after those inside it). -/
def errors : PTree → List ParseError
  | .tok _ => []
  | .err e => [e]
  | .errNode cs e => errorsL cs ++ [e]
  | .node _ cs => errorsL cs
def errorsL : List PTree → List ParseError
  | [] => []
  | t :: ts => errors t ++ errorsL ts
end

@[simp] theorem callsL_append (a b : List PTree) : callsL (a ++ b) = callsL a ++ callsL b := by
  induction a with
  | nil => simp [callsL]
  | cons x xs ih => simp [callsL, ih]

@[simp] theorem yieldL_append (a b : List PTree) : yieldL (a ++ b) = yieldL a ++ yieldL b := by
  induction a with
  | nil => simp [yieldL]
  | cons x xs ih => simp [yieldL, ih]

@[simp] theorem errorsL_append (a b : List PTree) : errorsL (a ++ b) = errorsL a ++ errorsL b := by
  induction a with
  | nil => simp [errorsL]
  | cons x xs ih => simp [errorsL, ih]

end PTree
end Verif
