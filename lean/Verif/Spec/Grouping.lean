import Verif.Spec.Productions
import Verif.Spec.LuaGrammar
import Verif.Spec.TreeShape

/-
A syntax tree without white space, comments and texts, and how operators group.
-/
namespace Verif.Spec
open Lua

mutual
/-- The tree without white space and comments, and without the texts of the tokens. -/
def strip : Green → PTree
  | .token k _ => .tok k
  | .node k cs => .node k (stripL cs)
def stripL : List Green → List PTree
  | [] => []
  | .token k w :: cs => if k.isTrivia then stripL cs else strip (.token k w) :: stripL cs
  | .node k ds :: cs => strip (.node k ds) :: stripL cs
end

/-- `RightEdge e p`: an operator of level `p` is exposed on the right edge of the expression `e`, that is, its right
operand ends where `e` ends. -/
inductive RightEdge : Red → Nat → Prop
  | infix {e l op r : Red} : e.kind = .infixExpr → parts e = [l, op, r] → RightEdge e (level op.kind)
  | infixRight {e l op r : Red} {p : Nat} : e.kind = .infixExpr → parts e = [l, op, r] → RightEdge r p → RightEdge e p
  | prefix {e op r : Red} : e.kind = .prefixExpr → parts e = [op, r] → RightEdge e unaryLevel
  | prefixRight {e op r : Red} {p : Nat} : e.kind = .prefixExpr → parts e = [op, r] → RightEdge r p → RightEdge e p

/-- `LeftEdge e p`: an operator of level `p` is exposed on the left edge of the expression `e`. -/
inductive LeftEdge : Red → Nat → Prop
  | infix {e l op r : Red} : e.kind = .infixExpr → parts e = [l, op, r] → LeftEdge e (level op.kind)
  | infixLeft {e l op r : Red} {p : Nat} : e.kind = .infixExpr → parts e = [l, op, r] → LeftEdge l p → LeftEdge e p

/-- `w` is a piece of white space or a comment of the tree. -/
def IsTrivia (tree : Green) (w : Red) : Prop :=
  ∃ p, Below (Red.root tree) p ∧ w ∈ p.elems ∧ w.green.isNode = false ∧ w.kind.isTrivia = true

/-- Where white space and comments are: all of them in the block of the file; no node below this block starts where
one of them starts, or has one of them as its last element. -/
structure TriviaRule (tree : Green) : Prop where
  block : (Red.root tree).elems.length = 1
  start : ∀ r w, Below (Red.root tree) r → 2 ≤ r.path.length → IsTrivia tree w → w.range.start ≠ r.range.start
  last : ∀ r w, Below (Red.root tree) r → 2 ≤ r.path.length → r.elems.getLast? = some w → ¬ IsTrivia tree w

/-- The tree is made of the tokens the lexer finds, without an error, in the text. -/
def MadeOf (text : Text) (tree : Green) : Prop :=
  tree.text = text ∧ ∃ tokens, tokenize text = .ok (tokens, []) ∧
    tree.leaves.map (fun l => (⟨l.1, Text.len l.2⟩ : Token)) = tokens

end Verif.Spec
