import Verif.Model.Sink

/-
Specification vocabulary for syntax trees and error positions.
-/
namespace Verif

mutual
/-- The tokens of a tree with their texts, left to right. -/
def Green.leaves : Green → List (SyntaxKind × Text)
  | .token k t => [(k, t)]
  | .node _ cs => leavesL cs
def Green.leavesL : List Green → List (SyntaxKind × Text)
  | [] => []
  | g :: gs => leaves g ++ leavesL gs
end

/-- `off` is the byte offset of a character boundary of `text`. -/
def Boundary (text : Text) (off : Nat) : Prop := ∃ a b, text = a ++ b ∧ Text.len a = off

/-- A range of a text: ordered, in bounds, on character boundaries. -/
def RangeOf (text : Text) (r : Range) : Prop :=
  r.start ≤ r.stop ∧ r.stop ≤ text.len ∧ Boundary text r.start ∧ Boundary text r.stop

/-- A tree without token texts. -/
inductive Shape where
  | leaf (k : SyntaxKind)
  | node (k : SyntaxKind) (children : List Shape)

mutual
/-- The shape of a tree: comments and whitespace removed, token texts forgotten. -/
def Green.shape : Green → List Shape
  | .token k _ => if k.isTrivia then [] else [.leaf k]
  | .node k cs => [.node k (shapeL cs)]
def Green.shapeL : List Green → List Shape
  | [] => []
  | g :: gs => Green.shape g ++ Green.shapeL gs
end

/-- The end offsets of the non-trivia tokens. -/
def realEnds : Nat → List Token → List Nat
  | _, [] => []
  | pos, t :: ts => (if t.kind.isTrivia then [] else [pos + t.len]) ++ realEnds (pos + t.len) ts

/-- Where an error is, independently of the trivia: its message, and how many non-trivia tokens come
before the beginning and before the end of its range. -/
def errorPlace (tokens : List Token) (e : SyntaxError) : String × Nat × Nat :=
  (e.msg, (realEnds 0 tokens).countP (· ≤ e.range.start), (realEnds 0 tokens).countP (· ≤ e.range.stop))

end Verif
