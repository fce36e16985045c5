import Verif.Model.Validation

/-
rowan 0.12 (src/cursor.rs, src/api.rs): navigation in a syntax tree.  A `SyntaxNode` or `SyntaxToken` is an
element of a tree together with its position: here the indices that lead to it from the root, and its offset.
-/
namespace Verif

/-- rowan, `SyntaxElement` (a `SyntaxNode` or a `SyntaxToken`) of some tree. -/
structure Red where
  path : List Nat
  off : Nat
  green : Green

namespace Range
/-- text-size, `TextRange::contains_range` -/
def containsRange (a b : Range) : Bool := a.start ≤ b.start && b.stop ≤ a.stop
end Range

namespace Red

/-- rowan, `SyntaxNode::new_root` -/
def root (g : Green) : Red := ⟨[], 0, g⟩

/-- rowan, `kind` -/
def kind (r : Red) : SyntaxKind := r.green.kind

/-- rowan, `text_range` -/
def range (r : Red) : Range := r.green.range r.off

/-- rowan, `children_with_tokens` from the `i`-th child on. -/
def elemsFrom (path : List Nat) : Nat → Nat → List Green → List Red
  | _, _, [] => []
  | i, off, g :: gs => ⟨path ++ [i], off, g⟩ :: elemsFrom path (i + 1) (off + g.len) gs

/-- rowan, `SyntaxNode::children_with_tokens` -/
def elems (r : Red) : List Red := elemsFrom r.path 0 r.off r.green.children

/-- rowan, `SyntaxNode::children` -/
def children (r : Red) : List Red := r.elems.filter (·.green.isNode)

end Red
end Verif
