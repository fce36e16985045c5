import Verif.Model.Red

/-
The nodes of a tree and their order.
-/
namespace Verif.Spec

/-- The nodes of the tree below a node, the node included. -/
inductive Below (root : Red) : Red → Prop
  | self : Below root root
  | child {p c : Red} : Below root p → c ∈ p.children → Below root c

/-- A node of the tree below `root`, with the number of nodes strictly above it (up to `root`) that satisfy `f`. -/
inductive Level (f : Red → Bool) (root : Red) : Nat → Red → Prop
  | self : Level f root 0 root
  | child {k : Nat} {p c : Red} : Level f root k p → c ∈ p.children → Level f root (if f p then k + 1 else k) c

/-- `a` is to the left of `b`: their paths part, and `a` takes the earlier child. -/
def Left (a b : Red) : Prop := ∃ p i j s t, a.path = p ++ i :: s ∧ b.path = p ++ j :: t ∧ i < j

/-- `a` is above `b`. -/
def Above (a b : Red) : Prop := ∃ i s, b.path = a.path ++ i :: s

/-- `a` comes before `b` in the source: it is to its left or above it. -/
def DocumentOrder (a b : Red) : Prop := Left a b ∨ Above a b

end Verif.Spec
