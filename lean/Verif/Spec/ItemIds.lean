import Verif.Spec.Walk
import Verif.Model.Ptr

/-
When two trees have the same items at the outside, and which nodes of two trees correspond.
-/
namespace Verif.Spec

/-- The statements that are items (local variables, functions) and blocks. -/
def itemKinds : List SyntaxKind := [.localAssignStmt, .localFunctionDefStmt, .functionDefStmt, .block]

mutual
/-- The trees have the same nodes, as far as these lie inside at most `d` items: what is inside `d + 1` items, and all
tokens (names, operators, white space, comments), may differ. -/
inductive SameOutside : Nat → Green → Green → Prop
  | node {d : Nat} {k : SyntaxKind} {cs cs' : List Green} (hk : k ∉ itemKinds) (h : SameOutsideL d cs cs') :
      SameOutside d (.node k cs) (.node k cs')
  | item {d : Nat} {k : SyntaxKind} {cs cs' : List Green} (hk : k ∈ itemKinds) (h : SameOutsideL d cs cs') :
      SameOutside (d + 1) (.node k cs) (.node k cs')
  | inside {k : SyntaxKind} {cs cs' : List Green} (hk : k ∈ itemKinds) : SameOutside 0 (.node k cs) (.node k cs')
/-- The same for the children of two nodes. -/
inductive SameOutsideL : Nat → List Green → List Green → Prop
  | nil {d : Nat} : SameOutsideL d [] []
  | cons {d : Nat} {g g' : Green} {cs cs' : List Green} (h : SameOutside d g g') (t : SameOutsideL d cs cs') :
      SameOutsideL d (g :: cs) (g' :: cs')
  | left {d : Nat} {k : SyntaxKind} {s : Text} {cs cs' : List Green} (t : SameOutsideL d cs cs') :
      SameOutsideL d (.token k s :: cs) cs'
  | right {d : Nat} {k : SyntaxKind} {s : Text} {cs cs' : List Green} (t : SameOutsideL d cs cs') :
      SameOutsideL d cs (.token k s :: cs')
end

/-- `a` is at the same place below `node` as `a'` below `node'`: the same number of nodes to the left of it among the
children of its parent, of the parent among those of its parent, and so on. -/
inductive SamePlace (node node' : Red) : Red → Red → Prop
  | self : SamePlace node node' node node'
  | child {p p' c c' : Red} {i : Nat} (h : SamePlace node node' p p') (hc : p.children[i]? = some c)
      (hc' : p'.children[i]? = some c') : SamePlace node node' c c'

/-- The id maps made from the two nodes give the same ids to the items that lie inside at most `d` items: every such
item of the first has the id of an item of the same kind at the same place in the second. -/
def KeepsIds (d : Nat) (node node' : Red) : Prop :=
  ∃ arena arena', AstIdMap.fromSource node = some arena ∧ AstIdMap.fromSource node' = some arena' ∧
    ∀ item j, Level (fun r => decide (r.kind ∈ itemKinds)) node j item → item.kind ∈ itemKinds → j ≤ d →
      ∃ item', ∃ id : Nat, SamePlace node node' item item' ∧ item'.kind = item.kind ∧
        arena[id]? = some (NodePtr.new item) ∧ arena'[id]? = some (NodePtr.new item')

end Verif.Spec
