import Verif.Spec.Joining
import Verif.Spec.Walk

/-
Putting a file into a block of another file.
-/
namespace Verif.Spec

mutual
/-- The tree without white space and comments. -/
def withoutTrivia : Green → Green
  | .token k w => .token k w
  | .node k cs => .node k (withoutTriviaL cs)
def withoutTriviaL : List Green → List Green
  | [] => []
  | .token k w :: cs => if k.isTrivia then withoutTriviaL cs else .token k w :: withoutTriviaL cs
  | .node k ds :: cs => withoutTrivia (.node k ds) :: withoutTriviaL cs
end

/-- `B` is the block of the file `tree`. -/
def BlockOf (tree B : Green) : Prop := tree.children = [B] ∧ B.kind = .block

/-- The text of some neighbouring elements of a tree. -/
def texts (gs : List Green) : Text := (gs.map Green.text).flatten

end Verif.Spec
