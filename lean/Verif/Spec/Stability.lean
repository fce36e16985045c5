import Verif.Model.Lexer

/-
What an edit cannot touch.
-/
namespace Verif.Spec

/-- Tokens with the places where they start and end. -/
def placed : Nat → List Token → List (SyntaxKind × Nat × Nat)
  | _, [] => []
  | pos, t :: ts => (t.kind, pos, pos + t.len) :: placed (pos + t.len) ts

/-- A token of the text that is not white space or a comment, from `lo` to `hi`. -/
def RealToken (text : Text) (lo hi : Nat) : Prop :=
  ∃ tokens errors k, tokenize text = .ok (tokens, errors) ∧ (k, lo, hi) ∈ placed 0 tokens ∧ k.isTrivia = false

/-- Between `p` and `limit` there are two tokens that are not white space or comments, and they end before `limit`. -/
def Settled (text : Text) (limit p : Nat) : Prop :=
  ∃ lo hi lo' hi', RealToken text lo hi ∧ RealToken text lo' hi' ∧ p ≤ lo ∧ hi ≤ lo' ∧ hi' < limit

end Verif.Spec
