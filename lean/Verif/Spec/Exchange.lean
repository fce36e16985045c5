import Verif.Spec.TreeShape
import Verif.Spec.Reads

/-
Exchanging names, strings, numbers and comments for others.
-/
namespace Verif.Spec
open Lua

/-- A name: letters, digits and underscores, not starting with a digit, and no keyword. -/
def IsName (w : Text) : Prop :=
  ∃ c v, w = c :: v ∧ nameStart c = true ∧ (∀ x ∈ v, nameChar x = true) ∧ ∀ p ∈ keywords, p.1.toList ≠ w

/-- A string in quotes, as lua-analyzer reads it. -/
def IsQuoted (w : Text) : Prop :=
  ∃ d body, (d = '\'' ∨ d = '"') ∧ QuotedBody d body ∧ body.getLast? ≠ some '\\' ∧ w = d :: (body ++ [d])

/-- A string in long brackets, as lua-analyzer reads it. -/
def IsLong (w : Text) : Prop :=
  ∃ n body, LongBody n body ∧ body.getLast? ≠ some '\\' ∧ w = longOpen n ++ body ++ longClose n

/-- A comment up to the end of the line. -/
def IsLineComment (w : Text) : Prop :=
  ∃ v, w = '-' :: '-' :: v ∧ '\n' ∉ v ∧ ∀ t, v ≠ '[' :: '[' :: t

/-- A whole number. -/
def IsDigits (w : Text) : Prop := w ≠ [] ∧ ∀ c ∈ w, c.isDigit = true

/-- A token exchanged: a name for a name, a complete string for another one, a comment for one to the end of the line, a number for
a whole number. -/
inductive Exchanged : SyntaxKind → Text → Text → Prop
  | same (k : SyntaxKind) (w : Text) : Exchanged k w w
  | name {w w' : Text} : IsName w' → Exchanged .ident w w'
  | string {w w' : Text} : IsQuoted w ∨ IsLong w → IsQuoted w' ∨ IsLong w' → Exchanged .str w w'
  | comment {w w' : Text} : IsLineComment w' → Exchanged .comment w w'
  | number {w w' : Text} : IsDigits w' → Exchanged .number w w'

mutual
/-- The same tree with some tokens exchanged. -/
inductive Retold : Green → Green → Prop
  | token {k : SyntaxKind} {w w' : Text} : Exchanged k w w' → Retold (.token k w) (.token k w')
  | node {k : SyntaxKind} {cs cs' : List Green} : RetoldL cs cs' → Retold (.node k cs) (.node k cs')
inductive RetoldL : List Green → List Green → Prop
  | nil : RetoldL [] []
  | cons {g g' : Green} {gs gs' : List Green} : Retold g g' → RetoldL gs gs' → RetoldL (g :: gs) (g' :: gs')
end

/-- If a number, or the token directly behind it, is exchanged, then what stands directly behind the number starts with neither a
letter, a digit, `_` nor `.` (unlike in `x=1y=2`); and what is put directly behind `[` does not start with `[`. -/
structure ApartL (ls ls' : List (SyntaxKind × Text)) : Prop where
  number : ∀ i w w' k v v', ls[i]? = some (.number, w) → ls'[i]? = some (.number, w') → ls[i + 1]? = some (k, v) →
    ls'[i + 1]? = some (k, v') → w ≠ w' ∨ v ≠ v' → ∀ c, v.head? = some c → nameChar c = false ∧ c ≠ '.'
  bracket : ∀ i w k v v', ls[i]? = some (.lBracket, w) → ls[i + 1]? = some (k, v) → ls'[i + 1]? = some (k, v') → v ≠ v' →
    v'.head? ≠ some '['

/-- The same for the tokens of two trees. -/
def Apart (g g' : Green) : Prop := ApartL g.leaves g'.leaves

/-- The places in the two trees with the same tokens before them. -/
def AtSameToken (g g' : Green) (pos pos' : Nat) : Prop :=
  ∃ i, pos = Text.len ((g.leaves.take i).flatMap (·.2)) ∧ pos' = Text.len ((g'.leaves.take i).flatMap (·.2))

/-- The same message at the same place. -/
structure SameError (g g' : Green) (e e' : SyntaxError) : Prop where
  msg : e.msg = e'.msg
  start : AtSameToken g g' e.range.start e'.range.start
  stop : AtSameToken g g' e.range.stop e'.range.stop

/-- The same errors in the same order. -/
inductive SameErrors (g g' : Green) : List SyntaxError → List SyntaxError → Prop
  | nil : SameErrors g g' [] []
  | cons {e e' : SyntaxError} {es es' : List SyntaxError} : SameError g g' e e' → SameErrors g g' es es' →
      SameErrors g g' (e :: es) (e' :: es')

end Verif.Spec
