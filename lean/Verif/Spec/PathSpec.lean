import Verif.Model.Text

/-
Which place a path denotes, lexically: without looking at the file system (so without symbolic links).
-/
namespace Verif.PathSpec

/-- A path split at its separators. -/
def segments : Text → List Text
  | [] => [[]]
  | c :: cs =>
    if c = '/' then [] :: segments cs
    else match segments cs with
      | s :: ss => (c :: s) :: ss
      | [] => [[c]]

/-- Going from a directory (the names below the root that lead to it) along one segment. -/
def go (dir : List Text) (segment : Text) : List Text :=
  if segment = [] ∨ segment = ['.'] then dir
  else if segment = ['.', '.'] then dir.dropLast
  else dir ++ [segment]

/-- The place an absolute path denotes. -/
def place (p : Text) : List Text := (segments p).foldl go []

/-- The canonical path to a place: the names, each after a separator; the root is `/`. -/
def canonical (names : List Text) : Text :=
  if names = [] then ['/'] else names.flatMap ('/' :: ·)

/-- The relative path along some names: the names with separators between them. -/
def relative (names : List Text) : Text := (names.flatMap ('/' :: ·)).drop 1

/-- A name of a file or directory. -/
def IsName (n : Text) : Prop := n ≠ [] ∧ n ≠ ['.'] ∧ n ≠ ['.', '.'] ∧ '/' ∉ n

/-- The steps of a path: its segments without empty ones and `.`. -/
def steps (p : Text) : List Text := (segments p).filter fun s => s ≠ [] ∧ s ≠ ['.']

end Verif.PathSpec
