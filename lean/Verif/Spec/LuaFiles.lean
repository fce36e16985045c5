import Verif.Model.Loader
import Verif.Spec.PathSpec

/-
Which files are below a directory.
-/
namespace Verif.Spec
open Loader

/-- Following names from a node leads to another one. -/
inductive Leads : Node → List Text → Node → Prop
  | here (n : Node) : Leads n [] n
  | down {entries name child names n} : (name, child) ∈ entries → Leads child names n →
      Leads (.dir entries) (name :: names) n

/-- A path extended by names. -/
def extend (root : Text) (names : List Text) : Text := names.foldl Paths.push root

/-- The name is that of a Lua file: it ends in `.lua`, with something before the dot. -/
def LuaName (name : Text) : Prop := ∃ stem, stem ≠ [] ∧ name = stem ++ ".lua".toList

/-- In every directory the names are distinct proper names. -/
inductive WellFormed : Node → Prop
  | file (c) : WellFormed (.file c)
  | special : WellFormed .special
  | error : WellFormed .error
  | dir (entries : List (Text × Node)) : (entries.map (·.1)).Nodup → (∀ e ∈ entries, PathSpec.IsName e.1) →
      (∀ e ∈ entries, WellFormed e.2) → WellFormed (.dir entries)

end Verif.Spec
