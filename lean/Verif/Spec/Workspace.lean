import Verif.Model.Running
import Verif.Spec.LuaFiles
import Verif.Spec.Fatal

/-
The files of the library, seen from outside.
-/
namespace Verif.Spec
open Loader

/-- What the loader found when it looked at a path shows the Lua file `p` with the contents `c` below it
(`none`: it cannot be read). -/
def Shows (look : AbsPath × Node) (p : AbsPath) (c : Option Bytes) : Prop :=
  ∃ names name, Leads look.2 (names ++ [name]) (.file c) ∧ LuaName name ∧
    p = String.ofList (extend look.1.toList (names ++ [name]))

/-- The libraries a session has made the server load, oldest first: those set after the one it was started with. -/
def loadedLibraries (initial : List String) (events : List ServerEvent) : List (List String) :=
  (libraries initial events).dropLast.reverse

/-- The document is not opened in a history. -/
def NeverOpened (p : AbsPath) (events : List ServerEvent) : Prop :=
  ∀ version text, ServerEvent.didOpen (.file p) version text ∉ events

/-- The paths looked at are directories (or are missing) with proper names in them. -/
def Directories (looks : List (AbsPath × Node)) : Prop :=
  ∀ l ∈ looks, WellFormed l.2 ∧ ∀ c, l.2 ≠ .file c

/-- No Lua file that could be read could not be read later. -/
def StayReadable (looks : List (AbsPath × Node)) : Prop :=
  looks.Pairwise fun l l' => ∀ p b, Shows l p (some b) → ¬ Shows l' p none

end Verif.Spec
