import Verif.Model.Diagnostics

/-
The diagnostics collection seen from the outside, by the history of calls on it.
-/
namespace Verif.Spec

/-- A call on the collection. -/
inductive DiagOp where
  | set (fileId : Nat) (diagnostics : List Diag)
  | take

/-- The diagnostics last set for a file. -/
def storedAfter (ops : List DiagOp) (fileId : Nat) : Option (List Diag) :=
  ops.foldl (fun cur op => match op with
    | .set id ds => if id = fileId then some ds else cur
    | .take => cur) none

/-- Since the last `take`, diagnostics were set for the file that differed from those it had. -/
def Dirty (ops : List DiagOp) (fileId : Nat) : Prop :=
  ∃ before ds since, ops = before ++ [.set fileId ds] ++ since ∧ .take ∉ since ∧
    storedAfter before fileId ≠ some ds

end Verif.Spec

namespace Verif.DiagnosticCollection
open Spec

/-- A history of calls on a collection. -/
def run (c : DiagnosticCollection) (ops : List DiagOp) : DiagnosticCollection :=
  ops.foldl (fun c op => match op with
    | .set id ds => c.setNativeDiagnostics id ds
    | .take => c.takeChanges.1) c

end Verif.DiagnosticCollection
