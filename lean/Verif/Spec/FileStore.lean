import Verif.Model.Vfs

/-
What a file store is, described from the outside: by the history of calls made on it, without
ids, tables or logs.
-/
namespace Verif.Spec

/-- A mutating call on the store: a write (`none` means "deleted") or draining the change log. -/
inductive VfsOp where
  | write (path : AbsPath) (contents : Option Bytes)
  | take

/-- The contents of `path` after the history `ops`: those of the last write to it. -/
def contentsAfter (path : AbsPath) (ops : List VfsOp) : Option Bytes :=
  ops.foldl (fun cur op => match op with
    | .write q c => if q = path then c else cur
    | .take => cur) none

/-- The kind of change a write makes to contents `old`; `none` if it changes nothing. -/
def changeOf (old new : Option Bytes) : Option ChangeKind :=
  if old = new then none
  else match old, new with
    | none, _ => some .create
    | _, none => some .delete
    | _, _ => some .modify

/-- The changes made by a history since its last `take`, in order, with the paths changed. -/
def pending : List VfsOp → List (AbsPath × ChangeKind) :=
  go [] []
where
  go (past : List VfsOp) (acc : List (AbsPath × ChangeKind)) : List VfsOp → List (AbsPath × ChangeKind)
    | [] => acc
    | .take :: rest => go (past ++ [.take]) [] rest
    | .write p c :: rest =>
      go (past ++ [.write p c])
        (match changeOf (contentsAfter p past) c with
          | none => acc
          | some k => acc ++ [(p, k)]) rest

/-- The distinct paths written by a history, in the order of their first write. -/
def pathsOf (ops : List VfsOp) : List AbsPath :=
  ops.foldl (fun ps op => match op with
    | .write q _ => if q ∈ ps then ps else ps ++ [q]
    | .take => ps) []

end Verif.Spec

namespace Verif
open Spec
namespace Vfs

/-- One call on the store; the state afterwards and what the call returned. -/
inductive Output where
  | wrote (changed : Bool)
  | taken (changes : List ChangedFile)

def step (v : Vfs) : VfsOp → Option (Vfs × Output)
  | .write p c => (v.setFileContents p c).map fun r => (r.1, .wrote r.2)
  | .take => some (v.takeChanges.1, .taken v.takeChanges.2)

/-- A history of calls on a fresh store; `none` if one of them panics. -/
def run (v : Vfs) : List VfsOp → Option Vfs
  | [] => some v
  | op :: ops =>
    match v.step op with
    | none => none
    | some r => r.1.run ops

end Vfs
end Verif
