import Verif.Model.Server

/-
Model of what the server locks while it handles an event: the `RwLock` around the Vfs
(lua-analyzer/src/global_state.rs:41) and the database, which cannot be written while there is a snapshot of it
(salsa's `Runtime` waits in `with_incremented_revision` until all snapshots are dropped).

An event is a sequence of operations, in the order of the code; a guard is released at the end of the statement or block
that holds it, a snapshot when the task that owns it is finished.  All operations are of the main thread, or of a task the
main thread is waiting for (`rayon`'s `install`, thread_pool.rs:16-25).  Events that panic are left out: they end the
process.
-/
namespace Verif

/-- Taking and giving back a lock. -/
inductive LockOp where
  /-- `self.vfs.read()` -/
  | read
  | readDone
  /-- `self.vfs.write()` -/
  | write
  | writeDone
  /-- `self.analysis_host.analysis()`: a snapshot of the database -/
  | snapshot
  | snapshotDone
  /-- `self.analysis_host.apply_change(change)` -/
  | setDb
  deriving DecidableEq, Repr

namespace Server

/-- global_state.rs:174-200, `maybe_update_diagnostics`: a read guard for every open document (a temporary in a closure),
then a snapshot, moved into the task. -/
def updateLocks (s : Server) : List LockOp :=
  s.memDocs.flatMap (fun _ => [.read, .readDone]) ++ [.snapshot, .snapshotDone]

/-- main_loop.rs:103-107 and the handlers it calls. -/
def dispatchLocks (s : Server) : ServerEvent → List LockOp
  /- dispatch.rs:44-73: the snapshot of a request handled by the pool -/
  | .request _ method paramsOk =>
    if s.shutdownRequested then []
    else match method with
      | .completion => if paramsOk then [.snapshot, .snapshotDone] else []
      | _ => []
  /- main_loop.rs:217-243: a write guard for one statement, then possibly an update -/
  | .didOpen (.file path) version text =>
    let s := { s with memDocs := insertDoc s.memDocs path version }
    [.write, .writeDone] ++
      match s.vfs.setFileContents path (some (.utf8 text)) with
      | some (_, false) => updateLocks s
      | _ => []
  /- main_loop.rs:244-263: a write guard to the end of the block -/
  | .didChange (.file path) _ _ =>
    if (s.memDocs.map (·.1)).contains path then [.write, .writeDone] else []
  /- main_loop.rs:162-185: a write guard for every message with files -/
  | .loader first rest => (first :: rest).flatMap fun
    | .loaded _ => [.write, .writeDone]
    | .progress _ _ _ => []
  | _ => []

/-- global_state.rs:78-105, `process_changes`: a write guard for the block that collects the changes, then the change of
the database. -/
def processLocks (s : Server) : List LockOp :=
  [.write, .writeDone] ++ if s.vfs.takeChanges.2.isEmpty then [] else [.setDb]

/-- main_loop.rs:115-127: a read guard for every publication (a temporary of one statement). -/
def publishLocks (o : Orders) (s : Server) : List LockOp :=
  match s.diagnostics.takeChanges with
  | (_, none) => []
  | (_, some changes) => (o.files changes).flatMap fun _ => [.read, .readDone]

/-- main_loop.rs:109-127, the second part of `handle_event`. -/
def finishLocks (diag : Text → Option (List Diag)) (o : Orders) (s : Server) : List LockOp :=
  processLocks s ++
    match processChanges s with
    | none => []
    | some (s, stateChanged) =>
      (if stateChanged then updateLocks s else []) ++
        match if stateChanged then maybeUpdateDiagnostics diag o s else some s with
        | none => []
        | some s => publishLocks o s

/-- main_loop.rs:98-130, `handle_event`. -/
def eventLocks (diag : Text → Option (List Diag)) (s : Server) (e : ServerEvent × Orders) : List LockOp :=
  dispatchLocks s e.1 ++
    match dispatch diag e.2 s e.1 with
    | none => []
    | some s => finishLocks diag e.2 s

/-- main_loop.rs:71-83: the operations of a history. -/
def historyLocks (diag : Text → Option (List Diag)) (s : Server) : List (ServerEvent × Orders) → List LockOp
  | [] => []
  | e :: es =>
    eventLocks diag s e ++
      match handleEvent diag s e with
      | none => []
      | some s => historyLocks diag s es

end Server
end Verif
