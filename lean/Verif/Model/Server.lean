import Verif.Model.Vfs
import Verif.Model.Diagnostics
import Verif.Model.Config

/-
Model of the server's main loop: crates/lua-analyzer/src/{main_loop,global_state,dispatch,reload}.rs.
`none` is a panic (which ends the server).

Scheduling.  `TaskPool::spawn` (thread_pool.rs:16-25) calls rayon's `install`, which runs the task to
completion before it returns, so tasks are finished, in order, when they enter the queue; nothing else runs
concurrently on the state.  `select!` (main_loop.rs:85-96) may pick any source that is ready: a history
is any sequence of events.  The `exit` notification ends the loop: histories are what comes before it.
Logging, timing, locks and the client's capabilities are left out.  Sending on a channel is assumed not to
fail (it does if the client's end is gone).

Iteration over hash maps and hash sets is in an unspecified order, which may differ from one event to the
next: every event comes with an `Orders`.
-/
namespace Verif

/-- The iteration orders of the hash tables during one event. -/
structure Orders where
  docs : List AbsPath → List AbsPath
  files : List Nat → List Nat
  docs_perm : ∀ l, (docs l).Perm l
  files_perm : ∀ l, (files l).Perm l

/-- lsp_server `RequestId`. -/
inductive ReqId where
  | int (i : Int)
  | str (s : String)
  deriving DecidableEq, Repr

/-- lsp_types `Url`: the URL of a file, identified with the path it denotes (from_proto.rs:9-12), or another one, for
which `abs_path` is an error.  The URL the server publishes for a path is the one of to_proto.rs:30-57.  Both functions
are modelled in Model/Uri.lean; C116 says which URLs denote which path and when the published URL is, character by
character, the one the client used. -/
inductive Uri where
  | file (path : AbsPath)
  | other (url : String)
  deriving DecidableEq, Repr

/-- The outcome of a request. -/
inductive Outcome where
  | ok | invalidParams | methodNotFound | invalidRequest
  deriving DecidableEq, Repr

/-- What the server sends to the client. -/
inductive Msg where
  | response (id : ReqId) (outcome : Outcome)
  | publishDiagnostics (uri : Uri) (version : Option Int) (diagnostics : List Diag)
  | configurationRequest (id : ReqId)
  deriving DecidableEq, Repr

/-- main_loop.rs:60-64, `Task`. -/
inductive Task where
  | response (id : ReqId) (outcome : Outcome)
  | diagnostics (perFile : List (Nat × List Diag))
  deriving DecidableEq, Repr

/-- The methods of requests: main_loop.rs:202-208 knows two. -/
inductive Method where
  | shutdown | completion | unknown
  deriving DecidableEq, Repr

/-- vfs/src/handle.rs:26-33, `Message`. -/
inductive LoaderMsg where
  | progress (nTotal nDone configVersion : Nat)
  | loaded (files : List (AbsPath × Option Bytes))

/-- main_loop.rs:21-25, `Event`.  `paramsOk` says whether the parameters of a request deserialize. -/
inductive ServerEvent where
  | request (id : ReqId) (method : Method) (paramsOk : Bool)
  | didOpen (uri : Uri) (version : Int) (text : Text)
  | didChange (uri : Uri) (version : Int) (changes : List Lsp.Change)
  | didClose (uri : Uri)
  | didSave (uri : Uri)
  | didChangeConfiguration
  /-- a notification of one of the methods above, but with parameters that do not deserialize -/
  | malformedNotification
  | unknownNotification
  | response (id : ReqId) (error : Bool) (result : Option Json)
  /-- a task is ready; nothing if the queue is empty -/
  | task
  /-- the messages of the file loader that are ready: the first one and those received in the same turn -/
  | loader (first : LoaderMsg) (rest : List LoaderMsg)

/-- global_state.rs:33-45, `GlobalState`. -/
structure Server where
  /-- `req_queue.incoming`: the set of ids in flight -/
  incoming : List ReqId
  /-- `req_queue.outgoing`: the next id and the ids in flight (all are configuration requests) -/
  nextOutgoing : Nat
  outgoing : List ReqId
  diagnostics : DiagnosticCollection
  shutdownRequested : Bool
  /-- everything sent to the client -/
  sent : List Msg
  /-- `task_pool.receiver` -/
  tasks : List Task
  /-- `mem_docs`: the open documents with their versions -/
  memDocs : List (AbsPath × Int)
  vfs : Vfs
  config : Config
  /-- `analysis_host`: the input query `file_text`; `none`: not set (reading it panics) -/
  fileText : Nat → Option Text
  vfsConfigVersion : Nat
  /-- the configurations given to the file loader -/
  loads : List (Nat × List AbsPath)

namespace Server

/-- global_state.rs:48-76, `GlobalState::new`. -/
def new (config : Config) : Server where
  incoming := []
  nextOutgoing := 0
  outgoing := []
  diagnostics := {}
  shutdownRequested := false
  sent := []
  tasks := []
  memDocs := []
  vfs := Vfs.default
  config := config
  fileText := fun _ => none
  vfsConfigVersion := 0
  loads := []

/-- global_state.rs:144-146, `send`. -/
def send (s : Server) (m : Msg) : Server := { s with sent := s.sent ++ [m] }

/-- global_state.rs:148-156, `register_request` (lsp_server: `HashMap::insert`). -/
def registerRequest (s : Server) (id : ReqId) : Server :=
  { s with incoming := if id ∈ s.incoming then s.incoming else s.incoming ++ [id] }

/-- global_state.rs:158-164, `respond` (lsp_server: `HashMap::remove`; nothing is sent if the id is not in
flight). -/
def respond (s : Server) (id : ReqId) (outcome : Outcome) : Server :=
  if id ∈ s.incoming then
    { s with incoming := s.incoming.erase id }.send (.response id outcome)
  else s

/-- global_state.rs:88-101, the changes to the database. -/
def collectChanges (vfs : Vfs) : List ChangedFile → Option (List (Nat × Option Text))
  | [] => some []
  | file :: files =>
    let text := if file.kind ≠ .delete then (vfs.fileContents file.fileId).map Bytes.toText else some none
    match text, collectChanges vfs files with
    | some text, some rest => some ((file.fileId, text) :: rest)
    | _, _ => none

/-- base_db/src/change.rs:18-24, `Change::apply`. -/
def applyToDb (fileText : Nat → Option Text) (change : List (Nat × Option Text)) : Nat → Option Text :=
  change.foldl (fun db c => fun id => if id = c.1 then some (c.2.getD []) else db id) fileText

/-- global_state.rs:78-105, `process_changes`. -/
def processChanges (s : Server) : Option (Server × Bool) :=
  let (vfs, changed) := s.vfs.takeChanges
  if changed.isEmpty then some ({ s with vfs }, false)
  else
    match collectChanges vfs changed with
    | none => none
    | some change => some ({ s with vfs, fileText := applyToDb s.fileText change }, true)

/-- The diagnostics of one file: handlers.rs:26-49 reading the database. -/
def fileDiagnostics (diag : Text → Option (List Diag)) (s : Server) (fileId : Nat) :
    Option (Nat × List Diag) :=
  match s.fileText fileId with
  | none => none
  | some text => (diag text).map (fileId, ·)

/-- global_state.rs:174-200, `maybe_update_diagnostics`; `diag` computes the diagnostics of a text. -/
def maybeUpdateDiagnostics (diag : Text → Option (List Diag)) (o : Orders) (s : Server) : Option Server :=
  match (o.docs (s.memDocs.map (·.1))).mapM fun path => (s.vfs.fileId path).join with
  | none => none
  | some subscriptions =>
    match subscriptions.mapM (fileDiagnostics diag s) with
    | none => none
    | some diagnostics => some { s with tasks := s.tasks ++ [.diagnostics diagnostics] }

/-- main_loop.rs:142-160, `handle_task`: all the tasks in the queue. -/
def handleTask (s : Server) : Task → Server
  | .response id outcome => s.respond id outcome
  | .diagnostics perFile =>
    { s with diagnostics := perFile.foldl (fun c d => c.setNativeDiagnostics d.1 d.2) s.diagnostics }

def handleTasks (s : Server) : Server :=
  s.tasks.foldl handleTask { s with tasks := [] }

/-- main_loop.rs:164-175, one message of the loader. -/
def handleLoader (s : Server) : LoaderMsg → Option Server
  | .progress _ _ _ => some s
  | .loaded files =>
    files.foldlM (init := s) fun s file =>
      if (s.memDocs.map (·.1)).contains file.1 then some s
      else (s.vfs.setFileContents file.1 file.2).map fun r => { s with vfs := r.1 }

/-- main_loop.rs:187-211, `on_request` with dispatch.rs:16-104. -/
def onRequest (s : Server) (id : ReqId) (method : Method) (paramsOk : Bool) : Server :=
  let s := s.registerRequest id
  if s.shutdownRequested then s.respond id .invalidRequest
  else match method with
    | .shutdown =>
      if paramsOk then { s with shutdownRequested := true }.respond id .ok
      else s.respond id .invalidParams
    | .completion =>
      if paramsOk then { s with tasks := s.tasks ++ [.response id .ok] }
      else s.respond id .invalidParams
    | .unknown => s.respond id .methodNotFound

/-- `FxHashMap::insert` / `remove` on `mem_docs` -/
def insertDoc (docs : List (AbsPath × Int)) (path : AbsPath) (version : Int) : List (AbsPath × Int) :=
  if (docs.map (·.1)).contains path then docs.map fun d => if d.1 = path then (path, version) else d
  else docs ++ [(path, version)]

def removeDoc (docs : List (AbsPath × Int)) (path : AbsPath) : List (AbsPath × Int) :=
  docs.filter fun d => d.1 ≠ path

/-- main_loop.rs:217-243 -/
def didOpen (diag : Text → Option (List Diag)) (o : Orders) (s : Server) (uri : Uri) (version : Int)
    (text : Text) : Option Server :=
  match uri with
  | .other _ => some s
  | .file path =>
    let s := { s with memDocs := insertDoc s.memDocs path version }
    match s.vfs.setFileContents path (some (.utf8 text)) with
    | none => none
    | some (vfs, changed) =>
      let s := { s with vfs }
      if !changed then maybeUpdateDiagnostics diag o s else some s

/-- main_loop.rs:244-263 -/
def didChange (s : Server) (uri : Uri) (version : Int) (changes : List Lsp.Change) : Option Server :=
  match uri with
  | .other _ => some s
  | .file path =>
    if (s.memDocs.map (·.1)).contains path then
      match (s.vfs.fileId path).join with
      | none => none
      | some fileId =>
        match s.vfs.fileContents fileId with
        | none => none
        | some bytes =>
          match bytes.toText with
          | none => none
          | some text =>
            match Lsp.applyDocumentChanges text changes with
            | none => none
            | some text =>
              let s := { s with memDocs := insertDoc s.memDocs path version }
              (s.vfs.setFileContents path (some (.utf8 text))).map fun r => { s with vfs := r.1 }
    else some s

/-- main_loop.rs:264-284 -/
def didClose (s : Server) (uri : Uri) : Server :=
  match uri with
  | .other _ => s.send (.publishDiagnostics uri none [])
  | .file path =>
    { s with memDocs := removeDoc s.memDocs path }.send
      (.publishDiagnostics uri (s.memDocs.lookup path) [])

/-- main_loop.rs:286-321 and global_state.rs:116-123, `send_request` (lsp_server: the next number is the id). -/
def didChangeConfiguration (s : Server) : Server :=
  { s with
    outgoing := s.outgoing ++ [ReqId.int s.nextOutgoing]
    nextOutgoing := s.nextOutgoing + 1 }.send (.configurationRequest (ReqId.int s.nextOutgoing))

/-- reload.rs:19-35, `load_workspace` -/
def loadWorkspace (s : Server) : Option Server :=
  if s.config.library.all isAbsolute then
    some { s with
      vfsConfigVersion := s.vfsConfigVersion + 1
      loads := s.loads ++ [(s.vfsConfigVersion + 1, s.config.library)] }
  else none

/-- reload.rs:9-17, `update_configuration` -/
def updateConfiguration (s : Server) (config : Config) : Option Server :=
  let old := s.config
  let s := { s with config }
  if s.config.library ≠ old.library then loadWorkspace s else some s

/-- global_state.rs:125-128, `complete_request` (lsp_server: `remove(id).unwrap()`), with the only handler there
is, main_loop.rs:296-317. -/
def completeRequest (s : Server) (id : ReqId) (error : Bool) (result : Option Json) : Option Server :=
  if id ∈ s.outgoing then
    let s := { s with outgoing := s.outgoing.erase id }
    if error then some s
    else match result with
      | some (.arr (json :: _)) => updateConfiguration s (s.config.update json)
      | _ => some s
  else none

/-- main_loop.rs:103-107: the dispatch of an event. -/
def dispatch (diag : Text → Option (List Diag)) (o : Orders) (s : Server) : ServerEvent → Option Server
  | .request id method paramsOk => some (s.onRequest id method paramsOk)
  | .didOpen uri version text => didOpen diag o s uri version text
  | .didChange uri version changes => didChange s uri version changes
  | .didClose uri => some (s.didClose uri)
  | .didSave _ => some s
  | .didChangeConfiguration => some s.didChangeConfiguration
  | .malformedNotification => none
  | .unknownNotification => some s
  | .response id error result => s.completeRequest id error result
  | .task => some s.handleTasks
  | .loader first rest => (first :: rest).foldlM handleLoader s

/-- main_loop.rs:115-127: publish the diagnostics that changed. -/
def publishChanges (o : Orders) (s : Server) : Option Server :=
  match s.diagnostics.takeChanges with
  | (_, none) => some s
  | (diagnostics, some changes) =>
    (o.files changes).foldlM (init := { s with diagnostics }) fun s fileId =>
      (s.vfs.filePath fileId).map fun path =>
        s.send (.publishDiagnostics (.file path) (s.memDocs.lookup path) (s.diagnostics.diagnosticsFor fileId))

/-- main_loop.rs:109-127, the second part of `handle_event`. -/
def finishEvent (diag : Text → Option (List Diag)) (o : Orders) (s : Server) : Option Server :=
  match processChanges s with
  | none => none
  | some (s, stateChanged) =>
    match if stateChanged then maybeUpdateDiagnostics diag o s else some s with
    | none => none
    | some s => publishChanges o s

/-- main_loop.rs:98-130, `handle_event`. -/
def handleEvent (diag : Text → Option (List Diag)) (s : Server) (e : ServerEvent × Orders) : Option Server :=
  match dispatch diag e.2 s e.1 with
  | none => none
  | some s => finishEvent diag e.2 s

/-- main_loop.rs:71-83, `run`: the state after a history of events. -/
def run (diag : Text → Option (List Diag)) (s : Server) (events : List (ServerEvent × Orders)) : Option Server :=
  events.foldlM (handleEvent diag) s

end Server
end Verif
