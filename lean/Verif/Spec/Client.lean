import Verif.Model.Server
import Verif.Props.LineIndex

/-
The history of a session seen from outside the server: what the client has sent, what it shows.
-/
namespace Verif.Spec

/-- The text a client following the protocol has for a document after a history; `none`: not open. -/
def clientText (p : AbsPath) (events : List ServerEvent) : Option Text :=
  events.foldl (fun cur e => match e with
    | .didOpen (.file q) _ text => if q = p then some text else cur
    | .didChange (.file q) _ changes =>
      if q = p then cur.bind fun text => changes.foldlM (applyChange LspSpec.offset) text else cur
    | .didClose (.file q) => if q = p then none else cur
    | _ => cur) none

/-- The client follows the protocol: its changes of an open document conform to it, for the text the document
has. -/
def Follows (events : List ServerEvent) : Prop :=
  ∀ past p version changes rest text, events = past ++ .didChange (.file p) version changes :: rest →
    clientText p past = some text → Lsp.Conforming text changes

/-- The diagnostics a client shows for a document: the last ones published for it. -/
def shown (p : AbsPath) (sent : List Msg) : Option (List Diag) :=
  sent.foldl (fun cur m => match m with
    | .publishDiagnostics (.file q) _ ds => if q = p then some ds else cur
    | _ => cur) none

/-- The ids of the requests of a history. -/
def requests (events : List ServerEvent) : List ReqId :=
  events.filterMap fun
    | .request id _ _ => some id
    | _ => none

/-- The number of responses to a request. -/
def answers (id : ReqId) (sent : List Msg) : Nat :=
  (sent.filter fun
    | .response i _ => i = id
    | _ => false).length

/-- The shutdown request has been made. -/
def ShutdownIn (events : List ServerEvent) : Prop := ∃ id, ServerEvent.request id .shutdown true ∈ events

/-- The outcome the protocol prescribes for a request made after `past`. -/
def Prescribed (past : List ServerEvent) (method : Method) (paramsOk : Bool) (outcome : Outcome) : Prop :=
  (ShutdownIn past ∧ outcome = .invalidRequest) ∨
  (¬ ShutdownIn past ∧ outcome = match method, paramsOk with
    | .unknown, _ => .methodNotFound
    | _, false => .invalidParams
    | _, true => .ok)

/-- The files written by the messages of the loader, in order. -/
def writes (msgs : List LoaderMsg) : List (AbsPath × Option Bytes) :=
  msgs.flatMap fun
    | .loaded files => files
    | .progress _ _ _ => []

/-- The contents of the files after some writes. -/
def afterWrites (contents : AbsPath → Option Bytes) (ws : List (AbsPath × Option Bytes)) (p : AbsPath) : Option Bytes :=
  ws.foldl (fun cur w => if w.1 = p then w.2 else cur) (contents p)

/-- A file after a history: whether it is open, and its contents.  The editor owns an open file;
a closed file has the contents it had in the editor until the file loader reports others. -/
def fileAfter (p : AbsPath) (events : List ServerEvent) : Bool × Option Bytes :=
  events.foldl (fun st e => match e with
    | .didOpen (.file q) _ text => if q = p then (true, some (.utf8 text)) else st
    | .didChange (.file q) _ changes =>
      if q = p ∧ st.1 = true then
        (true, match st.2 with
          | some (.utf8 text) => (changes.foldlM (applyChange LspSpec.offset) text).map .utf8
          | other => other)
      else st
    | .didClose (.file q) => if q = p then (false, st.2) else st
    | .loader first rest => if st.1 then st else (false, afterWrites (fun _ => st.2) (writes (first :: rest)) p)
    | _ => st) (false, none)

/-- Some write gives a file contents it does not have. -/
def Creates (contents : AbsPath → Option Bytes) (ws : List (AbsPath × Option Bytes)) (p : AbsPath) : Prop :=
  ∃ before b after, ws = before ++ (p, some b) :: after ∧ afterWrites contents before p ≠ some b

/-- The number of times a history names a file to be stored: an opened document or a file of the loader. -/
def storedFiles (events : List ServerEvent) : Nat :=
  (events.map fun
    | .didOpen _ _ _ => 1
    | .loader first rest => (writes (first :: rest)).length
    | _ => 0).sum

/-- The number of configuration requests the server has made; their ids are 0, 1, 2, … -/
def configurationRequests (events : List ServerEvent) : Nat :=
  (events.filter fun
    | .didChangeConfiguration => true
    | _ => false).length

/-- The ids of the responses of the client. -/
def responseIds (events : List ServerEvent) : List ReqId :=
  events.filterMap fun
    | .response id _ _ => some id
    | _ => none

/-- Every library path in a configuration value is absolute. -/
def AbsoluteLibrary : Option Json → Prop
  | some (.arr (json :: _)) => ∀ workspace library items, json.get "workspace" = some workspace →
      workspace.get "library" = some library → library = .arr items →
      ∀ s, Json.str s ∈ items → s.toList.head? = some '/'
  | _ => True

/-- An event after `past` that the server has to handle, and handles: the client follows the protocol, the
configuration names absolute paths, and no batch of the loader gives contents to a closed file that
it deletes again. -/
def Admissible (past : List ServerEvent) : ServerEvent → Prop
  | .didChange (.file p) _ changes => ∀ text, clientText p past = some text → Lsp.Conforming text changes
  | .malformedNotification => False
  | .response id _ result => (∃ k : Nat, k < configurationRequests past ∧ id = .int k) ∧ id ∉ responseIds past ∧
      AbsoluteLibrary result
  | .loader first rest => ∀ p, (fileAfter p past).1 = false →
      Creates (fun q => (fileAfter q past).2) (writes (first :: rest)) p →
      afterWrites (fun q => (fileAfter q past).2) (writes (first :: rest)) p ≠ none
  | _ => True

/-- Every event of a history is admissible. -/
def AllAdmissible (events : List ServerEvent) : Prop :=
  ∀ past e rest, events = past ++ e :: rest → Admissible past e

end Verif.Spec
