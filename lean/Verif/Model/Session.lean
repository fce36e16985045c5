import Verif.Model.Server
import Verif.Model.Diagnostics

/-
Model of a run of the server's process: crates/lua-analyzer/src/main.rs and the loop of main_loop.rs, with the
handshake of lsp_server (`Connection::initialize_start`, `initialize_finish`).

Left out: logging and its set-up, the capabilities sent to the client, the failure of `env::current_dir`; the root of the
workspace (main.rs:51-61), which is stored in the configuration and never read.
-/
namespace Verif

/-- What the process receives: messages of the client, the end of its input, and events of its own (`event` with
`.task` or `.loader`, which do not exist before the main loop). -/
inductive Input where
  /-- the request `initialize` with its `initializationOptions`; `none`: the parameters do not deserialize -/
  | init (id : ReqId) (params : Option (Option Json))
  /-- the notification `initialized` -/
  | initialized
  /-- the notification `exit` -/
  | exit
  /-- the input has ended or cannot be read -/
  | closed
  | event (e : ServerEvent)

/-- Where the process is. -/
inductive Phase where
  /-- main.rs:37: waiting for `initialize` -/
  | fresh
  /-- main.rs:48: waiting for `initialized` -/
  | greeted (config : Config)
  /-- main.rs:72: in the main loop -/
  | serving (s : Server)
  /-- ended; `success`: the exit status is 0; the state of the server if there was one -/
  | ended (success : Bool) (s : Option Server)

/-- What is sent during the handshake. -/
inductive Greeting where
  | initializeResult (id : ReqId)
  | notInitialized (id : ReqId)
  deriving DecidableEq, Repr

structure Process where
  phase : Phase
  /-- what was sent before the main loop -/
  greetings : List Greeting

namespace Process

/-- main.rs:63-66 and config.rs:27-37: the first configuration. -/
def initialConfig (options : Option Json) : Config :=
  match options with
  | none => Config.default
  | some json => Config.default.update json

/-- The main loop sees a message of the handshake as any other: main_loop.rs:187-211 and 213-325 do not know it. -/
def asEvent : Input → Option ServerEvent
  | .init id _ => some (.request id .unknown true)
  | .initialized => some .unknownNotification
  | .event e => some e
  | .exit => none
  | .closed => none

/-- One message or event.  `early`: whether this version of lsp_server answers a request that comes before `initialize`
with an error and waits on, or gives up; both are covered. -/
def step (early : Bool) (p : Process) (i : Input × Orders) : Process :=
  match p.phase with
  | .fresh =>
    match i.1 with
    /- main.rs:37-41 -/
    | .init id (some options) => ⟨.greeted (initialConfig options), p.greetings ++ [.initializeResult id]⟩
    | .event (.request id _ _) =>
      if early then { p with greetings := p.greetings ++ [.notInitialized id] } else { p with phase := .ended false none }
    | _ => { p with phase := .ended false none }
  | .greeted config =>
    match i.1 with
    /- main.rs:48 -/
    | .initialized => { p with phase := .serving (.new config) }
    | _ => { p with phase := .ended false none }
  | .serving s =>
    match i.1 with
    /- main_loop.rs:73-78 -/
    | .exit => { p with phase := .ended true (some s) }
    /- main_loop.rs:72 and 82, main.rs:16-22 -/
    | .closed => { p with phase := .ended false (some s) }
    /- main_loop.rs:79; a panic ends the process -/
    | m =>
      match asEvent m with
      | none => p
      | some e =>
        match Server.handleEvent diagnosticsOf s (e, i.2) with
        | none => { p with phase := .ended false (some s) }
        | some s' => { p with phase := .serving s' }
  | .ended _ _ => p

/-- main.rs:29-78, `run_server`: the process after some input. -/
def session (early : Bool) (inputs : List (Input × Orders)) : Process := inputs.foldl (step early) ⟨.fresh, []⟩

end Process
end Verif
