import Verif.Model.Session
import Verif.Spec.Fatal

/-
A session from start to end.
-/
namespace Verif.Spec

/-- The exit status of the process, if it has ended: `true` is 0. -/
def status (p : Process) : Option Bool :=
  match p.phase with
  | .ended success _ => some success
  | _ => none

/-- What the server has sent in the main loop. -/
def sentBy (p : Process) : List Msg :=
  match p.phase with
  | .serving s => s.sent
  | .ended _ (some s) => s.sent
  | _ => []

/-- A request that comes before `initialize`. -/
def EarlyRequest (i : Input) : Prop := ∃ id method paramsOk, i = .event (.request id method paramsOk)

/-- A message of the main loop, as an event. -/
def eventOf : Input → ServerEvent
  | .init id _ => .request id .unknown true
  | .event e => e
  | _ => .unknownNotification

/-- The beginning of a session: early requests, `initialize` with the options, `initialized`, and then what the main
loop gets, which contains neither `exit` nor the end of the input. -/
def Serves (early : Bool) (inputs : List (Input × Orders)) (options : Option Json) (events : List (ServerEvent × Orders)) :
    Prop :=
  ∃ pre id o1 o2 main, inputs = pre ++ (.init id (some options), o1) :: (.initialized, o2) :: main ∧
    (∀ i ∈ pre, early = true ∧ EarlyRequest i.1) ∧ (∀ i ∈ main, i.1 ≠ .exit ∧ i.1 ≠ .closed) ∧
    events = main.map fun i => (eventOf i.1, i.2)

/-- The library the initialization options ask for: none, if they do not say. -/
def initialLibrary (options : Option Json) : List String := librarySetting (options.getD .null) []

end Verif.Spec
