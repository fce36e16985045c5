import Verif.Spec.Client
import Verif.Spec.ServerPositions

/-
The history of a session as the server reads it, and the events that end the server.
-/
namespace Verif.Spec

/-- A file after a history, with the server's reading of positions: whether it is open, and its contents. -/
def serverFile (p : AbsPath) (events : List ServerEvent) : Bool × Option Bytes :=
  events.foldl (fun st e => match e with
    | .didOpen (.file q) _ text => if q = p then (true, some (.utf8 text)) else st
    | .didChange (.file q) _ changes =>
      match st with
      | (true, some (.utf8 text)) => if q = p then (true, (ServerSpec.served text changes).map .utf8) else st
      | _ => st
    | .didClose (.file q) => if q = p then (false, st.2) else st
    | .loader first rest => if st.1 then st else (false, afterWrites (fun _ => st.2) (writes (first :: rest)) p)
    | _ => st) (false, none)

/-- The strings of a list of JSON values, if they are all strings. -/
def allStrings : List Json → Option (List String)
  | [] => some []
  | .str s :: items => (allStrings items).map (s :: ·)
  | _ :: _ => none

/-- The library a configuration value sets: `null` and `{}` say nothing, everything but a list of strings at
`workspace.library` means the empty list. -/
def librarySetting (json : Json) (old : List String) : List String :=
  match json with
  | .null => old
  | .obj [] => old
  | json =>
    match (json.get "workspace").bind (·.get "library") with
    | some (.arr items) => (allStrings items).getD []
    | _ => []

/-- The libraries after a history: the current one first, then the ones before it; one that is set again is not
repeated. -/
def libraries (initial : List String) (events : List ServerEvent) : List (List String) :=
  events.foldl (fun libs e => match libs, e with
    | cur :: old, .response _ false (some (.arr (json :: _))) =>
      if librarySetting json cur = cur then cur :: old else librarySetting json cur :: cur :: old
    | libs, _ => libs) [initial]

/-- The current library. -/
def library (initial : List String) (events : List ServerEvent) : List String :=
  (libraries initial events).headD initial

/-- The response is to a request of the server that has not been answered before. -/
def Awaited (past : List ServerEvent) (id : ReqId) : Prop :=
  (∃ k : Nat, k < configurationRequests past ∧ id = .int k) ∧ id ∉ responseIds past

/-- The event, coming after `past`, ends the server. -/
def Fatal (initial : List String) (past : List ServerEvent) : ServerEvent → Prop
  /- a change of an open document that does not fit its text -/
  | .didChange (.file p) _ changes =>
    ∃ text, serverFile p past = (true, some (.utf8 text)) ∧ ServerSpec.served text changes = none
  | .malformedNotification => True
  /- a response nobody waits for, or a new library with a relative path -/
  | .response id error result => ¬ Awaited past id ∨
      (error = false ∧ ∃ json rest, result = some (.arr (json :: rest)) ∧
        librarySetting json (library initial past) ≠ library initial past ∧
        ∃ path ∈ librarySetting json (library initial past), path.toList.head? ≠ some '/')
  /- files of which one, not open, is given new contents and then deleted -/
  | .loader first rest => ∃ p, (serverFile p past).1 = false ∧
      Creates (fun q => (serverFile q past).2) (writes (first :: rest)) p ∧
      afterWrites (fun q => (serverFile q past).2) (writes (first :: rest)) p = none
  | _ => False

end Verif.Spec
