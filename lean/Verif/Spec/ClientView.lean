import Verif.Spec.Fatal
import Verif.Model.Diagnostics

/-
What a client shows for one document, followed through a session.
-/
namespace Verif.Spec

/-- One document: what the client shows for it, the diagnostics the server last had when it published (`known`), and
the ones it has computed since, in order, each different from the one before it. -/
structure View where
  shown : Option (List Diag)
  known : Option (List Diag)
  waiting : List (List Diag)
  deriving DecidableEq

namespace View

/-- Nothing is known of the document. -/
def start : View := ⟨none, none, []⟩

/-- The last diagnostics computed. -/
def latest (v : View) : Option (List Diag) := v.waiting.getLast?.or v.known

/-- The server computes the diagnostics of the document. -/
def compute (v : View) (ds : List Diag) : View :=
  if v.latest = some ds then v else { v with waiting := v.waiting ++ [ds] }

/-- The server publishes: nothing if nothing new was computed, and otherwise the last ones computed; even if these
are the ones it published before. -/
def publish (v : View) : View :=
  match v.waiting.getLast? with
  | none => v
  | some ds => ⟨some ds, some ds, []⟩

/-- The document is closed: the client is told to show nothing.  What is known and what waits stays. -/
def close (v : View) : View := { v with shown := some [] }

end View

/-- The text of a document that is open after a history. -/
def openText (p : AbsPath) (events : List ServerEvent) : Option Text :=
  match serverFile p events with
  | (true, some (.utf8 text)) => some text
  | _ => none

/-- One event, with the text the document has after it if it is open. -/
def viewStep (p : AbsPath) (v : View) (e : ServerEvent) (text : Option Text) : View :=
  let v := match e with
    | .task => v.publish
    | .didClose (.file q) => if q = p then v.close else v
    | _ => v
  match text.bind diagnosticsOf with
  | some ds => v.compute ds
  | none => v

/-- A document followed through a history that comes after `past`. -/
def viewFrom (p : AbsPath) (past : List ServerEvent) (v : View) : List ServerEvent → View
  | [] => v
  | e :: es => viewFrom p (past ++ [e]) (viewStep p v e (openText p (past ++ [e]))) es

/-- A document followed through a history. -/
def view (p : AbsPath) (events : List ServerEvent) : View := viewFrom p [] .start events

end Verif.Spec
