import Verif.Model.Validation
import Verif.Model.LineIndex

/-
Model of crates/ide/src/diagnostics.rs, crates/lua-analyzer/src/handlers.rs (`publish_diagnostics`) and
crates/lua-analyzer/src/diagnostics.rs.  `none` is a panic.
-/
namespace Verif

/-- to_proto.rs:19-24, `DiagnosticSeverity` (the two values the server uses). -/
inductive Severity where
  | error | hint
  deriving DecidableEq, Repr

/-- lsp_types `Diagnostic`.  The fields handlers.rs:36-46 always sets to `None` (`code`,
`code_description`, `related_information`, `tags`, `data`) are left out; `severity` and `source`, always
`Some`, are not wrapped. -/
structure Diag where
  start : Position
  stop : Position
  severity : Severity
  source : String
  message : String
  deriving DecidableEq, Repr

/-- ide/src/diagnostics.rs:16-27, `Diagnostic::error`, followed by handlers.rs:36-46. -/
def toDiag (idx : LineIndex) (e : SyntaxError) : Option Diag :=
  (Lsp.range idx e.range).map fun r =>
    { start := r.1, stop := r.2, severity := .error, source := "lua-analyzer"
      message := "Syntax Error: " ++ e.msg }

/-- ide/src/diagnostics.rs:25-38 and handlers.rs:26-49, `publish_diagnostics` of a file with the given
text: the first 128 errors of `SourceFile::parse`. -/
def diagnosticsOf (text : Text) : Option (List Diag) :=
  match sourceFileParse text with
  | .error _ => none
  | .ok (_, errors) => (errors.take 128).mapM (toDiag (LineIndex.new text))

/-- diagnostics.rs:6-13, `DiagnosticCollection`.  `native` is an association list, newest entry first;
`changes` is a set, in order of insertion.  `check` is never written to and is left out. -/
structure DiagnosticCollection where
  native : List (Nat × List Diag) := []
  changes : List Nat := []

namespace DiagnosticCollection

/-- diagnostics.rs:53-58, `are_diagnostics_equal`. -/
def areDiagnosticsEqual (left right : Diag) : Bool :=
  left.source == right.source && left.severity == right.severity &&
    (left.start == right.start && left.stop == right.stop) && left.message == right.message

/-- diagnostics.rs:15-34, `set_native_diagnostics`. -/
def setNativeDiagnostics (c : DiagnosticCollection) (fileId : Nat) (diagnostics : List Diag) :
    DiagnosticCollection :=
  let unchanged := match c.native.lookup fileId with
    | some existing =>
      existing.length == diagnostics.length &&
        (diagnostics.zip existing).all fun p => areDiagnosticsEqual p.1 p.2
    | none => false
  if unchanged then c
  else { native := (fileId, diagnostics) :: c.native
         changes := if fileId ∈ c.changes then c.changes else c.changes ++ [fileId] }

/-- diagnostics.rs:36-41, `take_changes`. -/
def takeChanges (c : DiagnosticCollection) : DiagnosticCollection × Option (List Nat) :=
  if c.changes.isEmpty then (c, none) else ({ c with changes := [] }, some c.changes)

/-- diagnostics.rs:43-50, `diagnostics_for`. -/
def diagnosticsFor (c : DiagnosticCollection) (fileId : Nat) : List Diag :=
  (c.native.lookup fileId).getD []

end DiagnosticCollection
end Verif
