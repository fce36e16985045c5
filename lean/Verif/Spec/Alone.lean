import Verif.Spec.Pasting

/-
What is put around a construct with its own brackets to make it a file.
-/
namespace Verif.Spec

/-- What is put before a construct and behind it: nothing around statements, `return` before expressions, a function's name
before arguments and parameters, a variable before an index. -/
def around : SyntaxKind → String × String
  | .parenExpr | .tableExpr | .functionExpr => ("return ", "")
  | .index => ("return a", "")
  | .argList => ("f", "")
  | .paramList => ("function f", " end")
  | _ => ("", "")

end Verif.Spec
