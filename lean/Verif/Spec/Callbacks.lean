import Verif.Spec.PTree

/-
Specification vocabulary for the callbacks a parser makes on a tree sink.
-/
namespace Verif

/-- The errors reported by a callback sequence, in order. -/
def errorsOf : List SinkCall → List ParseError
  | [] => []
  | .error e :: cs => e :: errorsOf cs
  | .finishErrorNode e :: cs => e :: errorsOf cs
  | _ :: cs => errorsOf cs

/-- `WellNested open_ cs`: with the nodes `open_` open (`true` = node, `false` = error node; innermost
first), the callbacks `cs` close every node they open and all of `open_`, each with the closing
callback of its sort, and nothing happens outside a node once the last one is closed. -/
def WellNested : List Bool → List SinkCall → Prop
  | o, [] => o = []
  | o, .startNode _ :: cs => WellNested (true :: o) cs
  | o, .startErrorNode :: cs => WellNested (false :: o) cs
  | true :: o, .finishNode :: cs => WellNested o cs ∧ (o = [] → cs = [])
  | false :: o, .finishErrorNode _ :: cs => WellNested o cs ∧ (o = [] → cs = [])
  | b :: o, .token :: cs => WellNested (b :: o) cs
  | b :: o, .error _ :: cs => WellNested (b :: o) cs
  | _, _ => False

end Verif
