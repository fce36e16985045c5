import Verif.Spec.Faults

/-
What validation reports about one node, in the order in which it reports it.
-/
namespace Verif.Spec
open Lua

/-- `Escapes start u errors`: the backslashes of `u`, which starts at `start`, that do not start an escape sequence are
reported from left to right. -/
inductive Escapes : Nat → Text → List SyntaxError → Prop
  | nil {start : Nat} : Escapes start [] []
  | plain {start : Nat} {c : Char} {u : Text} {es : List SyntaxError} : c ≠ '\\' → Escapes (start + c.utf8Size) u es →
      Escapes start (c :: u) es
  | known {start : Nat} {c : Char} {u : Text} {es : List SyntaxError} : c ∈ escapeChars →
      Escapes (start + 1 + c.utf8Size) u es → Escapes start ('\\' :: c :: u) es
  | unknown {start : Nat} {c : Char} {u : Text} {es : List SyntaxError} : c ∉ escapeChars →
      Escapes (start + 1 + c.utf8Size) u es →
      Escapes start ('\\' :: c :: u) (⟨"Invalid escape sequence", ⟨start, start + 1 + c.utf8Size⟩⟩ :: es)
  | last {start : Nat} : Escapes start ['\\'] [⟨"Invalid escape sequence", ⟨start, start + 1⟩⟩]

/-- An expression that a statement may not consist of: one that is no call.  Expressions in parentheses are overlooked. -/
def notACall (x : Red) : Bool := exprKinds.contains x.kind && !isCallKind x.kind && x.kind != .parenExpr

/-- An expression that cannot be assigned to.  Expressions in parentheses are overlooked. -/
def notATarget (x : Red) : Bool :=
  exprKinds.contains x.kind && !([SyntaxKind.nameRef, .dotExpr, .indexExpr, .parenExpr].contains x.kind)

/-- What is reported about a statement whose list of expressions contains `n` calls. -/
def callCount (range : Range) : Nat → List SyntaxError
  | 0 => [⟨"Expected a call expression", range⟩]
  | 1 => []
  | n => [⟨"Expected only one call expression, got " ++ toString n, range⟩]

/-- `Report r errors`: about the node `r` itself (not the nodes below it) exactly `errors` are reported, in this order. -/
inductive Report : Red → List SyntaxError → Prop
  | empty {s : Red} : s.kind = .exprStmt → (∀ m ∈ s.children, m.kind ≠ .multivalExpr) →
      Report s [⟨"Must have an expression", s.range⟩]
  | stmt {s m : Red} : s.kind = .exprStmt → FirstChild .multivalExpr s m →
      Report s ((m.children.filter notACall).map
          (fun x => ⟨"Expression statements can only be call expressions", x.range⟩) ++
        callCount s.range (m.children.countP fun x => isCallKind x.kind))
  | noLeft {s : Red} : s.kind = .assignStmt → (∀ m ∈ s.children, m.kind ≠ .multivalExpr) →
      Report s [⟨"Must have at least one expression for the left hand side", s.range⟩]
  | noRight {s : Red} : s.kind = .assignStmt → s.children.countP (fun m => m.kind == .multivalExpr) = 1 →
      Report s [⟨"Must have a least one expression for the right hand side", s.range⟩]
  | assign {s l : Red} : s.kind = .assignStmt → FirstChild .multivalExpr s l →
      2 ≤ s.children.countP (fun m => m.kind == .multivalExpr) →
      Report s ((l.children.filter notATarget).map
        fun x => ⟨"Can only assign name reference or index expression", x.range⟩)
  | string {r t : Red} {off : Nat} {u : Text} {es : List SyntaxError} : r.kind = .literal → parts r = [t] →
      t.kind = .str → Contents t.green.text off u → Escapes (t.off + off) u es → Report r es
  | openString {r t : Red} : r.kind = .literal → parts r = [t] → t.kind = .str →
      (∀ off u, ¬ Contents t.green.text off u) → Report r []
  | literal {r t : Red} : r.kind = .literal → parts r = [t] → t.kind ≠ .str → Report r []
  | other {r : Red} : r.kind ∉ [SyntaxKind.exprStmt, .assignStmt, .literal] → Report r []

end Verif.Spec
