import Verif.Spec.LuaGrammar

/-
Operator nesting as the Lua 5.1 reference manual (§2.5.6) prescribes it.
-/
namespace Verif
namespace Lua

/-- Precedence levels of the manual, lowest first; 0 = not a binary operator. -/
def manualLevel : SyntaxKind → Nat
  | .orKw => 1 | .andKw => 2
  | .lt | .gt | .ltEq | .gtEq | .notEq | .eqEq => 3
  | .doubleDot => 4
  | .plus | .minus => 5
  | .asterisk | .slash | .modulo => 6
  | .caret => 8
  | _ => 0

/-- The unary operators are between the multiplicative operators and `^`. -/
def manualUnary : Nat := 7

/-- The binary operators exposed on the right edge of an expression tree. -/
def rightOps : PTree → List SyntaxKind
  | .node .infixExpr [_, .tok op, r] => op :: rightOps r
  | .node .prefixExpr [.tok _, e] => rightOps e
  | _ => []

/-- A unary operator is exposed on the right edge. -/
def rightUnary : PTree → Bool
  | .node .infixExpr [_, .tok _, r] => rightUnary r
  | .node .prefixExpr [.tok _, _] => true
  | _ => false

/-- One operator node nests as the manual says: an operator exposed on the right edge of the left
operand binds tighter, or equally tight and associates to the left; an operator exposed on the left
edge of the right operand binds tighter, or equally tight and associates to the right. -/
def NestsByManual : PTree → Prop
  | .node .infixExpr [l, .tok op, r] =>
    (∀ q ∈ rightOps l, manualLevel op < manualLevel q ∨
      (manualLevel op = manualLevel q ∧ rightAssoc op = false)) ∧
    (rightUnary l = true → manualLevel op < manualUnary) ∧
    (∀ q ∈ leftOps r, manualLevel op < manualLevel q ∨
      (manualLevel op = manualLevel q ∧ rightAssoc op = true))
  | .node .prefixExpr [.tok _, e] => ∀ q ∈ leftOps e, manualUnary < manualLevel q
  | _ => True

/-- The part of `NestsByManual` that lua-analyzer gets right: operators of different levels of the
manual, and equal operators, nest as they should. -/
def NestsByManualWeak : PTree → Prop
  | .node .infixExpr [l, .tok op, r] =>
    (∀ q ∈ rightOps l, manualLevel op < manualLevel q ∨
      (manualLevel op = manualLevel q ∧ (op = q → rightAssoc op = false))) ∧
    (rightUnary l = true → manualLevel op < manualUnary) ∧
    (∀ q ∈ leftOps r, manualLevel op < manualLevel q ∨
      (manualLevel op = manualLevel q ∧ (op = q → rightAssoc op = true)))
  | .node .prefixExpr [.tok _, e] => ∀ q ∈ leftOps e, manualUnary < manualLevel q
  | _ => True

/-- `s` is a subtree of `t`. -/
inductive Sub : PTree → PTree → Prop where
  | refl (t) : Sub t t
  | node (s k c cs) : c ∈ cs → Sub s c → Sub s (.node k cs)
  | errNode (s e c cs) : c ∈ cs → Sub s c → Sub s (.errNode cs e)

end Lua
end Verif
