import Verif.Model.BindingPowers

/-
What the generated binding powers are meant to be, in terms of the declaration list and of the three lookups.
-/
namespace Verif.Spec

/-- The place of an operator relative to its operands. -/
inductive Fixity where
  | infix | prefix | postfix
  deriving DecidableEq, Repr

/-- The fixity of a declaration. -/
def fixity : PrecType → Fixity
  | .infix _ => .infix
  | .prefix => .prefix
  | .postfix => .postfix

/-- What the table answers for an operator used with some fixity: the powers on the sides where it has an operand. -/
def powers (t : List Precedences) (op : Nat) : Fixity → List Nat
  | .infix => [(BindingPowers.getInfix t op).1, (BindingPowers.getInfix t op).2]
  | .prefix => [BindingPowers.getPrefix t op]
  | .postfix => [BindingPowers.getPostfix t op]

/-- No operator is declared twice with the same fixity. -/
def DeclaredOnce (decls : List (Nat × PrecType)) : Prop :=
  (decls.map fun d => (d.1, fixity d.2)).Nodup

/-- The number of binding powers a list of declarations takes. -/
def room (decls : List (Nat × PrecType)) : Nat :=
  (decls.map fun d => match d.2 with
    | .infix _ => 2
    | _ => 1).sum

end Verif.Spec
