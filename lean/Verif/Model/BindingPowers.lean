import Verif.Model.SyntaxKind

/-
Model of lib/binding_powers (the `precedences!` macro and `BindingPowers`) and of the operator table
in crates/parser/src/grammar/expressions.rs.
-/
namespace Verif

/-- lib/binding_powers/src/lib.rs:23-27, `enum Assoc`. -/
inductive Assoc where
  | left | right
  deriving DecidableEq, Repr

/-- lib/binding_powers/src/lib.rs:36-41, `enum PrecType`. -/
inductive PrecType where
  | infix (a : Assoc) | prefix | postfix
  deriving DecidableEq, Repr

/-- lib/binding_powers/src/lib.rs:29-34, `struct Precedences`. -/
structure Precedences where
  prefixP : Option Nat := none
  infixP : Option (Nat × Nat) := none
  postfixP : Option Nat := none
  deriving DecidableEq, Repr, Inhabited

namespace BindingPowers

/-- lib/binding_powers/src/lib.rs:62, 64, 75 and 82: `counter += 1` on a `u8` (the powers are `u8`); `none`: it
overflows (a compile-time error, since `new` is evaluated at compile time). -/
def bump (counter : Nat) : Option Nat := if counter < 255 then some (counter + 1) else none

/-- lib/binding_powers/src/lib.rs:58-87, one turn of the loop of `BindingPowers::new`:
`counter` is the running counter, `res` the table.  `none` models the panic of an
out-of-range table index. -/
def step (counter : Nat) (res : List Precedences) (d : Nat × PrecType) :
    Option (Nat × List Precedences) := do
  match d.2 with
  | .infix assoc =>
    let first ← bump counter
    let second ← bump first
    let infixP := match assoc with
      | .left => (first, second)
      | .right => (second, first)
    let old ← res[d.1]?
    some (second, res.set d.1 { old with infixP := some infixP })
  | .prefix =>
    let second ← bump counter
    let old ← res[d.1]?
    some (second, res.set d.1 { old with prefixP := some second })
  | .postfix =>
    let first ← bump counter
    let old ← res[d.1]?
    some (first, res.set d.1 { old with postfixP := some first })

/-- lib/binding_powers/src/lib.rs:53-90, the loop of `BindingPowers::new`. -/
def loop (counter : Nat) (res : List Precedences) : List (Nat × PrecType) → Option (List Precedences)
  | [] => some res
  | d :: ds =>
    match step counter res d with
    | none => none
    | some (c, r) => loop c r ds

/-- lib/binding_powers/src/lib.rs:47-93, `BindingPowers::<N>::new`. -/
def new (n : Nat) (kinds : List (Nat × PrecType)) : Option (List Precedences) :=
  loop 1 (List.replicate n {}) kinds

/-- lib/binding_powers/src/lib.rs:95-101, `get_infix` (`NOT_AN_OP_INFIX = (0, 0)`).  The index is in
range for every operator of the enum; out of range (a panic in the code) is mapped to the default. -/
def getInfix (t : List Precedences) (id : Nat) : Nat × Nat := ((t.getD id {}).infixP).getD (0, 0)

/-- lib/binding_powers/src/lib.rs:103-109, `get_postfix`. -/
def getPostfix (t : List Precedences) (id : Nat) : Nat := ((t.getD id {}).postfixP).getD 0

/-- lib/binding_powers/src/lib.rs:111-117, `get_prefix`. -/
def getPrefix (t : List Precedences) (id : Nat) : Nat := ((t.getD id {}).prefixP).getD 0

/-- lib/binding_powers/src/lib.rs:8, `LOWEST`. -/
def lowest : Nat := 1

end BindingPowers

/-- crates/parser/src/grammar/expressions.rs:12-68, `enum LuaOp`; the deduplicating proc macro
(lib/binding_powers_impl/src/lib.rs:52-79) orders the variants alphabetically (a `BTreeSet`). -/
inductive LuaOp where
  | and | concat | div | eq | gt | gtEq | len | lt | ltEq | minus | mod | mul | not | notEq | or
  | plus | power
  deriving DecidableEq, Repr

namespace LuaOp

/-- `self as usize`. -/
def toId (o : LuaOp) : Nat := o.ctorIdx

/-- expressions.rs:12-68, the declaration list handed to `BindingPowers::new`. -/
def decls : List (Nat × PrecType) :=
  [ (LuaOp.or.toId, .infix .left), (LuaOp.and.toId, .infix .left),
    (LuaOp.lt.toId, .infix .left), (LuaOp.gt.toId, .infix .left),
    (LuaOp.ltEq.toId, .infix .left), (LuaOp.gtEq.toId, .infix .left),
    (LuaOp.notEq.toId, .infix .left), (LuaOp.eq.toId, .infix .left),
    (LuaOp.concat.toId, .infix .right), (LuaOp.plus.toId, .infix .left),
    (LuaOp.minus.toId, .infix .left), (LuaOp.mul.toId, .infix .left),
    (LuaOp.div.toId, .infix .left), (LuaOp.mod.toId, .infix .left),
    (LuaOp.not.toId, .prefix), (LuaOp.len.toId, .prefix), (LuaOp.minus.toId, .prefix),
    (LuaOp.power.toId, .infix .right) ]

/-- expressions.rs:12-68 via lib/binding_powers/src/lib.rs:137-139, `__BINDING_POWERS`
(`N = LuaOp::__LAST as usize = 17`). -/
def table : List Precedences := (BindingPowers.new 17 decls).getD []

/-- lib/binding_powers/src/lib.rs:146-148, `infix_power`. -/
def infixPower (o : LuaOp) : Nat × Nat := BindingPowers.getInfix table o.toId

/-- lib/binding_powers/src/lib.rs:150-152, `prefix_power`. -/
def prefixPower (o : LuaOp) : Nat := BindingPowers.getPrefix table o.toId

/-- expressions.rs:70-95, `impl From<SyntaxKind> for Option<LuaOp>`. -/
def ofKind : SyntaxKind → Option LuaOp
  | .orKw => some .or
  | .andKw => some .and
  | .notKw => some .not
  | .lt => some .lt
  | .gt => some .gt
  | .ltEq => some .ltEq
  | .gtEq => some .gtEq
  | .notEq => some .notEq
  | .eqEq => some .eq
  | .doubleDot => some .concat
  | .plus => some .plus
  | .hash => some .len
  | .minus => some .minus
  | .asterisk => some .mul
  | .slash => some .div
  | .modulo => some .mod
  | .caret => some .power
  | _ => none

end LuaOp

/-- expressions.rs:97-99, `infix_binding_power`. -/
def infixBindingPower (k : SyntaxKind) : Nat × Nat :=
  ((LuaOp.ofKind k).map LuaOp.infixPower).getD (0, 0)

/-- expressions.rs:101-103, `prefix_binding_power`. -/
def prefixBindingPower (k : SyntaxKind) : Nat :=
  ((LuaOp.ofKind k).map LuaOp.prefixPower).getD 0

end Verif
