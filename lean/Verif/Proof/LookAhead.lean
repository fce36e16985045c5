import Verif.Proof.Fuel

/-
The grammar never looks further ahead than the token after the next one.
-/
set_option linter.unusedSimpArgs false
set_option linter.unusedVariables false
namespace Verif
open P Grammar

/-- Every look at the tokens is at the next one or at the one after it. -/
def Prog.Look {α : Type} : Prog α → Prop
  | .pure _ => True
  | .nth n k => n ≤ 1 ∧ ∀ x, (k x).Look
  | .advance k => ∀ x, (k x).Look
  | .start k => ∀ x, (k x).Look
  | .complete _ _ k => k.Look
  | .precede _ k => ∀ x, (k x).Look
  | .startError k => ∀ x, (k x).Look
  | .completeError _ _ k => k.Look
  | .error _ k => k.Look
  | .panic => True
  | .outOfFuel => True

def Look {α : Type} (p : Prog α) : Prop := p.Look

namespace Look
variable {α β : Type}

theorem bind {p : Prog α} {f : α → Prog β} (h1 : Look p) (h2 : ∀ a, Look (f a)) : Look (p >>= f) := by
  show Prog.Look (p.bind f)
  induction p with
  | pure a => exact h2 a
  | nth n k ih => exact ⟨h1.1, fun x => ih x (h1.2 x)⟩
  | advance k ih => exact fun x => ih x (h1 x)
  | start k ih => exact fun x => ih x (h1 x)
  | complete m kd k ih => exact ih h1
  | precede c k ih => exact fun x => ih x (h1 x)
  | startError k ih => exact fun x => ih x (h1 x)
  | completeError m e k ih => exact ih h1
  | error e k ih => exact ih h1
  | panic => trivial
  | outOfFuel => trivial
theorem ite {c : Prop} [Decidable c] {p q : Prog α} (h1 : Look p) (h2 : Look q) : Look (if c then p else q) := by
  split <;> assumption
theorem pure (a : α) : Look (Pure.pure a) := trivial
theorem pure' (a : α) : Look (Prog.pure a) := trivial
theorem panic : Look (Prog.panic : Prog α) := trivial
theorem fuel : Look (Prog.outOfFuel : Prog α) := trivial
theorem current : Look P.current := ⟨Nat.zero_le _, fun _ => trivial⟩
theorem nth1 : Look (P.nth 1) := ⟨Nat.le_refl _, fun _ => trivial⟩
theorem start : Look P.start := fun _ => trivial
theorem startError : Look P.startError := fun _ => trivial
theorem precede (m) : Look (P.precede m) := fun _ => trivial
theorem complete (m k) : Look (P.complete m k) := trivial
theorem completeError (m e) : Look (P.completeError m e) := trivial
theorem pushError (e) : Look (P.pushError e) := trivial
theorem error (e) : Look (P.error e) := trivial
theorem bumpExpect : Look P.bumpExpect := by intro x; cases x <;> trivial

macro "lstep" : tactic => `(tactic| with_reducible first
  | exact Look.pure _ | exact Look.pure' _ | exact Look.panic | exact Look.fuel | exact Look.complete _ _
  | exact Look.completeError _ _ | exact Look.error _ | exact Look.pushError _ | exact Look.bumpExpect
  | exact Look.current | exact Look.nth1 | exact Look.start | exact Look.startError | exact Look.precede _
  | apply Look.ite | apply Look.bind | intro _)

syntax "lsteps0" "[" term,* "]" : tactic
macro_rules
  | `(tactic| lsteps0 [$ts,*]) => do
    let ts := ts.getElems
    `(tactic| repeat' (first $[| with_reducible exact $ts]* | lstep | dsimp only))

theorem atK {k} : Look (P.atK k) := by unfold P.atK; lsteps0 []
theorem atTs {k} : Look (P.atTs k) := by unfold P.atTs; lsteps0 []
theorem accept {k} : Look (P.accept k) := by unfold P.accept; lsteps0 [atK]
theorem acceptAny : Look P.acceptAny := by unfold P.acceptAny; lsteps0 []
theorem bump {k} : Look (P.bump k) := by unfold P.bump; lsteps0 [accept]
theorem bumpAny : Look P.bumpAny := by unfold P.bumpAny; lsteps0 [acceptAny]
theorem errRecover {m ts} : Look (P.errRecover m ts) := by unfold P.errRecover; lsteps0 [atTs, acceptAny]
theorem errAndBump {m} : Look (P.errAndBump m) := errRecover
theorem errUntilLoop {ts} : ∀ f, Look (P.errUntilLoop ts f)
  | 0 => fuel
  | f + 1 => by unfold P.errUntilLoop; lsteps0 [atTs, atK, bumpAny, errUntilLoop f]
theorem errUntil {f m ts} : Look (P.errUntil f m ts) := by unfold P.errUntil; lsteps0 [errUntilLoop f]
theorem bumpTs {ts} : Look (P.bumpTs ts) := by unfold P.bumpTs; lsteps0 [atTs, bumpAny]
theorem expect {k} : Look (P.expect k) := by unfold P.expect; lsteps0 [bumpAny]

macro "lstepP" : tactic => `(tactic| with_reducible first
  | exact Look.atK | exact Look.atTs | exact Look.accept | exact Look.acceptAny | exact Look.bump
  | exact Look.bumpAny | exact Look.errRecover | exact Look.errAndBump | exact Look.errUntil | exact Look.bumpTs
  | exact Look.expect)

syntax "lsteps" "[" term,* "]" : tactic
macro_rules
  | `(tactic| lsteps [$ts,*]) => do
    let ts := ts.getElems
    `(tactic| repeat' (first $[| with_reducible exact $ts]* | lstepP | lstep | dsimp only))

theorem nameUnchecked : Look Grammar.nameUnchecked := by unfold Grammar.nameUnchecked; lsteps []
theorem nameR {ts} : Look (Grammar.nameR ts) := by unfold Grammar.nameR; lsteps [nameUnchecked]
theorem nameRefUnchecked : Look Grammar.nameRefUnchecked := by unfold Grammar.nameRefUnchecked; lsteps []
theorem nameRefR {ts} : Look (Grammar.nameRefR ts) := by unfold Grammar.nameRefR; lsteps [nameRefUnchecked]
theorem nameRef : Look Grammar.nameRef := by unfold Grammar.nameRef; lsteps []
theorem name : Look Grammar.name := by unfold Grammar.name; lsteps []
theorem multiNameRLoop {ts v} : ∀ f, Look (Grammar.multiNameRLoop ts v f)
  | 0 => fuel
  | f + 1 => by unfold Grammar.multiNameRLoop; lsteps [nameR, multiNameRLoop f]
theorem multiNameR {f ts v} : Look (Grammar.multiNameR f ts v) := by
  unfold Grammar.multiNameR; lsteps [nameR, multiNameRLoop f]
theorem paramList {f} : Look (Grammar.paramList f) := by unfold Grammar.paramList; lsteps [multiNameR]

structure RLook (r : Rec) : Prop where
  exprBp : ∀ n, Look (r.exprBp n)
  block : Look r.block

variable {r : Rec} {f : Nat}

theorem exprSingle (hr : RLook r) : Look (Grammar.exprSingle r) := hr.exprBp _
theorem exprMultiLoop (hr : RLook r) : ∀ f, Look (Grammar.exprMultiLoop r f)
  | 0 => fuel
  | f + 1 => by unfold Grammar.exprMultiLoop; lsteps [exprSingle hr, exprMultiLoop hr f]
theorem expr (hr : RLook r) : Look (Grammar.expr r f) := by
  unfold Grammar.expr; lsteps [exprSingle hr, exprMultiLoop hr f]
theorem index (hr : RLook r) : Look (Grammar.index r) := by unfold Grammar.index; lsteps [exprSingle hr]
theorem tableSep : Look Grammar.tableSep := by unfold Grammar.tableSep; lsteps []
theorem tableCorrect : Look (Grammar.tableCorrect f) := by unfold Grammar.tableCorrect; lsteps []
theorem tableContent (hr : RLook r) : Look (Grammar.tableContent r) := by
  unfold Grammar.tableContent; lsteps [exprSingle hr, index hr, nameUnchecked]
theorem tableInnerLoop {f0} : ∀ f, Look (Grammar.tableInnerLoop f0 f)
  | 0 => fuel
  | f + 1 => by unfold Grammar.tableInnerLoop; lsteps [tableCorrect, tableSep, tableInnerLoop f]
theorem tableLoop (hr : RLook r) {f0} : ∀ f, Look (Grammar.tableLoop r f0 f)
  | 0 => fuel
  | f + 1 => by unfold Grammar.tableLoop; lsteps [tableContent hr, tableInnerLoop f0, tableLoop hr f]
theorem tableExpr (hr : RLook r) : Look (Grammar.tableExpr r f) := by
  unfold Grammar.tableExpr; lsteps [tableLoop hr f]
theorem functionExpr (hr : RLook r) : Look (Grammar.functionExpr r f) := by
  unfold Grammar.functionExpr; lsteps [paramList, hr.block]
theorem argList (hr : RLook r) : Look (Grammar.argList r f) := by unfold Grammar.argList; lsteps [expr hr]
theorem callArgs (hr : RLook r) : Look (Grammar.callArgs r f) := by
  unfold Grammar.callArgs; lsteps [argList hr, tableExpr hr]
theorem callExpr {l} (hr : RLook r) : Look (Grammar.callExpr r f l) := by unfold Grammar.callExpr; lsteps [callArgs hr]
theorem indexExpr {l} (hr : RLook r) : Look (Grammar.indexExpr r l) := by unfold Grammar.indexExpr; lsteps [index hr]
theorem methodCallExpr {l} (hr : RLook r) : Look (Grammar.methodCallExpr r f l) := by
  unfold Grammar.methodCallExpr; lsteps [callArgs hr, nameRef]
theorem dotExpr {l} : Look (Grammar.dotExpr l) := by unfold Grammar.dotExpr; lsteps [nameRef]
theorem postfixExpr (hr : RLook r) {f0} : ∀ f l b, Look (Grammar.postfixExpr r f0 f l b)
  | 0, _, _ => fuel
  | f + 1, l, b => by
    unfold Grammar.postfixExpr
    lsteps [callExpr hr, methodCallExpr hr, indexExpr hr, dotExpr, postfixExpr hr f _ _]
theorem parenExpr (hr : RLook r) : Look (Grammar.parenExpr r) := by
  unfold Grammar.parenExpr; lsteps [hr.exprBp _]
theorem literal : Look Grammar.literal := by unfold Grammar.literal; lsteps []
theorem prefixExpr (hr : RLook r) {n} : Look (Grammar.prefixExpr r n) := by
  unfold Grammar.prefixExpr; lsteps [hr.exprBp _]
  rename_i x; cases x <;> lsteps []
theorem atomExpr (hr : RLook r) : Look (Grammar.atomExpr r f) := by
  unfold Grammar.atomExpr
  lsteps [functionExpr hr, tableExpr hr, parenExpr hr, prefixExpr hr, literal, nameRef, nameRefUnchecked]
  rename_i x; cases x <;> lsteps []
theorem lhs (hr : RLook r) : Look (Grammar.lhs r f) := by
  unfold Grammar.lhs
  refine bind current fun k => ite ?_ (bind (atomExpr hr) fun x => ?_)
  · lsteps [hr.exprBp _]
  · cases x with
    | none => exact pure _
    | some x => exact bind (postfixExpr hr _ _ _) fun _ => pure _
theorem exprBpLoop (hr : RLook r) {m} : ∀ f l, Look (Grammar.exprBpLoop r m f l)
  | 0, _ => fuel
  | f + 1, l => by unfold Grammar.exprBpLoop; lsteps [hr.exprBp _, exprBpLoop hr f _]
theorem exprBp' (hr : RLook r) {n} : Look (Grammar.exprBp r f n) := by
  unfold Grammar.exprBp
  refine bind (lhs hr) fun x => ?_
  cases x with
  | none => exact pure _
  | some x => exact bind (exprBpLoop hr _ _) fun _ => pure _
theorem elseBranch (hr : RLook r) : Look (Grammar.elseBranch r) := by unfold Grammar.elseBranch; lsteps [hr.block]
theorem elseifBranch (hr : RLook r) : ∀ f, Look (Grammar.elseifBranch r f)
  | 0 => fuel
  | f + 1 => by
    unfold Grammar.elseifBranch; lsteps [exprSingle hr, hr.block, elseBranch hr, elseifBranch hr f]
theorem ifStmt (hr : RLook r) : Look (Grammar.ifStmt r f) := by
  unfold Grammar.ifStmt; lsteps [exprSingle hr, hr.block, elseBranch hr, elseifBranch hr f]
theorem gotoStmt : Look Grammar.gotoStmt := by unfold Grammar.gotoStmt; lsteps [nameRefR, nameRef, nameR, name]
theorem labelDelim : Look Grammar.labelDelim := by unfold Grammar.labelDelim; lsteps []
theorem labelStmt : Look Grammar.labelStmt := by unfold Grammar.labelStmt; lsteps [labelDelim, name, nameR]
theorem whileStmt (hr : RLook r) : Look (Grammar.whileStmt r) := by
  unfold Grammar.whileStmt; lsteps [exprSingle hr, hr.block]
theorem genericFor (hr : RLook r) : Look (Grammar.genericFor r f) := by
  unfold Grammar.genericFor; lsteps [multiNameR, exprSingle hr]
theorem numericFor (hr : RLook r) : Look (Grammar.numericFor r f) := by
  unfold Grammar.numericFor; lsteps [expr hr, nameUnchecked, name, nameR]
theorem forContent (hr : RLook r) : Look (Grammar.forContent r f) := by
  unfold Grammar.forContent; lsteps [genericFor hr, numericFor hr]
theorem forStmt (hr : RLook r) : Look (Grammar.forStmt r f) := by
  unfold Grammar.forStmt; lsteps [forContent hr, hr.block]
theorem repeatUntilStmt (hr : RLook r) : Look (Grammar.repeatUntilStmt r) := by
  unfold Grammar.repeatUntilStmt; lsteps [exprSingle hr, hr.block]
theorem breakStmt : Look Grammar.breakStmt := by unfold Grammar.breakStmt; lsteps []
theorem localFunctionDefStmt (hr : RLook r) : Look (Grammar.localFunctionDefStmt r f) := by
  unfold Grammar.localFunctionDefStmt; lsteps [paramList, hr.block, name, nameR]
theorem localAssignStmt (hr : RLook r) : Look (Grammar.localAssignStmt r f) := by
  unfold Grammar.localAssignStmt; lsteps [multiNameR, expr hr]
theorem localStmt (hr : RLook r) : Look (Grammar.localStmt r f) := by
  unfold Grammar.localStmt; lsteps [localFunctionDefStmt hr, localAssignStmt hr]
theorem exprStmt (hr : RLook r) : Look (Grammar.exprStmt r f) := by unfold Grammar.exprStmt; lsteps [expr hr]
theorem indexPathLoop : ∀ f, Look (Grammar.indexPathLoop f)
  | 0 => fuel
  | f + 1 => by unfold Grammar.indexPathLoop; lsteps [nameRefR, nameRefUnchecked, nameR, indexPathLoop f]
theorem indexPath : Look (Grammar.indexPath f) := by
  unfold Grammar.indexPath; lsteps [indexPathLoop f, nameRefR, nameRefUnchecked, nameR]
theorem functionDefContent : Look (Grammar.functionDefContent f) := by
  unfold Grammar.functionDefContent
  lsteps [indexPath, nameRefR, nameRefUnchecked, nameR, nameUnchecked, name, nameRef]
theorem functionDefStmt (hr : RLook r) : Look (Grammar.functionDefStmt r f) := by
  unfold Grammar.functionDefStmt; lsteps [functionDefContent, paramList, hr.block]
theorem doStmt (hr : RLook r) : Look (Grammar.doStmt r) := by unfold Grammar.doStmt; lsteps [hr.block]
theorem returnStmt (hr : RLook r) : Look (Grammar.returnStmt r f) := by unfold Grammar.returnStmt; lsteps [expr hr]
theorem unmatchedEnd : Look Grammar.unmatchedEnd := by unfold Grammar.unmatchedEnd; lsteps []
theorem stmtCore (hr : RLook r) : Look (Grammar.stmtCore r f) := by
  unfold Grammar.stmtCore
  lsteps [ifStmt hr, localStmt hr, repeatUntilStmt hr, functionDefStmt hr, returnStmt hr, doStmt hr, whileStmt hr,
    forStmt hr, exprStmt hr, gotoStmt, labelStmt, breakStmt, unmatchedEnd]
theorem stmt (hr : RLook r) : Look (Grammar.stmt r f) := by unfold Grammar.stmt; lsteps [stmtCore hr]
theorem blockLoop (hr : RLook r) {ts f0} : ∀ f, Look (Grammar.blockLoop r f0 ts f)
  | 0 => fuel
  | f + 1 => by unfold Grammar.blockLoop; lsteps [stmt hr, blockLoop hr f]
theorem blockRaw (hr : RLook r) {ts} : Look (Grammar.blockRaw r f ts) := by
  unfold Grammar.blockRaw; lsteps [blockLoop hr f]
theorem recN : ∀ n, RLook (Grammar.recN n)
  | 0 => ⟨fun _ => fuel, fuel⟩
  | n + 1 => ⟨fun _ => exprBp' (recN n), blockRaw (recN n)⟩
theorem root : Look (Grammar.root f) := by
  unfold Grammar.root Grammar.rootBlock; lsteps [blockRaw (recN f)]

end Look
end Verif
