import Verif.Proof.Cost
import Verif.Spec.Depth

/-
More fuel does not change what the parser does.
-/
set_option linter.unusedSimpArgs false
set_option linter.unusedVariables false
namespace Verif
open P Grammar

/-- whatever the first program ends with, so does the second -/
def PLe {α : Type} (p q : Prog α) : Prop := ∀ s r, p.run s = .ok r → q.run s = .ok r

namespace PLe
variable {α β : Type}

theorem refl (p : Prog α) : PLe p p := fun _ _ h => h
theorem fuel {q : Prog α} : PLe .outOfFuel q := by intro s r h; simp [Prog.run] at h
theorem bind {p p' : Prog α} {f f' : α → Prog β} (h1 : PLe p p') (h2 : ∀ a, PLe (f a) (f' a)) :
    PLe (p >>= f) (p' >>= f') := by
  intro s r h
  have h0 : (p.bind f).run s = .ok r := h
  show (p'.bind f').run s = .ok r
  rw [run_bind] at h0 ⊢
  cases hp : p.run s with
  | error e => rw [hp] at h0; simp at h0
  | ok x =>
    obtain ⟨a, s1⟩ := x
    rw [hp] at h0
    rw [h1 s _ hp]
    exact h2 a s1 r h0
theorem ite {c : Prop} [Decidable c] {p p' q q' : Prog α} (h1 : PLe p p') (h2 : PLe q q') :
    PLe (if c then p else q) (if c then p' else q') := by split <;> assumption

structure RLe (r r' : Rec) : Prop where
  exprBp : ∀ n, PLe (r.exprBp n) (r'.exprBp n)
  block : PLe r.block r'.block

syntax "psteps" "[" term,* "]" : tactic
macro_rules
  | `(tactic| psteps [$ts,*]) => do
    let ts := ts.getElems
    `(tactic| repeat' (with_reducible first | exact PLe.refl _ $[| exact $ts]* | apply PLe.ite | apply PLe.bind | intro _))

variable {r r' : Rec} {f f' : Nat}

theorem errUntilLoop {ts} : ∀ {f f'}, f ≤ f' → PLe (P.errUntilLoop ts f) (P.errUntilLoop ts f')
  | 0, _, _ => fuel
  | f + 1, 0, h => absurd h (by omega)
  | f + 1, f' + 1, h => by
    unfold P.errUntilLoop
    psteps [errUntilLoop (Nat.le_of_succ_le_succ h)]
theorem errUntil {m ts} (h : f ≤ f') : PLe (P.errUntil f m ts) (P.errUntil f' m ts) := by
  unfold P.errUntil; psteps [errUntilLoop h]


theorem multiNameRLoop {ts v} : ∀ {f f'}, f ≤ f' → PLe (Grammar.multiNameRLoop ts v f) (Grammar.multiNameRLoop ts v f') := by
  intro f
  induction f with
  | zero => intro f' h; exact fuel
  | succ f ih =>
    intro f' h 
    cases f' with
    | zero => omega
    | succ f' =>
      unfold Grammar.multiNameRLoop
      psteps [ih (Nat.le_of_succ_le_succ h)]

theorem multiNameR {ts v} (h : f ≤ f') : PLe (Grammar.multiNameR f ts v) (Grammar.multiNameR f' ts v) := by
  unfold Grammar.multiNameR; psteps [multiNameRLoop h]

theorem paramList (h : f ≤ f') : PLe (Grammar.paramList f) (Grammar.paramList f') := by
  unfold Grammar.paramList; psteps [multiNameR h]

theorem exprSingle (hr : RLe r r') : PLe (Grammar.exprSingle r) (Grammar.exprSingle r') := hr.exprBp _

theorem exprMultiLoop (hr : RLe r r') : ∀ {f f'}, f ≤ f' → PLe (Grammar.exprMultiLoop r  f) (Grammar.exprMultiLoop r'  f') := by
  intro f
  induction f with
  | zero => intro f' h; exact fuel
  | succ f ih =>
    intro f' h 
    cases f' with
    | zero => omega
    | succ f' =>
      unfold Grammar.exprMultiLoop
      psteps [exprSingle hr, ih (Nat.le_of_succ_le_succ h)]

theorem expr (hr : RLe r r') (h : f ≤ f') : PLe (Grammar.expr r f) (Grammar.expr r' f') := by
  unfold Grammar.expr; psteps [exprSingle hr, exprMultiLoop hr h]

theorem index (hr : RLe r r') : PLe (Grammar.index r) (Grammar.index r') := by
  unfold Grammar.index; psteps [exprSingle hr]

theorem tableContent (hr : RLe r r') : PLe (Grammar.tableContent r) (Grammar.tableContent r') := by
  unfold Grammar.tableContent; psteps [exprSingle hr, index hr]

theorem tableCorrect (h : f ≤ f') : PLe (Grammar.tableCorrect f) (Grammar.tableCorrect f') := by
  unfold Grammar.tableCorrect; psteps [errUntil h]

theorem tableInnerLoop {f0 f0' : Nat} (h0 : f0 ≤ f0') : ∀ {f f'}, f ≤ f' → PLe (Grammar.tableInnerLoop f0  f) (Grammar.tableInnerLoop f0'  f') := by
  intro f
  induction f with
  | zero => intro f' h; exact fuel
  | succ f ih =>
    intro f' h 
    cases f' with
    | zero => omega
    | succ f' =>
      unfold Grammar.tableInnerLoop
      psteps [tableCorrect h0, ih (Nat.le_of_succ_le_succ h)]

theorem tableLoop (hr : RLe r r') {f0 f0' : Nat} (h0 : f0 ≤ f0') : ∀ {f f'}, f ≤ f' → PLe (Grammar.tableLoop r f0  f) (Grammar.tableLoop r' f0'  f') := by
  intro f
  induction f with
  | zero => intro f' h; exact fuel
  | succ f ih =>
    intro f' h 
    cases f' with
    | zero => omega
    | succ f' =>
      unfold Grammar.tableLoop
      psteps [tableContent hr, tableInnerLoop h0 h0, ih (Nat.le_of_succ_le_succ h)]

theorem tableExpr (hr : RLe r r') (h : f ≤ f') : PLe (Grammar.tableExpr r f) (Grammar.tableExpr r' f') := by
  unfold Grammar.tableExpr; psteps [tableLoop hr h h]

theorem functionExpr (hr : RLe r r') (h : f ≤ f') : PLe (Grammar.functionExpr r f) (Grammar.functionExpr r' f') := by
  unfold Grammar.functionExpr; psteps [paramList h, hr.block]

theorem argList (hr : RLe r r') (h : f ≤ f') : PLe (Grammar.argList r f) (Grammar.argList r' f') := by
  unfold Grammar.argList; psteps [expr hr h]

theorem callArgs (hr : RLe r r') (h : f ≤ f') : PLe (Grammar.callArgs r f) (Grammar.callArgs r' f') := by
  unfold Grammar.callArgs; psteps [argList hr h, tableExpr hr h]

theorem callExpr {l} (hr : RLe r r') (h : f ≤ f') : PLe (Grammar.callExpr r f l) (Grammar.callExpr r' f' l) := by
  unfold Grammar.callExpr; psteps [callArgs hr h]

theorem indexExpr {l} (hr : RLe r r') : PLe (Grammar.indexExpr r l) (Grammar.indexExpr r' l) := by
  unfold Grammar.indexExpr; psteps [index hr]

theorem methodCallExpr {l} (hr : RLe r r') (h : f ≤ f') : PLe (Grammar.methodCallExpr r f l) (Grammar.methodCallExpr r' f' l) := by
  unfold Grammar.methodCallExpr; psteps [callArgs hr h]

theorem postfixExpr (hr : RLe r r') {f0 f0' : Nat} (h0 : f0 ≤ f0') : ∀ {f f'}, f ≤ f' → ∀ l b, PLe (Grammar.postfixExpr r f0  f l b) (Grammar.postfixExpr r' f0'  f' l b) := by
  intro f
  induction f with
  | zero => intro f' h l b; exact fuel
  | succ f ih =>
    intro f' h l b
    cases f' with
    | zero => omega
    | succ f' =>
      unfold Grammar.postfixExpr
      psteps [callExpr hr h0, methodCallExpr hr h0, indexExpr hr, ih (Nat.le_of_succ_le_succ h) _ _]

theorem parenExpr (hr : RLe r r') : PLe (Grammar.parenExpr r) (Grammar.parenExpr r') := by
  unfold Grammar.parenExpr; psteps [hr.exprBp _]

theorem prefixExpr (hr : RLe r r') {n} : PLe (Grammar.prefixExpr r n) (Grammar.prefixExpr r' n) := by
  unfold Grammar.prefixExpr
  refine PLe.bind (refl _) fun m => PLe.bind (refl _) fun _ => PLe.bind (hr.exprBp _) fun x => refl _

theorem atomExpr (hr : RLe r r') (h : f ≤ f') : PLe (Grammar.atomExpr r f) (Grammar.atomExpr r' f') := by
  unfold Grammar.atomExpr
  refine PLe.bind (refl _) fun k => PLe.ite (PLe.bind (prefixExpr hr) fun x => refl _) ?_
  psteps [functionExpr hr h, tableExpr hr h, parenExpr hr]

theorem lhs (hr : RLe r r') (h : f ≤ f') : PLe (Grammar.lhs r f) (Grammar.lhs r' f') := by
  unfold Grammar.lhs
  refine PLe.bind (refl _) fun k => PLe.ite ?_ (PLe.bind (atomExpr hr h) fun x => ?_)
  · psteps [hr.exprBp _]
  · cases x with
    | none => exact refl _
    | some x => exact PLe.bind (postfixExpr hr h h _ _) fun _ => refl _

theorem exprBpLoop {m} (hr : RLe r r') : ∀ {f f'}, f ≤ f' → ∀ l, PLe (Grammar.exprBpLoop r m f l) (Grammar.exprBpLoop r' m f' l) := by
  intro f
  induction f with
  | zero => intro f' h l; exact fuel
  | succ f ih =>
    intro f' h l
    cases f' with
    | zero => omega
    | succ f' =>
      unfold Grammar.exprBpLoop
      psteps [hr.exprBp _, ih (Nat.le_of_succ_le_succ h) _]

theorem exprBp' (hr : RLe r r') (h : f ≤ f') {n} : PLe (Grammar.exprBp r f n) (Grammar.exprBp r' f' n) := by
  unfold Grammar.exprBp
  refine PLe.bind (lhs hr h) fun x => ?_
  cases x with
  | none => exact refl _
  | some x => exact PLe.bind (exprBpLoop hr h _) fun _ => refl _

theorem elseBranch (hr : RLe r r') : PLe (Grammar.elseBranch r) (Grammar.elseBranch r') := by
  unfold Grammar.elseBranch; psteps [hr.block]

theorem elseifBranch (hr : RLe r r') : ∀ {f f'}, f ≤ f' → PLe (Grammar.elseifBranch r  f) (Grammar.elseifBranch r'  f') := by
  intro f
  induction f with
  | zero => intro f' h; exact fuel
  | succ f ih =>
    intro f' h 
    cases f' with
    | zero => omega
    | succ f' =>
      unfold Grammar.elseifBranch
      psteps [exprSingle hr, hr.block, elseBranch hr, ih (Nat.le_of_succ_le_succ h)]

theorem ifStmt (hr : RLe r r') (h : f ≤ f') : PLe (Grammar.ifStmt r f) (Grammar.ifStmt r' f') := by
  unfold Grammar.ifStmt; psteps [exprSingle hr, hr.block, elseBranch hr, elseifBranch hr h]

theorem whileStmt (hr : RLe r r') : PLe (Grammar.whileStmt r) (Grammar.whileStmt r') := by
  unfold Grammar.whileStmt; psteps [exprSingle hr, hr.block]

theorem genericFor (hr : RLe r r') (h : f ≤ f') : PLe (Grammar.genericFor r f) (Grammar.genericFor r' f') := by
  unfold Grammar.genericFor; psteps [multiNameR h, exprSingle hr]

theorem numericFor (hr : RLe r r') (h : f ≤ f') : PLe (Grammar.numericFor r f) (Grammar.numericFor r' f') := by
  unfold Grammar.numericFor; psteps [expr hr h]

theorem forContent (hr : RLe r r') (h : f ≤ f') : PLe (Grammar.forContent r f) (Grammar.forContent r' f') := by
  unfold Grammar.forContent; psteps [genericFor hr h, numericFor hr h]

theorem forStmt (hr : RLe r r') (h : f ≤ f') : PLe (Grammar.forStmt r f) (Grammar.forStmt r' f') := by
  unfold Grammar.forStmt; psteps [forContent hr h, hr.block]

theorem repeatUntilStmt (hr : RLe r r') : PLe (Grammar.repeatUntilStmt r) (Grammar.repeatUntilStmt r') := by
  unfold Grammar.repeatUntilStmt; psteps [exprSingle hr, hr.block]

theorem localFunctionDefStmt (hr : RLe r r') (h : f ≤ f') : PLe (Grammar.localFunctionDefStmt r f) (Grammar.localFunctionDefStmt r' f') := by
  unfold Grammar.localFunctionDefStmt; psteps [paramList h, hr.block]

theorem localAssignStmt (hr : RLe r r') (h : f ≤ f') : PLe (Grammar.localAssignStmt r f) (Grammar.localAssignStmt r' f') := by
  unfold Grammar.localAssignStmt; psteps [multiNameR h, expr hr h]

theorem localStmt (hr : RLe r r') (h : f ≤ f') : PLe (Grammar.localStmt r f) (Grammar.localStmt r' f') := by
  unfold Grammar.localStmt; psteps [localFunctionDefStmt hr h, localAssignStmt hr h]

theorem exprStmt (hr : RLe r r') (h : f ≤ f') : PLe (Grammar.exprStmt r f) (Grammar.exprStmt r' f') := by
  unfold Grammar.exprStmt; psteps [expr hr h]

theorem indexPathLoop : ∀ {f f'}, f ≤ f' → PLe (Grammar.indexPathLoop  f) (Grammar.indexPathLoop  f') := by
  intro f
  induction f with
  | zero => intro f' h; exact fuel
  | succ f ih =>
    intro f' h 
    cases f' with
    | zero => omega
    | succ f' =>
      unfold Grammar.indexPathLoop
      psteps [ih (Nat.le_of_succ_le_succ h)]

theorem indexPath (h : f ≤ f') : PLe (Grammar.indexPath f) (Grammar.indexPath f') := by
  unfold Grammar.indexPath; psteps [indexPathLoop h]

theorem functionDefContent (h : f ≤ f') : PLe (Grammar.functionDefContent f) (Grammar.functionDefContent f') := by
  unfold Grammar.functionDefContent; psteps [indexPath h]

theorem functionDefStmt (hr : RLe r r') (h : f ≤ f') : PLe (Grammar.functionDefStmt r f) (Grammar.functionDefStmt r' f') := by
  unfold Grammar.functionDefStmt; psteps [functionDefContent h, paramList h, hr.block]

theorem doStmt (hr : RLe r r') : PLe (Grammar.doStmt r) (Grammar.doStmt r') := by
  unfold Grammar.doStmt; psteps [hr.block]

theorem returnStmt (hr : RLe r r') (h : f ≤ f') : PLe (Grammar.returnStmt r f) (Grammar.returnStmt r' f') := by
  unfold Grammar.returnStmt; psteps [expr hr h]

theorem stmtCore (hr : RLe r r') (h : f ≤ f') : PLe (Grammar.stmtCore r f) (Grammar.stmtCore r' f') := by
  unfold Grammar.stmtCore; psteps [ifStmt hr h, localStmt hr h, repeatUntilStmt hr, functionDefStmt hr h, returnStmt hr h, doStmt hr, whileStmt hr, forStmt hr h, exprStmt hr h]

theorem stmt (hr : RLe r r') (h : f ≤ f') : PLe (Grammar.stmt r f) (Grammar.stmt r' f') := by
  unfold Grammar.stmt; psteps [stmtCore hr h]

theorem blockLoop {ts} (hr : RLe r r') {f0 f0' : Nat} (h0 : f0 ≤ f0') : ∀ {f f'}, f ≤ f' → PLe (Grammar.blockLoop r f0 ts f) (Grammar.blockLoop r' f0' ts f') := by
  intro f
  induction f with
  | zero => intro f' h; exact fuel
  | succ f ih =>
    intro f' h 
    cases f' with
    | zero => omega
    | succ f' =>
      unfold Grammar.blockLoop
      psteps [stmt hr h0, ih (Nat.le_of_succ_le_succ h)]

theorem blockRaw {ts} (hr : RLe r r') (h : f ≤ f') : PLe (Grammar.blockRaw r f ts) (Grammar.blockRaw r' f' ts) := by
  unfold Grammar.blockRaw; psteps [blockLoop hr h h]

/-- the grammar on a deeper stack, with more iterations -/
theorem stack : ∀ {d d' l l' : Nat}, d ≤ d' → l ≤ l' → RLe (stackRec l d) (stackRec l' d')
  | 0, d', l, l', _, _ => ⟨fun _ => fuel, fuel⟩
  | d + 1, 0, l, l', h, _ => absurd h (by omega)
  | d + 1, d' + 1, l, l', h, hl =>
    ⟨fun n => exprBp' (stack (Nat.le_of_succ_le_succ h) hl) hl, blockRaw (stack (Nat.le_of_succ_le_succ h) hl) hl⟩

theorem recN : ∀ {n l : Nat}, n ≤ l → RLe (Grammar.recN n) (stackRec l n)
  | 0, l, _ => ⟨fun _ => fuel, fuel⟩
  | n + 1, l, h =>
    ⟨fun n => exprBp' (recN (Nat.le_of_succ_le h)) (Nat.le_of_succ_le h), blockRaw (recN (Nat.le_of_succ_le h)) (Nat.le_of_succ_le h)⟩

theorem recN_mono : ∀ {n n' : Nat}, n ≤ n' → RLe (Grammar.recN n) (Grammar.recN n')
  | 0, n', _ => ⟨fun _ => fuel, fuel⟩
  | n + 1, 0, h => absurd h (by omega)
  | n + 1, n' + 1, h =>
    have hl := Nat.le_of_succ_le_succ h
    ⟨fun _ => exprBp' (recN_mono hl) hl, blockRaw (recN_mono hl) hl⟩

theorem root_mono {n n' : Nat} (h : n ≤ n') : PLe (Grammar.root n) (Grammar.root n') := by
  unfold Grammar.root rootBlock
  psteps [PLe.blockRaw (recN_mono h) h]

end PLe
end Verif
