import Verif.Proof.Fuel
import Verif.Props.Parse

/-
C93: how deep the parser recurses.
-/
set_option linter.unusedSimpArgs false
namespace Verif
open P Grammar PTree Lua

private theorem bind_error {α β : Type} {p : Prog α} {f : α → Prog β} {s e} (h : p.run s = .error e) :
    (p >>= f).run s = .error e := by
  show (p.bind f).run s = _
  rw [run_bind, h]

private theorem bind_ok {α β : Type} {p : Prog α} {f : α → Prog β} {s a s'} (h : p.run s = .ok (a, s')) :
    (p >>= f).run s = (f a).run s' := by
  show (p.bind f).run s = _
  rw [run_bind, h]

private theorem atTs_run {ts s} : (P.atTs ts).run s = .ok (ts.contains (lookahead s.toks 0), s) := rfl
private theorem current_run {s} : P.current.run s = .ok (lookahead s.toks 0, s) := rfl
private theorem start_run {s} : P.start.run s = .ok (s.events.length, { s with events := s.events ++ [Event.tombstone] }) := rfl
private theorem bump_run {k ks ev} (h : k ≠ .eof) :
    (P.bump k).run ⟨k :: ks, ev⟩ = .ok ((), ⟨ks, ev ++ [.token]⟩) := by
  simp [P.bump, P.accept, P.atK, P.current, P.bumpExpect, Bind.bind, Prog.bind, Prog.run, lookahead, h, Pure.pure]

/-- a block of `do`s -/
private theorem do_stmt {r : Rec} {l : Nat} {ts : TokenSet} {rest} (hr : ∀ ev, r.block.run ⟨rest, ev⟩ = .error .fuel)
    (ht : ts.contains .doKw = false) (ev) : (blockRaw r l ts).run ⟨.doKw :: rest, ev⟩ = .error .fuel := by
  unfold blockRaw
  rw [bind_ok start_run]
  refine bind_error ?_
  cases l with
  | zero => rfl
  | succ l =>
    unfold blockLoop
    rw [bind_ok atTs_run]
    simp only [lookahead, List.getD_cons_zero, ht, Bool.not_false, if_true]
    refine bind_error ?_
    unfold stmt
    refine bind_error ?_
    unfold stmtCore
    rw [bind_ok current_run]
    simp only [lookahead, List.getD_cons_zero]
    simp only [show (SyntaxKind.doKw == .ifKw) = false from rfl, show (SyntaxKind.doKw == .doubleColon) = false from rfl,
      show (SyntaxKind.doKw == .gotoKw) = false from rfl, show (SyntaxKind.doKw == .localKw) = false from rfl,
      show (SyntaxKind.doKw == .repeatKw) = false from rfl, show (SyntaxKind.doKw == .functionKw) = false from rfl,
      show (SyntaxKind.doKw == .returnKw) = false from rfl, show (SyntaxKind.doKw == .doKw) = true from rfl,
      Bool.false_eq_true, if_false, if_true]
    refine bind_error ?_
    unfold doStmt
    rw [bind_ok start_run, bind_ok (bump_run (by decide))]
    exact bind_error (hr _)

private theorem do_stack (l : Nat) (rest : List SyntaxKind) : ∀ d ev,
    (stackRec l d).block.run ⟨List.replicate d .doKw ++ rest, ev⟩ = .error .fuel
  | 0, _ => rfl
  | d + 1, ev => by
    rw [List.replicate_succ, List.cons_append]
    exact do_stmt (do_stack l rest d) (by decide) ev

/-- **C93**: no bound on the number of nested calls of the parser is enough: more blocks inside each other than there is
room for calls overflow the stack, however the file goes on. -/
theorem C93_overflow (depth loops : Nat) (rest : List SyntaxKind) :
    parseWithin depth loops (List.replicate (depth + 1) .doKw ++ rest) = .error .fuel := by
  unfold parseWithin
  have : ((do
      let m ← P.start
      blockRaw (stackRec loops depth) loops ROOT_END
      let _ ← P.complete m .sourceFile
      return () : Prog Unit)).run { toks := List.replicate (depth + 1) .doKw ++ rest, events := [] } = .error .fuel := by
    rw [bind_ok start_run, List.replicate_succ, List.cons_append]
    exact bind_error (do_stmt (do_stack loops rest depth) (by decide) _)
  rw [this]

/-- **C93**: a file of `n` tokens never needs more than `2 * n + 3` nested calls: with that room (or more) the parser does
what it does on a stack without bound. -/
theorem C93_enough (toks : List SyntaxKind) (h : SyntaxKind.eof ∉ toks) (depth loops : Nat)
    (hd : 2 * toks.length + 3 ≤ depth) (hl : 2 * toks.length + 3 ≤ loops) :
    parseWithin depth loops toks = parseKinds toks := by
  obtain ⟨ts, h1, -⟩ := parseKinds_main toks h
  unfold parseKinds at h1 ⊢
  cases hr : (Grammar.root (2 * toks.length + 3)).run { toks := toks, events := [] } with
  | error e => rw [hr] at h1; simp at h1
  | ok x =>
    have hle : PLe.RLe (recN (2 * toks.length + 3)) (stackRec loops depth) :=
      have a := PLe.recN hl
      have b := PLe.stack (l := loops) hd (Nat.le_refl _)
      ⟨fun n s r h => b.exprBp n s r (a.exprBp n s r h), fun s r h => b.block s r (a.block s r h)⟩
    have : PLe (Grammar.root (2 * toks.length + 3)) (do
        let m ← P.start
        blockRaw (stackRec loops depth) loops ROOT_END
        let _ ← P.complete m .sourceFile
        return () : Prog Unit) := by
      unfold Grammar.root rootBlock
      psteps [PLe.blockRaw hle hl]
    unfold parseWithin
    rw [this _ _ hr]

/-- `do`s inside each other -/
private def doTree : Nat → List PTree
  | 0 => []
  | n + 1 => [.node .doStmt [.tok .doKw, .node .block (doTree n), .tok .endKw]]

private theorem doTree_deriv (x : Dialect) : ∀ n, Deriv x .stmts (doTree n)
  | 0 => .stmtsNil
  | n + 1 => .stmtsCons _ _ (.doStmt _ (.block _ (doTree_deriv x n))) .stmtsNil (by simp [yieldL])

private theorem doTree_yield : ∀ n, yieldL (doTree n) = List.replicate n .doKw ++ List.replicate n .endKw
  | 0 => rfl
  | n + 1 => by
    have e : List.replicate (n + 1) SyntaxKind.endKw = List.replicate n .endKw ++ [.endKw] := List.replicate_succ'
    simp [doTree, yieldL, PTree.yield, doTree_yield n, e, List.replicate_succ (a := SyntaxKind.doKw)]

/-- **C93**: so for every stack there is a valid Lua program, `2 * (depth + 1)` tokens long, that overflows it, although
the parser finds nothing wrong with it on a larger one. -/
theorem C93_valid_program_overflows (depth loops : Nat) :
    let toks := List.replicate (depth + 1) SyntaxKind.doKw ++ List.replicate (depth + 1) .endKw
    (∃ t, Program .documented t ∧ yield t = toks) ∧
      (∃ cs, parseKinds toks = .ok cs ∧ errorsOf cs = []) ∧ parseWithin depth loops toks = .error .fuel := by
  have hy : yield (.node .sourceFile [.node .block (doTree (depth + 1))]) =
      List.replicate (depth + 1) SyntaxKind.doKw ++ List.replicate (depth + 1) .endKw := by
    simp only [PTree.yield, yieldL, doTree_yield, List.append_nil]
  have hp : ∀ x, Program x (.node .sourceFile [.node .block (doTree (depth + 1))]) :=
    fun x => ⟨_, rfl, .block _ (doTree_deriv x _)⟩
  refine ⟨⟨_, hp _, hy⟩, ?_, C93_overflow depth loops _⟩
  rw [← hy]
  exact ⟨_, parseKinds_complete (hp _), by rw [errorsOf_calls]; exact program_errors (hp .accepted)⟩

/-! ### examples -/

/-- `do do end end`: two calls are enough, one is not -/
example : parseWithin 1 9 [.doKw, .doKw, .endKw, .endKw] = .error .fuel := C93_overflow 1 9 [.endKw, .endKw]
example : (parseWithin 11 11 [.doKw, .doKw, .endKw, .endKw]) = parseKinds [.doKw, .doKw, .endKw, .endKw] :=
  C93_enough _ (by decide) 11 11 (by decide) (by decide)

end Verif
