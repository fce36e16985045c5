import Verif.Model.Ast
import Verif.Proof.Productions

/-
The accessors only depend on the parts of a node.
-/
namespace Verif
open Spec

theorem child_parts (can : SyntaxKind → Bool) (r : Red) :
    Ast.child can r = (parts r).find? fun e => e.green.isNode && can e.kind := by
  simp only [Ast.child, Red.children, parts]
  rw [List.find?_filter, List.find?_filter]
  congr 1
  funext e
  cases e.green.isNode <;> simp

theorem children_parts (can : SyntaxKind → Bool) (r : Red) :
    Ast.children can r = (parts r).filter fun e => e.green.isNode && can e.kind := by
  simp only [Ast.children, Red.children, parts, List.filter_filter]
  congr 1
  funext e
  cases e.green.isNode <;> simp

theorem token_parts (k : SyntaxKind) (hk : k.isTrivia = false) (r : Red) :
    Ast.token k r = (parts r).find? fun e => !e.green.isNode && e.kind == k := by
  simp only [Ast.token, parts]
  rw [List.find?_filter]
  congr 1
  funext e
  by_cases h : e.kind = k
  · rw [h, hk]; simp
  · simp [h]

theorem sym_tok {r : Red} {k : SyntaxKind} : sym r = .tok k ↔ r.green.isNode = false ∧ r.kind = k := by
  simp only [sym]
  cases r.green.isNode <;> simp

theorem sym_node {r : Red} {k : SyntaxKind} : sym r = .node k ↔ r.green.isNode = true ∧ r.kind = k := by
  simp only [sym]
  cases r.green.isNode <;> simp

/-- Production of a node of a known kind. -/
theorem production {text : Text} {k : SyntaxKind} {r : Red} (h : NodeOf text k r) :
    ∃ ss, (parts r).map sym = ss ∧ Production k ss := by
  obtain ⟨tree, h, hr, hk⟩ := h
  exact ⟨_, rfl, hk ▸ productions text tree h r hr⟩

/-! ### lists of parts -/

theorem map1 {l : List Red} {a : Sym} (h : l.map sym = [a]) : ∃ x, l = [x] ∧ sym x = a := by
  rcases l with _ | ⟨x, _ | ⟨y, l⟩⟩ <;> simp at h
  exact ⟨x, rfl, h⟩

theorem mapCons {l : List Red} {a : Sym} {as : List Sym} (h : l.map sym = a :: as) :
    ∃ x xs, l = x :: xs ∧ sym x = a ∧ xs.map sym = as := by
  rcases l with _ | ⟨x, l⟩ <;> simp at h
  exact ⟨x, l, rfl, h⟩

theorem map2 {l : List Red} {a b : Sym} (h : l.map sym = [a, b]) :
    ∃ x y, l = [x, y] ∧ sym x = a ∧ sym y = b := by
  obtain ⟨x, xs, rfl, h1, h⟩ := mapCons h
  obtain ⟨y, rfl, h2⟩ := map1 h
  exact ⟨x, y, rfl, h1, h2⟩

theorem map3 {l : List Red} {a b c : Sym} (h : l.map sym = [a, b, c]) :
    ∃ x y z, l = [x, y, z] ∧ sym x = a ∧ sym y = b ∧ sym z = c := by
  obtain ⟨x, xs, rfl, h1, h⟩ := mapCons h
  obtain ⟨y, z, rfl, h2⟩ := map2 h
  exact ⟨x, y, z, rfl, h1, h2⟩

theorem map4 {l : List Red} {a b c d : Sym} (h : l.map sym = [a, b, c, d]) :
    ∃ x y z u, l = [x, y, z, u] ∧ sym x = a ∧ sym y = b ∧ sym z = c ∧ sym u = d := by
  obtain ⟨x, xs, rfl, h1, h⟩ := mapCons h
  obtain ⟨y, z, u, rfl, h2⟩ := map3 h
  exact ⟨x, y, z, u, rfl, h1, h2⟩

theorem map5 {l : List Red} {a b c d e : Sym} (h : l.map sym = [a, b, c, d, e]) :
    ∃ x y z u v, l = [x, y, z, u, v] ∧ sym x = a ∧ sym y = b ∧ sym z = c ∧ sym u = d ∧ sym v = e := by
  obtain ⟨x, xs, rfl, h1, h⟩ := mapCons h
  obtain ⟨y, z, u, v, rfl, h2⟩ := map4 h
  exact ⟨x, y, z, u, v, rfl, h1, h2⟩

theorem map6 {l : List Red} {a b c d e f : Sym} (h : l.map sym = [a, b, c, d, e, f]) :
    ∃ x y z u v w, l = [x, y, z, u, v, w] ∧ sym x = a ∧ sym y = b ∧ sym z = c ∧ sym u = d ∧ sym v = e ∧ sym w = f := by
  obtain ⟨x, xs, rfl, h1, h⟩ := mapCons h
  obtain ⟨y, z, u, v, w, rfl, h2⟩ := map5 h
  exact ⟨x, y, z, u, v, w, rfl, h1, h2⟩

/-! ### expressions are nothing else -/

theorem expr_can {k : SyntaxKind} (h : k ∈ exprKinds) (hp : k ≠ .parenExpr) : Ast.Can.expr k = true := by
  revert k; decide

theorem expr_ne {k : SyntaxKind} (h : k ∈ exprKinds) : k ≠ .block ∧ k ≠ .elseBranch ∧ k ≠ .elseIfBranch ∧ k ≠ .callArgs ∧
    k ≠ .index ∧ k ≠ .multivalExpr ∧ k ≠ .multiName ∧ k ≠ .name := by
  revert k; decide

@[simp] theorem can_paren : Ast.Can.expr .parenExpr = false := rfl
@[simp] theorem can_block : Ast.Can.expr .block = false := rfl
@[simp] theorem can_index : Ast.Can.expr .index = false := rfl
@[simp] theorem can_callArgs : Ast.Can.expr .callArgs = false := rfl
@[simp] theorem can_nameRef : Ast.Can.expr .nameRef = true := rfl
@[simp] theorem can_tableKey : Ast.Can.expr .tableKey = false := rfl
@[simp] theorem can_multiName : Ast.Can.expr .multiName = false := rfl
@[simp] theorem can_multival : Ast.Can.expr .multivalExpr = false := rfl
@[simp] theorem can_elseBranch : Ast.Can.expr .elseBranch = false := rfl
@[simp] theorem can_elseIfBranch : Ast.Can.expr .elseIfBranch = false := rfl

/-- Evaluates accessors on known parts. -/
macro "ast_simp" "[" ls:Lean.Parser.Tactic.simpLemma,* "]" : tactic =>
  `(tactic| simp (decide := true) [token_parts, child_parts, children_parts, expr_can, expr_ne, $ls,*])

end Verif
