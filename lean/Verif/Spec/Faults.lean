import Verif.Spec.Complaints

/-
What the validation of a file reports, whether or not the file has lexical and syntax errors.
-/
namespace Verif.Spec
open Lua

/-- The end of a long string is taken off: `]`, equals signs and `]`, of which the first `]` may be missing. -/
inductive Closing : Text → Text → Prop
  | none {t : Text} : t.getLast? ≠ some ']' → Closing t t
  | full {t : Text} {m : Nat} : Closing (t ++ longClose m) t
  | half {t : Text} {m : Nat} : t.getLast? ≠ some '=' → t.getLast? ≠ some ']' →
      Closing (t ++ (List.replicate m '=' ++ [']'])) t

/-- `Contents w n u`: the string token `w` is taken to contain `u`, starting at the offset `n` of the token.  A quoted
string without a closing quote has no contents.  A long string of level `n` is taken to start after `[`, `n` equals signs
and another `[` even if the latter is missing. -/
inductive Contents : Text → Nat → Text → Prop
  | quoted {d : Char} {u : Text} : d = '\'' ∨ d = '"' → Contents ([d] ++ u ++ [d]) 1 u
  | long {n : Nat} {t u : Text} : Closing t u → Contents (longOpen n ++ t) (2 + n) u
  | halfOpen {n : Nat} {t u : Text} : t.head? ≠ some '[' → t.head? ≠ some '=' → Closing t u →
      Contents ('[' :: (List.replicate n '=' ++ t)) (2 + n) u

/-- The first child of a kind. -/
def FirstChild (k : SyntaxKind) (s m : Red) : Prop :=
  ∃ before after, s.children = before ++ m :: after ∧ m.kind = k ∧ ∀ b ∈ before, b.kind ≠ k

/-- `Fault tree msg range`: what is wrong with an expression statement, an assignment or a string of the tree. -/
inductive Fault (tree : Green) : String → Range → Prop
  | empty {s : Red} : Below (Red.root tree) s → s.kind = .exprStmt → (∀ m ∈ s.children, m.kind ≠ .multivalExpr) →
      Fault tree "Must have an expression" s.range
  | notCall {s m x : Red} : Below (Red.root tree) s → s.kind = .exprStmt → FirstChild .multivalExpr s m → x ∈ m.children →
      x.kind ∈ exprKinds → isCallKind x.kind = false → x.kind ≠ .parenExpr →
      Fault tree "Expression statements can only be call expressions" x.range
  | noCall {s m : Red} : Below (Red.root tree) s → s.kind = .exprStmt → FirstChild .multivalExpr s m →
      (∀ x ∈ m.children, isCallKind x.kind = false) → Fault tree "Expected a call expression" s.range
  | calls {s m : Red} {n : Nat} : Below (Red.root tree) s → s.kind = .exprStmt → FirstChild .multivalExpr s m →
      m.children.countP (fun x => isCallKind x.kind) = n → 2 ≤ n →
      Fault tree ("Expected only one call expression, got " ++ toString n) s.range
  | noLeft {s : Red} : Below (Red.root tree) s → s.kind = .assignStmt → (∀ m ∈ s.children, m.kind ≠ .multivalExpr) →
      Fault tree "Must have at least one expression for the left hand side" s.range
  | noRight {s : Red} : Below (Red.root tree) s → s.kind = .assignStmt →
      s.children.countP (fun m => m.kind == .multivalExpr) = 1 →
      Fault tree "Must have a least one expression for the right hand side" s.range
  | target {s l x : Red} : Below (Red.root tree) s → s.kind = .assignStmt → FirstChild .multivalExpr s l →
      2 ≤ s.children.countP (fun m => m.kind == .multivalExpr) → x ∈ l.children → x.kind ∈ exprKinds →
      x.kind ∉ [SyntaxKind.nameRef, .dotExpr, .indexExpr, .parenExpr] →
      Fault tree "Can only assign name reference or index expression" x.range
  | escape {r t : Red} {off : Nat} {p q : Text} {c : Char} : Below (Red.root tree) r → r.kind = .literal → parts r = [t] →
      t.kind = .str → Contents t.green.text off (p ++ '\\' :: c :: q) → Whole p → c ∉ escapeChars →
      Fault tree "Invalid escape sequence"
        ⟨t.off + off + Text.len p, t.off + off + Text.len p + Text.len ['\\', c]⟩
  | backslash {r t : Red} {off : Nat} {p : Text} : Below (Red.root tree) r → r.kind = .literal → parts r = [t] →
      t.kind = .str → Contents t.green.text off (p ++ ['\\']) → Whole p →
      Fault tree "Invalid escape sequence" ⟨t.off + off + Text.len p, t.off + off + Text.len p + 1⟩

end Verif.Spec
