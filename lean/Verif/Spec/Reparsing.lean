import Verif.Model.Reparse

/-
The three ways of parsing again after an edit, in terms of the old tree and the edit.
-/
namespace Verif.Spec

/-- `w` is the text of the element after the edit. -/
def EditedTo (tree : Green) (edit : Indel) (el : Red) (w : Text) : Prop :=
  ∃ A B, tree.text = A ++ el.green.text ++ B ∧ A.len = el.range.start ∧ edit.apply tree.text = some (A ++ w ++ B)

/-- The edit falls on one token, whitespace, a comment, an identifier or a string; it deletes no line break of whitespace
or of a comment; and the first token of the edited token has the kind it had. -/
structure OnToken (tree : Green) (edit : Indel) (token : Red) (w : Text) : Prop where
  covers : ∃ above, Red.coveringElement tree edit.delete = .ok (token, above)
  isToken : token.green.isNode = false
  kind : token.kind ∈ [SyntaxKind.whitespace, .comment, .ident, .str]
  keepsLines : token.kind = .whitespace ∨ token.kind = .comment →
    ∀ deleted, tree.text.slice edit.delete.start edit.delete.stop = some deleted → '\n' ∉ deleted
  edited : EditedTo tree edit token w
  first : ∃ t ts errors, tokenize w = .ok (t :: ts, errors) ∧ t.kind = token.kind

/-- The innermost block around the edit; its last token after the edit is `end`. -/
structure OnBlock (tree : Green) (edit : Indel) (block : Red) (w : Text) : Prop where
  innermost : ∃ el above, Red.coveringElement tree edit.delete = .ok (el, above) ∧
    (if el.green.isNode then el :: above else above).find? (·.kind == .block) = some block
  edited : EditedTo tree edit block w
  ends : ∃ ts errors t, tokenize w = .ok (ts, errors) ∧ ts.getLast? = some t ∧ t.kind = .endKw

/-- The edit shortens the text, and an old error lies behind the range (and not before it). -/
def ErrorBehind (edit : Indel) (range : Range) (errors : List SyntaxError) : Prop :=
  edit.insert.len < edit.delete.stop - edit.delete.start ∧
    ∃ e ∈ errors, range.start < e.range.stop ∧ range.stop ≤ e.range.start

end Verif.Spec
