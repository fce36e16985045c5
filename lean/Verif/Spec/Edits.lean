import Verif.Model.TextEdit
import Verif.Spec.TreeShape

/-
What it means to replace several ranges of a text at once.
-/
namespace Verif

/-- A piece of a text under edit: some text that is kept, then some text that is deleted, replaced by the
inserted text. -/
structure Cut where
  kept : Text
  deleted : Text
  inserted : Text

namespace Cut

/-- The text before the edit: kept and deleted pieces, then a last kept piece. -/
def old : List Cut → Text → Text
  | [], tail => tail
  | c :: cs, tail => c.kept ++ c.deleted ++ old cs tail

/-- The text after the edit: kept and inserted pieces. -/
def new : List Cut → Text → Text
  | [], tail => tail
  | c :: cs, tail => c.kept ++ c.inserted ++ new cs tail

/-- The replacements, as ranges of the old text, the first piece starting at `pos`. -/
def edits : Nat → List Cut → List Indel
  | _, [] => []
  | pos, c :: cs =>
    ⟨c.inserted, ⟨pos + c.kept.len, pos + c.kept.len + c.deleted.len⟩⟩ ::
      edits (pos + c.kept.len + c.deleted.len) cs

end Cut

/-- Two replacements do not overlap. -/
def Indel.Disjoint (a b : Indel) : Prop := a.delete.stop ≤ b.delete.start ∨ b.delete.stop ≤ a.delete.start

/-- A replacement of a proper range. -/
def Indel.Wf (i : Indel) : Prop := i.delete.start ≤ i.delete.stop

/-- `new` is `old` with the replacements `edits` carried out simultaneously: cut `old` at the (ordered)
ranges and exchange the deleted pieces for the inserted ones. -/
def Replaces (old : Text) (edits : List Indel) (new : Text) : Prop :=
  ∃ cuts tail, old = Cut.old cuts tail ∧ edits = Cut.edits 0 cuts ∧ new = Cut.new cuts tail

end Verif
