import Verif.Model.Text

/-
Model of crates/text_edit/src/lib.rs.  `none` is a panic (failed assertion, slice out of range or off a
character boundary, integer underflow).
-/
namespace Verif

/-- lib.rs:11-16, `Indel`.  A `TextRange` always has `start ≤ end` (`Indel.wf`). -/
structure Indel where
  insert : Text
  delete : Range
  deriving DecidableEq, Repr

namespace Indel

/-- lib.rs:39-43, `Indel::apply`: `String::replace_range`. -/
def apply (i : Indel) (text : Text) : Option Text :=
  if i.delete.start ≤ i.delete.stop then
    match text.sliceTo i.delete.start, text.sliceFrom i.delete.stop with
    | some a, some b => some (a ++ i.insert ++ b)
    | _, _ => none
  else none

/-- lib.rs:45-47, `Indel::offset`. -/
def offset (i : Indel) : Option Nat :=
  if i.delete.stop - i.delete.start ≤ i.insert.len then
    some (i.insert.len - (i.delete.stop - i.delete.start)) else none

/-- lib.rs:194, the sort key `(start, end)`, compared lexicographically. -/
def le (a b : Indel) : Bool :=
  a.delete.start < b.delete.start || (a.delete.start == b.delete.start && a.delete.stop ≤ b.delete.stop)

end Indel

namespace TextEdit

/-- Insert into a sorted list after all elements that are not greater. -/
def sortedInsert (x : Indel) : List Indel → List Indel
  | [] => [x]
  | y :: ys => if y.le x then y :: sortedInsert x ys else x :: y :: ys

/-- std, `slice::sort_by_key` as used in lib.rs:194: the stable sort by `(start, end)`. -/
def sort (l : List Indel) : List Indel := l.foldl (fun acc x => sortedInsert x acc) []

/-- lib.rs:195-198: `zip` with the tail, `all`. -/
def adjacent : List Indel → Bool
  | l :: r :: rest => l.delete.stop ≤ r.delete.start && adjacent (r :: rest)
  | _ => true

/-- lib.rs:193-199, `check_disjoint`: sorts in place; returns the sorted list and the verdict. -/
def checkDisjoint (l : List Indel) : List Indel × Bool := (sort l, adjacent (sort l))

/-- lib.rs:190-192, `assert_disjoint`. -/
def assertDisjoint (l : List Indel) : Option (List Indel) :=
  if (checkDisjoint l).2 then some (checkDisjoint l).1 else none

/-- lib.rs:182-187, `TextEditBuilder::indel` (reached by `replace`, `delete`, `insert`, 165-173). -/
def builderIndel (l : List Indel) (i : Indel) : Option (List Indel) :=
  if (l ++ [i]).length ≤ 16 then assertDisjoint (l ++ [i]) else some (l ++ [i])

/-- A sequence of builder calls followed by `finish` (lib.rs:174-178).  A `TextEdit` is its list of
indels. -/
def build (is : List Indel) : Option (List Indel) :=
  (is.foldlM builderIndel []).bind assertDisjoint

/-- lib.rs:95-99, the total length (`none`: underflow). -/
def totalLen (n : Nat) : List Indel → Option Nat
  | [] => some n
  | i :: is =>
    let d := i.delete.stop - i.delete.start
    if d ≤ n + i.insert.len then totalLen (n + i.insert.len - d) is else none

/-- lib.rs:101-111, the copying loop; `prev` is the end of the last deletion. -/
def applyLoop (text : Text) (prev : Nat) (buf : Text) : List Indel → Option Text
  | [] => (text.slice prev text.len).map (buf ++ ·)
  | i :: is =>
    if i.delete.start > prev then
      match text.slice prev i.delete.start with
      | none => none
      | some t => applyLoop text i.delete.stop (buf ++ t ++ i.insert) is
    else applyLoop text i.delete.stop (buf ++ i.insert) is

/-- lib.rs:85-117, `TextEdit::apply`. -/
def apply (indels : List Indel) (text : Text) : Option Text :=
  match indels with
  | [] => some text
  | [i] => i.apply text
  | _ =>
    match totalLen text.len indels, applyLoop text 0 [] indels with
    | some n, some buf => if buf.len = n then some buf else none
    | _, _ => none

/-- lib.rs:119-128, `TextEdit::union`: `none` is a panic, otherwise the edit afterwards and whether it
returned `Ok`. -/
def union (self other : List Indel) : Option (List Indel × Bool) :=
  if (checkDisjoint (self ++ other)).2 then
    (assertDisjoint (self ++ other)).map (·, true)
  else some (self, false)

/-- lib.rs:130-143, `apply_to_offset`; the outer `Option` is a panic (underflow). -/
def applyToOffset (offset : Nat) : Nat → List Indel → Option (Option Nat)
  | res, [] => some (some res)
  | res, i :: is =>
    if i.delete.start ≥ offset then some (some res)
    else if offset < i.delete.stop then some none
    else
      let d := i.delete.stop - i.delete.start
      if d ≤ res + i.insert.len then applyToOffset offset (res + i.insert.len - d) is else none

/-- lib.rs:179-181, `invalidates_offset`. -/
def invalidatesOffset (indels : List Indel) (offset : Nat) : Bool :=
  indels.any fun i => i.delete.start ≤ offset && offset ≤ i.delete.stop

end TextEdit
end Verif
