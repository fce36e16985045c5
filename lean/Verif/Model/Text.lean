import Verif.Model.Parser

/-
Text as a list of Unicode scalar values (`char` in Rust, `Char` in Lean), with UTF-8 byte offsets as in
`str`.  Slicing is partial: `none` is the panic on an offset that is out of range or not on a
character boundary (std, `str::index`).
-/
namespace Verif

abbrev Text := List Char

namespace Text

/-- `str::len`: the number of UTF-8 bytes. -/
def len : Text → Nat
  | [] => 0
  | c :: cs => c.utf8Size + len cs

/-- Split at a byte offset: `(&s[..n], &s[n..])`. -/
def split : Nat → Text → Option (Text × Text)
  | n, [] => if n = 0 then some ([], []) else none
  | n, c :: cs =>
    if n = 0 then some ([], c :: cs)
    else if c.utf8Size ≤ n then
      (split (n - c.utf8Size) cs).map fun (a, b) => (c :: a, b)
    else none

/-- `&s[n..]` -/
def sliceFrom (n : Nat) (cs : Text) : Option Text := (split n cs).map (·.2)
/-- `&s[..n]` -/
def sliceTo (n : Nat) (cs : Text) : Option Text := (split n cs).map (·.1)
/-- `&s[a..b]` -/
def slice (a b : Nat) (cs : Text) : Option Text :=
  if a ≤ b then (sliceTo b cs).bind (sliceFrom a) else none

end Text

/-- text-size `TextRange`: `start ≤ end_`. -/
structure Range where
  start : Nat
  stop : Nat
  deriving DecidableEq, Repr, Inhabited

namespace Range
/-- `TextRange::empty` -/
def empty (n : Nat) : Range := ⟨n, n⟩
/-- `TextRange::up_to` -/
def upTo (n : Nat) : Range := ⟨0, n⟩
/-- `TextRange::at` -/
def ofLen (off len : Nat) : Range := ⟨off, off + len⟩
/-- `TextRange + TextSize` -/
def shift (r : Range) (n : Nat) : Range := ⟨r.start + n, r.stop + n⟩
/-- `TextRange::cover` -/
def cover (a b : Range) : Range := ⟨min a.start b.start, max a.stop b.stop⟩
end Range

end Verif
