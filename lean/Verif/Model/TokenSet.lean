import Verif.Model.SyntaxKind

/-
Model of crates/parser/src/token_set.rs.
-/
namespace Verif

/-- crates/parser/src/token_set.rs:22-23, `struct TokenSet(u128)`. -/
structure TokenSet where
  bits : BitVec 128
  deriving DecidableEq, Repr

namespace TokenSet

/-- token_set.rs:58-60, `mask`: `1u128 << (kind as usize)`. -/
def mask (k : SyntaxKind) : BitVec 128 := 1#128 <<< k.toU16

/-- token_set.rs:26, `EMPTY`. -/
def empty : TokenSet := ⟨0#128⟩

/-- token_set.rs:28-36, `TokenSet::new`: the `while` loop or-ing the masks from left to right. -/
def new (ks : List SyntaxKind) : TokenSet :=
  ⟨ks.foldl (fun res k => res ||| mask k) 0#128⟩

/-- token_set.rs:38-40, `union`. -/
def union (a b : TokenSet) : TokenSet := ⟨a.bits ||| b.bits⟩

/-- token_set.rs:42-44, `contains`. -/
def contains (s : TokenSet) (k : SyntaxKind) : Bool := (s.bits &&& mask k) != 0#128

end TokenSet
end Verif
