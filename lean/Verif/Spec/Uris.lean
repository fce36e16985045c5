import Verif.Spec.PathSpec

/-
How a URI spells the bytes of a path (RFC 3986, 2.1), and which spelling is the one programs should write.
-/
namespace Verif.Spec

/-- The value of a hexadecimal digit, in either case. -/
def digitValue (c : Char) : Option Nat :=
  ("0123456789abcdef".toList.idxOf? c).or ("0123456789ABCDEF".toList.idxOf? c)

/-- Two hexadecimal digits at the front of a text are the number `n`. -/
def StartsWithByte (s : Text) (n : Nat) : Prop :=
  ∃ h l a b rest, s = h :: l :: rest ∧ digitValue h = some a ∧ digitValue l = some b ∧ n = 16 * a + b

/-- `Spells s b`: reading the spelling `s`, one gets the bytes `b`. -/
inductive Spells : Text → Text → Prop
  | nil : Spells [] []
  | coded {h l rest n b} : StartsWithByte (h :: l :: rest) n → Spells rest b →
      Spells ('%' :: h :: l :: rest) (Char.ofNat n :: b)
  | plain {c rest b} : (c = '%' → ¬∃ n, StartsWithByte rest n) → Spells rest b → Spells (c :: rest) (c :: b)

/-- The bytes that must be coded within a name: controls, what is not ASCII, and these. -/
def Reserved (c : Char) : Prop := c.toNat < 32 ∨ 127 ≤ c.toNat ∨ c ∈ " \"#%/<>?`{}".toList

/-- `Written n s`: the spelling `s` of a name `n` that codes exactly the reserved bytes, in upper case. -/
inductive Written : Text → Text → Prop
  | nil : Written [] []
  | plain {c n s} : ¬Reserved c → Written n s → Written (c :: n) (c :: s)
  | coded {c n s h l} : Reserved c → "0123456789ABCDEF".toList[c.toNat / 16]? = some h →
      "0123456789ABCDEF".toList[c.toNat % 16]? = some l → Written n s → Written (c :: n) ('%' :: h :: l :: s)

/-- `WrittenPath names s`: the spelling of a path with these names: each after a `/`. -/
inductive WrittenPath : List Text → Text → Prop
  | root : WrittenPath [] ['/']
  | one {n s} : Written n s → WrittenPath [n] ('/' :: s)
  | more {n s m ns t} : Written n s → WrittenPath (m :: ns) t → WrittenPath (n :: m :: ns) ('/' :: s ++ t)

/-- The path ends in what could be a drive of Windows: a letter and `:` or `|`, not at the very front. -/
def EndsLikeDrive (b : Text) : Prop :=
  ∃ front x c, front ≠ [] ∧ b = front ++ [x, c] ∧
    x ∈ "abcdefghijklmnopqrstuvwxyzABCDEFGHIJKLMNOPQRSTUVWXYZ".toList ∧ (c = ':' ∨ c = '|')

end Verif.Spec
