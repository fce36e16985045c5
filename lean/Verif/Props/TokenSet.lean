import Verif.Model.TokenSet

/-
C24: token sets are sets.   C25: kinds survive the round trip through raw integers.
-/
namespace Verif

theorem SyntaxKind.toU16_lt (k : SyntaxKind) : k.toU16 < 128 := by
  cases k <;> decide

theorem SyntaxKind.toU16_inj {a b : SyntaxKind} (h : a.toU16 = b.toU16) : a = b := by
  have ha : SyntaxKind.all[a.toU16]? = some a := by cases a <;> rfl
  have hb : SyntaxKind.all[b.toU16]? = some b := by cases b <;> rfl
  rw [h] at ha
  exact Option.some.inj (ha.symm.trans hb)

namespace TokenSet

theorem getLsbD_mask (k : SyntaxKind) (i : Nat) (_hi : i < 128) :
    (mask k).getLsbD i = decide (i = k.toU16) := by
  have hk := k.toU16_lt
  unfold mask
  rw [BitVec.getLsbD_shiftLeft]
  by_cases h : i < k.toU16
  · simp [h]; omega
  · by_cases h2 : i = k.toU16
    · simp [h2, hk]
    · have : i - k.toU16 ≠ 0 := by omega
      simp [h, h2, BitVec.getLsbD_one, this]

theorem contains_eq (s : TokenSet) (k : SyntaxKind) :
    s.contains k = s.bits.getLsbD k.toU16 := by
  have hk := k.toU16_lt
  unfold contains
  cases hb : s.bits.getLsbD k.toU16
  · have : (s.bits &&& mask k) = 0#128 := by
      apply BitVec.eq_of_getLsbD_eq
      intro i hi
      rw [BitVec.getLsbD_and, getLsbD_mask k i hi]
      by_cases h : i = k.toU16
      · simp [h, hb]
      · simp [h]
    simp [this]
  · simp only [bne_iff_ne, ne_eq]
    intro h
    have := congrArg (fun v => BitVec.getLsbD v k.toU16) h
    simp [getLsbD_mask k _ hk, hb] at this

theorem getLsbD_foldl (ks : List SyntaxKind) (acc : BitVec 128) (i : Nat) (hi : i < 128) :
    (ks.foldl (fun res k => res ||| mask k) acc).getLsbD i
      = (acc.getLsbD i || decide (∃ k ∈ ks, i = k.toU16)) := by
  induction ks generalizing acc with
  | nil => simp
  | cons k ks ih =>
    rw [List.foldl_cons, ih, BitVec.getLsbD_or, getLsbD_mask k i hi]
    simp [Bool.or_assoc]

/-- **C24** `TokenSet::new(kinds).contains(kind)` holds exactly for the kinds in the slice. -/
theorem C24_contains_new (ks : List SyntaxKind) (k : SyntaxKind) :
    (TokenSet.new ks).contains k = true ↔ k ∈ ks := by
  rw [contains_eq]
  unfold new
  rw [getLsbD_foldl _ _ _ k.toU16_lt]
  simp only [BitVec.getLsbD_zero, Bool.false_or, decide_eq_true_eq]
  constructor
  · rintro ⟨k', hk', h⟩
    rwa [SyntaxKind.toU16_inj h]
  · intro h
    exact ⟨k, h, rfl⟩

/-- **C24** `union` is set union. -/
theorem C24_contains_union (a b : TokenSet) (k : SyntaxKind) :
    (a.union b).contains k = true ↔ a.contains k = true ∨ b.contains k = true := by
  simp only [contains_eq, union, BitVec.getLsbD_or, Bool.or_eq_true]

/-- **C24** the empty set contains nothing. -/
theorem C24_contains_empty (k : SyntaxKind) : TokenSet.empty.contains k = false := by
  simp [contains_eq, empty]

/-- Sets are determined by their members: two sets built from lists are equal as bit masks
exactly when the lists have the same members (so `==` on token sets is set equality). -/
theorem C24_new_eq_iff (xs ys : List SyntaxKind) :
    TokenSet.new xs = TokenSet.new ys ↔ ∀ k, k ∈ xs ↔ k ∈ ys := by
  constructor
  · intro h k
    rw [← C24_contains_new, ← C24_contains_new, h]
  · intro h
    unfold new
    congr 1
    apply BitVec.eq_of_getLsbD_eq
    intro i hi
    rw [getLsbD_foldl _ _ _ hi, getLsbD_foldl _ _ _ hi]
    simp [h]

example : (TokenSet.new [.eof, .plus, .minus]).contains .plus = true ∧
    (TokenSet.new [.eof, .plus, .minus]).contains .comment = false := by decide

theorem contains_new (ks : List SyntaxKind) (k : SyntaxKind) :
    (TokenSet.new ks).contains k = decide (k ∈ ks) := by
  rw [Bool.eq_iff_iff, C24_contains_new, decide_eq_true_eq]

theorem contains_union (a b : TokenSet) (k : SyntaxKind) :
    (a.union b).contains k = (a.contains k || b.contains k) := by
  rw [Bool.eq_iff_iff, C24_contains_union, Bool.or_eq_true]

end TokenSet

/-- **C25** kind → u16 → kind is the identity (and does not panic). -/
theorem C25_roundtrip (k : SyntaxKind) : SyntaxKind.ofU16 k.toU16 = some k := by
  cases k <;> rfl

theorem SyntaxKind.all_length : SyntaxKind.all.length = SyntaxKind.last.toU16 + 1 := rfl

/-- **C25** every raw value up to `__LAST` converts, without panicking, to a kind with that
number; every larger value panics. -/
theorem C25_raw (d : Nat) :
    (d ≤ SyntaxKind.last.toU16 → ∃ k, SyntaxKind.ofU16 d = some k ∧ k.toU16 = d) ∧
    (SyntaxKind.last.toU16 < d → SyntaxKind.ofU16 d = none) := by
  constructor
  · intro h
    have key : ∀ d : Fin 116, ∃ k, SyntaxKind.ofU16 d = some k ∧ k.toU16 = d := by
      intro ⟨d, hd⟩
      have hl : d < SyntaxKind.all.length := hd
      refine ⟨SyntaxKind.all[d], ?_, ?_⟩
      · have : d ≤ SyntaxKind.last.toU16 := by
          have : SyntaxKind.last.toU16 = 115 := rfl
          omega
        simp [SyntaxKind.ofU16, this]
      · have h2 : ∀ d : Fin 116, (SyntaxKind.all[d.val]'(d.isLt)).toU16 = d.val := by decide
        exact h2 ⟨d, hd⟩
    have h116 : d < 116 := by
      have : SyntaxKind.last.toU16 = 115 := rfl
      omega
    exact key ⟨d, h116⟩
  · intro h
    simp [SyntaxKind.ofU16, Nat.not_le.mpr h]

example : SyntaxKind.ofU16 63 = some .sourceFile ∧ SyntaxKind.ofU16 116 = none := by decide

end Verif
