import Verif.Proof.GrammarSpec

/-
The binding powers computed by the code order the operators as the levels of the specification do.
-/
namespace Verif
open PTree Lua

def infixOps : List SyntaxKind :=
  [.orKw, .andKw, .lt, .gt, .ltEq, .gtEq, .notEq, .eqEq, .doubleDot, .plus, .minus, .asterisk,
   .slash, .modulo, .caret]

theorem mem_infixOps_of_level {k : SyntaxKind} (h : level k ≠ 0) : k ∈ infixOps := by
  revert h; cases k <;> decide

theorem mem_infixOps_of_ibp1 {k : SyntaxKind} (h : 0 < (ibp k).1) : k ∈ infixOps := by
  revert h; cases k <;> decide

theorem mem_infixOps_of_ibp2 {k : SyntaxKind} (h : 0 < (ibp k).2) : k ∈ infixOps := by
  revert h; cases k <;> decide

theorem isBinary_of_mem {k : SyntaxKind} (h : k ∈ infixOps) : isBinary k := by
  revert k; unfold isBinary; decide

theorem prefix_pos_iff (k : SyntaxKind) : 0 < prefixBindingPower k ↔ k ∈ unaryOps := by
  cases k <;> decide

theorem ibp_pos_of_mem {k : SyntaxKind} (h : k ∈ infixOps) : 0 < (ibp k).1 ∧ 0 < (ibp k).2 := by
  revert k; decide

theorem ibp_eof : ibp .eof = (0, 0) := by decide

theorem infix_lt (q p : SyntaxKind) (hq : isBinary q) (h : (ibp q).1 < (ibp p).2) :
    level q < level p ∨ (level q = level p ∧ rightAssoc q = false) := by
  have key : ∀ q ∈ infixOps, ∀ p ∈ infixOps, (ibp q).1 < (ibp p).2 →
    level q < level p ∨ (level q = level p ∧ rightAssoc q = false) := by decide
  exact key q (mem_infixOps_of_level hq) p (mem_infixOps_of_ibp2 (by omega)) h

theorem ibp_zero {q : SyntaxKind} (hq : ¬ isBinary q) : (ibp q).1 = 0 := by
  have := mt (mem_infixOps_of_ibp1 (k := q)) (fun h => hq (isBinary_of_mem h))
  omega

theorem infix_lt_conv (q p : SyntaxKind) (hp : isBinary p)
    (h : level q < level p ∨ (level q = level p ∧ rightAssoc q = false)) :
    (ibp q).1 < (ibp p).2 := by
  have hp := mem_infixOps_of_level hp
  by_cases hq : isBinary q
  · have key : ∀ q ∈ infixOps, ∀ p ∈ infixOps,
      level q < level p ∨ (level q = level p ∧ rightAssoc q = false) → (ibp q).1 < (ibp p).2 := by
      decide
    exact key q (mem_infixOps_of_level hq) p hp h
  · have := ibp_pos_of_mem hp
    have := ibp_zero hq
    omega

theorem prefix_lt (q p : SyntaxKind) (hq : isBinary q) (h : (ibp q).1 < prefixBindingPower p) :
    level q < unaryLevel := by
  have key : ∀ q ∈ infixOps, ∀ p ∈ unaryOps, (ibp q).1 < prefixBindingPower p →
    level q < unaryLevel := by decide
  exact key q (mem_infixOps_of_level hq) p ((prefix_pos_iff p).1 (by omega)) h

theorem prefix_lt_conv (q p : SyntaxKind) (hp : p ∈ unaryOps) (h : level q < unaryLevel) :
    (ibp q).1 < prefixBindingPower p := by
  by_cases hq : isBinary q
  · have key : ∀ q ∈ infixOps, ∀ p ∈ unaryOps, level q < unaryLevel →
      (ibp q).1 < prefixBindingPower p := by decide
    exact key q (mem_infixOps_of_level hq) p hp h
  · have := (prefix_pos_iff p).2 hp
    have := ibp_zero hq
    omega

theorem infix_le (q p : SyntaxKind) (hp : isBinary p) (h : (ibp p).2 ≤ (ibp q).1) :
    level p < level q ∨ (level p = level q ∧ rightAssoc p = true) := by
  have key : ∀ q ∈ infixOps, ∀ p ∈ infixOps, (ibp p).2 ≤ (ibp q).1 →
    level p < level q ∨ (level p = level q ∧ rightAssoc p = true) := by decide
  have hp := mem_infixOps_of_level hp
  have := ibp_pos_of_mem hp
  exact key q (mem_infixOps_of_ibp1 (by omega)) p hp h

theorem infix_le_conv (q p : SyntaxKind) (hp : isBinary p)
    (h : level p < level q ∨ (level p = level q ∧ rightAssoc p = true)) :
    (ibp p).2 ≤ (ibp q).1 := by
  have key : ∀ q ∈ infixOps, ∀ p ∈ infixOps,
    level p < level q ∨ (level p = level q ∧ rightAssoc p = true) → (ibp p).2 ≤ (ibp q).1 := by decide
  exact key q (mem_infixOps_of_level (by unfold isBinary at hp; omega)) p (mem_infixOps_of_level hp) h

theorem prefix_le (q p : SyntaxKind) (hp : p ∈ unaryOps) (h : prefixBindingPower p ≤ (ibp q).1) :
    unaryLevel < level q := by
  have key : ∀ q ∈ infixOps, ∀ p ∈ unaryOps, prefixBindingPower p ≤ (ibp q).1 →
    unaryLevel < level q := by decide
  have := (prefix_pos_iff p).2 hp
  exact key q (mem_infixOps_of_ibp1 (by omega)) p hp h

theorem prefix_le_conv (q p : SyntaxKind) (hp : p ∈ unaryOps) (h : unaryLevel < level q) :
    prefixBindingPower p ≤ (ibp q).1 := by
  have key : ∀ q ∈ infixOps, ∀ p ∈ unaryOps, unaryLevel < level q →
    prefixBindingPower p ≤ (ibp q).1 := by decide
  exact key q (mem_infixOps_of_level (by omega)) p hp h

/-- right-edge operators: binding powers to levels -/
theorem rightPows_levels (q : SyntaxKind) (hq : isBinary q) (t : PTree)
    (h : ∀ p ∈ rightPows t, (ibp q).1 < p) :
    ∀ p ∈ rightLevels t, level q < p ∨ (level q = p ∧ rightAssoc q = false) := by
  induction t using rightLevels.induct with
  | case1 l op r ih =>
    simp only [rightPows, rightLevels, List.mem_cons, forall_eq_or_imp] at h ⊢
    exact ⟨infix_lt q op hq h.1, ih h.2⟩
  | case2 op e ih =>
    simp only [rightPows, rightLevels, List.mem_cons, forall_eq_or_imp] at h ⊢
    exact ⟨Or.inl (prefix_lt q op hq h.1), ih h.2⟩
  | case3 t h1 h2 =>
    intro p hp
    rw [rightLevels] at hp
    · simp at hp
    · exact h1
    · exact h2

end Verif
