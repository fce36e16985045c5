import Verif.Model.Text

namespace Verif
namespace Text

@[simp] theorem len_nil : len [] = 0 := rfl
@[simp] theorem len_cons (c : Char) (cs : Text) : len (c :: cs) = c.utf8Size + len cs := rfl

@[simp] theorem len_append (a b : Text) : len (a ++ b) = len a + len b := by
  induction a with
  | nil => simp
  | cons c cs ih => simp [ih]; omega

theorem utf8Size_pos (c : Char) : 0 < c.utf8Size := Char.utf8Size_pos c

theorem len_pos {s : Text} (h : s ≠ []) : 0 < len s := by
  cases s with
  | nil => exact absurd rfl h
  | cons c cs => have := utf8Size_pos c; simp; omega

theorem len_eq_zero {s : Text} : len s = 0 ↔ s = [] := by
  constructor
  · intro h
    cases s with
    | nil => rfl
    | cons c cs => have := utf8Size_pos c; simp at h; omega
  · rintro rfl; rfl

theorem split_append (a b : Text) : split (len a) (a ++ b) = some (a, b) := by
  induction a with
  | nil => cases b <;> simp [split]
  | cons c cs ih =>
    have := utf8Size_pos c
    have h : ¬ (c.utf8Size + len cs = 0) := by omega
    simp only [len_cons, List.cons_append, split, h, if_false, Nat.le_add_right, if_true]
    rw [Nat.add_sub_cancel_left, ih]
    rfl

theorem split_eq_some {n : Nat} {s a b : Text} : split n s = some (a, b) ↔ s = a ++ b ∧ len a = n := by
  constructor
  · intro h
    induction s generalizing n a b with
    | nil =>
      simp only [split] at h
      split at h
      · rename_i h0; simp at h; obtain ⟨rfl, rfl⟩ := h; simp [h0]
      · simp at h
    | cons c cs ih =>
      simp only [split] at h
      split at h
      · rename_i h0; simp at h; obtain ⟨rfl, rfl⟩ := h; simp [h0]
      · split at h
        · cases e : split (n - c.utf8Size) cs with
          | none => simp [e] at h
          | some p =>
            obtain ⟨a', b'⟩ := p
            simp [e] at h
            obtain ⟨rfl, rfl⟩ := h
            obtain ⟨h1, h2⟩ := ih e
            refine ⟨by rw [h1]; rfl, ?_⟩
            rw [len_cons, h2]; omega
        · simp at h
  · rintro ⟨rfl, rfl⟩; exact split_append a b

theorem sliceFrom_append (a b : Text) : sliceFrom (len a) (a ++ b) = some b := by
  simp [sliceFrom, split_append]

theorem sliceTo_append (a b : Text) : sliceTo (len a) (a ++ b) = some a := by
  simp [sliceTo, split_append]

theorem slice_append (a b c : Text) : slice (len a) (len a + len b) (a ++ b ++ c) = some b := by
  have := sliceTo_append (a ++ b) c
  rw [len_append] at this
  rw [slice, if_pos (Nat.le_add_right _ _), this]
  simp [sliceFrom_append]

/-- A text is determined by where it splits. -/
theorem append_inj_len {a b c d : Text} (h : a ++ b = c ++ d) (hl : len a = len c) : a = c ∧ b = d := by
  have h1 := split_append a b
  have h2 := split_append c d
  rw [← h, ← hl, h1] at h2
  simpa using h2

end Text
end Verif
