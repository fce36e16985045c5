import Verif.Spec.Positions
import Verif.Spec.TreeShape
import Verif.Proof.TextEditProof

namespace Verif

/-! ### Binary search -/
namespace Stdx

theorem partitionLoop_some {σ α : Type} (slice : List α) (pred : σ → α → Bool × σ) :
    ∀ (fuel : Nat) (s : σ) (left right : Nat), left ≤ right → right ≤ slice.length → right - left ≤ fuel →
    ∃ n, partitionLoop slice pred fuel s left right = some n ∧ left ≤ n ∧ n ≤ right := by
  intro fuel
  induction fuel with
  | zero =>
    intro s left right h1 h2 h3
    have : left = right := by omega
    exact ⟨left, by unfold partitionLoop; rw [if_pos this], by omega, by omega⟩
  | succ fuel ih =>
    intro s left right h1 h2 h3
    unfold partitionLoop
    by_cases h : left = right
    · rw [if_pos h]; exact ⟨left, rfl, by omega, by omega⟩
    · rw [if_neg h]
      have hm : left + (right - left) / 2 < slice.length := by omega
      simp only [List.getElem?_eq_getElem hm]
      split
      · obtain ⟨n, h4, h5, h6⟩ := ih (pred s slice[left + (right - left) / 2]).2
          (left + (right - left) / 2 + 1) right (by omega) h2 (by omega)
        exact ⟨n, h4, by omega, h6⟩
      · obtain ⟨n, h4, h5, h6⟩ := ih (pred s slice[left + (right - left) / 2]).2
          left (left + (right - left) / 2) (by omega) (by omega) (by omega)
        exact ⟨n, h4, h5, by omega⟩

theorem partitionLoop_point {α : Type} (slice : List α) (p : α → Bool) (k : Nat)
    (hlt : ∀ i v, slice[i]? = some v → i < k → p v = true)
    (hge : ∀ i v, slice[i]? = some v → k ≤ i → p v = false) :
    ∀ (fuel left right : Nat), left ≤ k → k ≤ right → right ≤ slice.length → right - left ≤ fuel →
    partitionLoop slice (fun _ x => (p x, ())) fuel () left right = some k := by
  intro fuel
  induction fuel with
  | zero =>
    intro left right h1 h2 h3 h4
    unfold partitionLoop
    rw [if_pos (by omega), show left = k by omega]
  | succ fuel ih =>
    intro left right h1 h2 h3 h4
    unfold partitionLoop
    by_cases h : left = right
    · rw [if_pos h, show left = k by omega]
    · rw [if_neg h]
      have hm : left + (right - left) / 2 < slice.length := by omega
      have hv := List.getElem?_eq_getElem hm
      simp only [hv]
      by_cases hk : left + (right - left) / 2 < k
      · rw [if_pos (hlt _ _ hv hk)]
        exact ih _ _ (by omega) h2 h3 (by omega)
      · rw [if_neg (by rw [hge _ _ hv (by omega)]; simp)]
        exact ih _ _ h1 (by omega) (by omega) (by omega)

theorem partitionPoint_append {α : Type} (l m : List α) (p : α → Bool) (hl : ∀ x ∈ l, p x = true)
    (hm : ∀ x ∈ m, p x = false) : partitionPoint (l ++ m) p = some l.length := by
  unfold partitionPoint partitionPointM
  refine partitionLoop_point (l ++ m) p l.length ?_ ?_ _ _ _ (by omega) (by simp) (by omega) (by omega)
  · intro i v h hi
    rw [List.getElem?_append_left hi] at h
    exact hl v (List.mem_of_getElem? h)
  · intro i v h hi
    rw [List.getElem?_append_right hi] at h
    exact hm v (List.mem_of_getElem? h)

end Stdx

/-! ### Characters -/

/-- The number of UTF-16 code units of a character. -/
def u16 (c : Char) : Nat := if c.val ≤ 0xFFFF then 1 else 2

theorem utf16Len_cons (c : Char) (cs : Text) : Text.utf16Len (c :: cs) = u16 c + Text.utf16Len cs := rfl

theorem utf16Len_append (a b : Text) : Text.utf16Len (a ++ b) = Text.utf16Len a + Text.utf16Len b := by
  induction a with
  | nil => simp [Text.utf16Len]
  | cons c cs ih => rw [List.cons_append, utf16Len_cons, utf16Len_cons, ih]; omega

theorem u16_pos (c : Char) : 1 ≤ u16 c := by unfold u16; split <;> omega

theorem size_ascii {c : Char} (h : c.val < 128) : c.utf8Size = 1 ∧ u16 c = 1 := by
  have h' : c.val.toNat < 128 := UInt32.lt_iff_toNat_lt.mp h
  constructor
  · unfold Char.utf8Size
    simp only [UInt32.le_iff_toNat_le]
    rw [if_pos (show c.val.toNat ≤ (UInt32.ofNatLT 127 _).toNat from Nat.le_of_lt_succ h')]
  · unfold u16
    rw [if_pos (by rw [UInt32.le_iff_toNat_le]; exact Nat.le_trans (Nat.le_of_lt h') (by decide))]

theorem size_wide (c : Char) (n : Nat) :
    (Utf16Char.mk n (n + c.utf8Size)).len = c.utf8Size ∧ (Utf16Char.mk n (n + c.utf8Size)).lenUtf16 = u16 c ∧
      u16 c ≤ c.utf8Size := by
  have hl : (Utf16Char.mk n (n + c.utf8Size)).len = c.utf8Size := by simp [Utf16Char.len]
  refine ⟨hl, ?_, ?_⟩
  · unfold Utf16Char.lenUtf16
    rw [hl]
    unfold Char.utf8Size u16
    simp only [UInt32.le_iff_toNat_le]
    split
    · rename_i h; rw [if_neg (by omega), if_pos (Nat.le_trans h (by decide))]
    · split
      · rename_i h; rw [if_neg (by omega), if_pos (Nat.le_trans h (by decide))]
      · split
        · rename_i h; rw [if_neg (by omega), if_pos (show c.val.toNat ≤ UInt32.toNat 65535 from h)]
        · rename_i h; rw [if_pos rfl, if_neg (show ¬ c.val.toNat ≤ UInt32.toNat 65535 from h)]
  · unfold u16
    split
    · exact Char.utf8Size_pos c
    · rename_i h
      rw [UInt32.le_iff_toNat_le] at h
      unfold Char.utf8Size
      simp only [UInt32.le_iff_toNat_le]
      rw [if_neg (fun h' => h (Nat.le_trans h' (by decide)))]
      split
      · omega
      · split <;> omega

theorem size_lf : '\n'.utf8Size = 1 := by decide

/-! ### Lines -/
namespace LineIndex

theorem lineFeeds_append (a b : Text) : Text.lineFeeds (a ++ b) = Text.lineFeeds a + Text.lineFeeds b := by
  simp [Text.lineFeeds]

theorem lineFeeds_zero {a : Text} (h : ∀ c ∈ a, c ≠ '\n') : Text.lineFeeds a = 0 := by
  unfold Text.lineFeeds
  rw [List.length_eq_zero_iff, List.filter_eq_nil_iff]
  intro c hc; simpa using h c hc

theorem lastLine_decomp (A : Text) : ∃ P, A = P ++ A.lastLine ∧ (∀ c ∈ A.lastLine, c ≠ '\n') ∧
    (P = [] ∨ ∃ Q, P = Q ++ ['\n']) := by
  refine ⟨(A.reverse.dropWhile (· ≠ '\n')).reverse, ?_, ?_, ?_⟩
  · unfold Text.lastLine
    rw [← List.reverse_append, List.takeWhile_append_dropWhile, List.reverse_reverse]
  · intro c hc
    unfold Text.lastLine at hc
    rw [List.mem_reverse] at hc
    have hall := List.all_takeWhile (p := fun x : Char => decide (x ≠ '\n')) (l := A.reverse)
    rw [List.all_eq_true] at hall
    simpa using hall c hc
  · cases h : A.reverse.dropWhile (· ≠ '\n') with
    | nil => left; rfl
    | cons c cs =>
      right
      have hne : A.reverse.dropWhile (· ≠ '\n') ≠ [] := by rw [h]; simp
      have := List.head_dropWhile_not (p := fun x : Char => decide (x ≠ '\n')) (l := A.reverse) hne
      simp only [h, List.head_cons] at this
      exact ⟨cs.reverse, by rw [List.reverse_cons]; simp at this; rw [this]⟩

theorem takeWhile_all {l : Text} (h : ∀ c ∈ l, c ≠ '\n') (m : Text) :
    (l ++ '\n' :: m).takeWhile (· ≠ '\n') = l := by
  induction l with
  | nil => simp
  | cons c cs ih =>
    rw [List.cons_append, List.takeWhile_cons, if_pos (by simpa using h c (by simp)),
      ih (fun d hd => h d (by simp [hd]))]

theorem lastLine_eq {P L : Text} (hP : P = [] ∨ ∃ Q, P = Q ++ ['\n']) (hL : ∀ c ∈ L, c ≠ '\n') :
    Text.lastLine (P ++ L) = L := by
  unfold Text.lastLine
  rcases hP with rfl | ⟨Q, rfl⟩
  · rw [List.nil_append]
    have key : ∀ l : Text, (∀ c ∈ l, c ≠ '\n') → l.takeWhile (· ≠ '\n') = l := by
      intro l
      induction l with
      | nil => intro _; rfl
      | cons c cs ih =>
        intro h
        rw [List.takeWhile_cons, if_pos (by simpa using h c (by simp)), ih (fun d hd => h d (by simp [hd]))]
    rw [key _ (fun c hc => hL c (List.mem_reverse.mp hc)), List.reverse_reverse]
  · rw [List.reverse_append, List.reverse_append, List.reverse_singleton]
    rw [show (['\n'] ++ Q.reverse) = '\n' :: Q.reverse from rfl]
    rw [takeWhile_all (fun c hc => hL c (List.mem_reverse.mp hc)), List.reverse_reverse]

/-- The offsets after the line feeds of a text starting at `pos`. -/
def nlFrom : Nat → Text → List Nat
  | _, [] => []
  | pos, c :: cs =>
    if c = '\n' then (pos + c.utf8Size) :: nlFrom (pos + c.utf8Size) cs else nlFrom (pos + c.utf8Size) cs

/-- The non-ASCII characters of the `i`-th line of a text whose first line starts at column `col`. -/
def wideAt : Nat → Nat → Text → List Utf16Char
  | _, _, [] => []
  | i, col, c :: cs =>
    if c = '\n' then
      match i with
      | 0 => []
      | i + 1 => wideAt i 0 cs
    else (if i = 0 ∧ ¬ c.val < 128 then [⟨col, col + c.utf8Size⟩] else []) ++ wideAt i (col + c.utf8Size) cs

theorem nlFrom_append (pos : Nat) (a b : Text) : nlFrom pos (a ++ b) = nlFrom pos a ++ nlFrom (pos + a.len) b := by
  induction a generalizing pos with
  | nil => rfl
  | cons c cs ih =>
    simp only [List.cons_append, nlFrom, Text.len_cons]
    rw [ih, show pos + c.utf8Size + Text.len cs = pos + (c.utf8Size + Text.len cs) by omega]
    split <;> rfl

theorem nlFrom_length (pos : Nat) (a : Text) : (nlFrom pos a).length = a.lineFeeds := by
  induction a generalizing pos with
  | nil => rfl
  | cons c cs ih =>
    simp only [nlFrom, Text.lineFeeds, List.filter_cons]
    split
    · rename_i h; rw [List.length_cons, ih]; simp [Text.lineFeeds, h]
    · rename_i h; rw [ih]; simp [Text.lineFeeds, h]

theorem nlFrom_range (pos : Nat) (a : Text) : ∀ n ∈ nlFrom pos a, pos < n ∧ n ≤ pos + a.len := by
  induction a generalizing pos with
  | nil => simp [nlFrom]
  | cons c cs ih =>
    have hp := Text.utf8Size_pos c
    intro n hn
    simp only [nlFrom] at hn
    rw [Text.len_cons]
    split at hn
    · rcases List.mem_cons.mp hn with rfl | hn
      · omega
      · have := ih _ n hn; omega
    · have := ih _ n hn; omega

theorem nlFrom_none {pos : Nat} {a : Text} (h : ∀ c ∈ a, c ≠ '\n') : nlFrom pos a = [] := by
  rw [← List.length_eq_zero_iff, nlFrom_length, lineFeeds_zero h]

theorem wideAt_line {L : Text} (h : ∀ c ∈ L, c ≠ '\n') (col : Nat) (B : Text) :
    wideAt 0 col (L ++ B) = wideAt 0 col L ++ wideAt 0 (col + L.len) B := by
  induction L generalizing col with
  | nil => rfl
  | cons c cs ih =>
    have hc := h c (by simp)
    simp only [List.cons_append, wideAt, if_neg hc, Text.len_cons]
    rw [ih (fun d hd => h d (by simp [hd])), List.append_assoc,
      show col + c.utf8Size + Text.len cs = col + (c.utf8Size + Text.len cs) by omega]

/-- A line before the end of `P` does not depend on what follows. -/
theorem wideAt_before (P : Text) : ∀ (i col : Nat) (X Y : Text), i < P.lineFeeds →
    wideAt i col (P ++ X) = wideAt i col (P ++ Y) := by
  induction P with
  | nil => intro i col X Y h; simp [Text.lineFeeds] at h
  | cons c cs ih =>
    intro i col X Y h
    simp only [List.cons_append, wideAt]
    by_cases hc : c = '\n'
    · rw [if_pos hc, if_pos hc]
      cases i with
      | zero => rfl
      | succ i =>
        refine ih i 0 X Y ?_
        simp [Text.lineFeeds, hc] at h
        simpa [Text.lineFeeds] using h
    · rw [if_neg hc, if_neg hc]
      congr 1
      refine ih i _ X Y ?_
      simpa [Text.lineFeeds, hc] using h

theorem wideAt_after (Q : Text) : ∀ (col : Nat) (X : Text),
    wideAt (Q.lineFeeds + 1) col (Q ++ '\n' :: X) = wideAt 0 0 X := by
  induction Q with
  | nil => intro col X; simp [wideAt, Text.lineFeeds]
  | cons c cs ih =>
    intro col X
    by_cases hc : c = '\n'
    · have : Text.lineFeeds (c :: cs) = Text.lineFeeds cs + 1 := by simp [Text.lineFeeds, hc]
      rw [this]
      simp only [List.cons_append, wideAt, if_pos hc]
      exact ih 0 X
    · have : Text.lineFeeds (c :: cs) = Text.lineFeeds cs := by simp [Text.lineFeeds, hc]
      rw [this]
      simp only [List.cons_append, wideAt, if_neg hc]
      rw [ih]
      simp

theorem wideAt_start {P : Text} (hP : P = [] ∨ ∃ Q, P = Q ++ ['\n']) (X : Text) :
    wideAt P.lineFeeds 0 (P ++ X) = wideAt 0 0 X := by
  rcases hP with rfl | ⟨Q, rfl⟩
  · rfl
  · have : Text.lineFeeds (Q ++ ['\n']) = Text.lineFeeds Q + 1 := by simp [Text.lineFeeds]
    rw [this, List.append_assoc]
    exact wideAt_after Q 0 X

/-! ### The index -/

/-- The non-ASCII characters stored for a line. -/
def get (ul : List (Nat × List Utf16Char)) (l : Nat) : List Utf16Char := (ul.lookup l).getD []

def finish (s : St) : LineIndex :=
  { newlines := s.newlines
    utf16Lines := if s.utf16Chars.isEmpty then s.utf16Lines else (s.line, s.utf16Chars) :: s.utf16Lines }

theorem fold_newlines (cs : Text) : ∀ s : St, (cs.foldl step s).newlines = s.newlines ++ nlFrom s.currRow cs := by
  induction cs with
  | nil => intro s; simp [nlFrom]
  | cons c cs ih =>
    intro s
    rw [List.foldl_cons, ih]
    unfold step
    by_cases hc : c = '\n'
    · simp only [if_pos hc, nlFrom, List.append_assoc, List.singleton_append]
    · simp only [if_neg hc, nlFrom]

theorem get_save (ul : List (Nat × List Utf16Char)) (line : Nat) (chars : List Utf16Char) (l : Nat)
    (h : ul.lookup line = none) :
    get (if chars.isEmpty then ul else (line, chars) :: ul) l = if l = line then chars else get ul l := by
  unfold get
  by_cases hl : l = line
  · subst hl
    cases chars with
    | nil => simp [h]
    | cons x xs => simp
  · rw [if_neg hl]
    cases chars with
    | nil => simp
    | cons x xs => simp [List.lookup_cons, beq_eq_false_iff_ne.mpr hl]

theorem lookup_save (ul : List (Nat × List Utf16Char)) (line : Nat) (chars : List Utf16Char) (l : Nat)
    (hl : l ≠ line) (h : ul.lookup l = none) :
    (if chars.isEmpty then ul else (line, chars) :: ul).lookup l = none := by
  cases chars with
  | nil => simpa using h
  | cons x xs => simp [List.lookup_cons, beq_eq_false_iff_ne.mpr hl, h]

theorem fold_wide (cs : Text) : ∀ s : St, (∀ l, s.line ≤ l → s.utf16Lines.lookup l = none) → ∀ l,
    get (finish (cs.foldl step s)).utf16Lines l =
      if l < s.line then get s.utf16Lines l
      else (if l = s.line then s.utf16Chars else []) ++ wideAt (l - s.line) s.currCol cs := by
  induction cs with
  | nil =>
    intro s hs l
    show get (if s.utf16Chars.isEmpty then s.utf16Lines else (s.line, s.utf16Chars) :: s.utf16Lines) l = _
    rw [get_save _ _ _ _ (hs _ (Nat.le_refl _))]
    by_cases h1 : l < s.line
    · rw [if_neg (by omega), if_pos h1]
    · rw [if_neg h1]
      by_cases h2 : l = s.line
      · rw [if_pos h2, if_pos h2]; simp [wideAt]
      · rw [if_neg h2, if_neg h2, get, hs l (by omega)]; simp [wideAt]
  | cons c cs ih =>
    intro s hs l
    rw [List.foldl_cons]
    by_cases hc : c = '\n'
    · rw [ih]
      · simp only [step, if_pos hc]
        rw [get_save _ _ _ _ (hs _ (Nat.le_refl _))]
        by_cases h1 : l < s.line
        · rw [if_pos (by omega), if_neg (by omega), if_pos h1]
        · rw [if_neg h1]
          by_cases h2 : l = s.line
          · rw [if_pos (by omega), if_pos h2, if_pos h2, h2, Nat.sub_self]
            simp [wideAt, hc]
          · rw [if_neg (by omega), if_neg h2, show l - s.line = (l - (s.line + 1)) + 1 by omega]
            simp [wideAt, hc]
      · intro l' hl'
        simp only [step, if_pos hc] at hl' ⊢
        exact lookup_save _ _ _ _ (by omega) (hs _ (by omega))
    · rw [ih]
      · simp only [step, if_neg hc]
        by_cases h1 : l < s.line
        · rw [if_pos h1, if_pos h1]
        · rw [if_neg h1, if_neg h1]
          simp only [wideAt, if_neg hc]
          by_cases h2 : l = s.line
          · rw [if_pos h2, if_pos h2, h2, Nat.sub_self]
            by_cases h3 : c.val < 128
            · rw [if_pos h3, if_neg (by simp [h3])]; simp
            · rw [if_neg h3, if_pos (by simp [h3])]; simp
          · rw [if_neg h2, if_neg h2, if_neg (by omega)]; simp
      · intro l' hl'
        simp only [step, if_neg hc] at hl' ⊢
        exact hs l' hl'

theorem new_newlines (text : Text) : (new text).newlines = 0 :: nlFrom 0 text := by
  have := fold_newlines text ⟨[0], [], [], 0, 0, 0⟩
  simpa [new] using this

theorem new_wide (text : Text) (l : Nat) : get (new text).utf16Lines l = wideAt l 0 text := by
  have := fold_wide text ⟨[0], [], [], 0, 0, 0⟩ (fun _ _ => rfl) l
  simp only [Nat.not_lt_zero, if_false, Nat.sub_zero] at this
  rw [show (finish (List.foldl step ⟨[0], [], [], 0, 0, 0⟩ text)) = new text from rfl] at this
  rw [this]; split <;> rfl

theorem toUtf16_eq (idx : LineIndex) (lc : LineCol) :
    idx.toUtf16 lc = (utf8Loop lc.col lc.col (get idx.utf16Lines lc.line)).map (⟨lc.line, ·⟩) := by
  unfold toUtf16 get
  cases idx.utf16Lines.lookup lc.line <;> rfl

theorem toUtf8_eq (idx : LineIndex) (lc : LineCol) :
    idx.toUtf8 lc = (utf16Loop lc.col (get idx.utf16Lines lc.line)).map (⟨lc.line, ·⟩) := by
  unfold toUtf8 get
  cases idx.utf16Lines.lookup lc.line <;> rfl

theorem wideAt_zero_ge (B : Text) : ∀ col, wideAt 0 col B = [] ∨
    ∃ x xs, wideAt 0 col B = x :: xs ∧ col ≤ x.start ∧ col < x.stop := by
  induction B with
  | nil => intro col; left; rfl
  | cons c cs ih =>
    intro col
    have hp := Text.utf8Size_pos c
    simp only [wideAt]
    by_cases hc : c = '\n'
    · rw [if_pos hc]; left; rfl
    · rw [if_neg hc]
      by_cases h3 : c.val < 128
      · rw [if_neg (by simp [h3]), List.nil_append]
        rcases ih (col + c.utf8Size) with h | ⟨x, xs, h, h1, h2⟩
        · left; exact h
        · right; exact ⟨x, xs, h, by omega, by omega⟩
      · rw [if_pos (by simp [h3])]
        right; exact ⟨_, _, rfl, by simp, by simp only; omega⟩

theorem utf8Loop_stop (col res : Nat) (B : Text) : utf8Loop col res (wideAt 0 col B) = some res := by
  rcases wideAt_zero_ge B col with h | ⟨x, xs, h, h1, h2⟩
  · rw [h]; rfl
  · rw [h, utf8Loop, if_neg (by omega)]

theorem utf16Loop_stop (col : Nat) (B : Text) : utf16Loop col (wideAt 0 col B) = some col := by
  rcases wideAt_zero_ge B col with h | ⟨x, xs, h, h1, h2⟩
  · rw [h]; rfl
  · rw [h, utf16Loop, if_neg (by omega)]

theorem utf8Loop_line {L : Text} (hL : ∀ c ∈ L, c ≠ '\n') : ∀ (c0 col res : Nat) (rest : List Utf16Char),
    c0 + L.len ≤ col → ∃ d, L.len = Text.utf16Len L + d ∧
      (d ≤ res → utf8Loop col res (wideAt 0 c0 L ++ rest) = utf8Loop col (res - d) rest) := by
  induction L with
  | nil => intro c0 col res rest _; exact ⟨0, rfl, fun _ => rfl⟩
  | cons c cs ih =>
    intro c0 col res rest h
    rw [Text.len_cons] at h
    have hc := hL c (by simp)
    simp only [wideAt, if_neg hc, Text.len_cons, utf16Len_cons]
    have ih' := ih (fun d hd => hL d (by simp [hd])) (c0 + c.utf8Size) col
    by_cases h3 : c.val < 128
    · rw [if_neg (by simp [h3]), List.nil_append]
      obtain ⟨d, h4, h5⟩ := ih' res rest (by omega)
      obtain ⟨e1, e2⟩ := size_ascii h3
      exact ⟨d, by omega, h5⟩
    · rw [if_pos (by simp [h3])]
      obtain ⟨e1, e2, e3⟩ := size_wide c c0
      obtain ⟨d, h4, h5⟩ := ih' (res - (c.utf8Size - u16 c)) rest (by omega)
      refine ⟨d + (c.utf8Size - u16 c), by omega, fun hd => ?_⟩
      simp only [List.cons_append, List.nil_append, utf8Loop]
      rw [if_pos (by omega), e1, e2, if_pos ⟨e3, by omega⟩, h5 (by omega)]
      congr 1; omega

theorem utf16Loop_line {L : Text} (hL : ∀ c ∈ L, c ≠ '\n') : ∀ (c0 : Nat) (rest : List Utf16Char),
    utf16Loop (c0 + Text.utf16Len L) (wideAt 0 c0 L ++ rest) = utf16Loop (c0 + L.len) rest := by
  induction L with
  | nil => intro c0 rest; rfl
  | cons c cs ih =>
    intro c0 rest
    have hc := hL c (by simp)
    simp only [wideAt, if_neg hc, Text.len_cons, utf16Len_cons]
    have ih' := ih (fun d hd => hL d (by simp [hd])) (c0 + c.utf8Size) rest
    have hp := u16_pos c
    by_cases h3 : c.val < 128
    · rw [if_neg (by simp [h3]), List.nil_append]
      obtain ⟨e1, e2⟩ := size_ascii h3
      rw [e1] at ih' ⊢
      rw [e2, ← Nat.add_assoc, ih', Nat.add_assoc]
    · rw [if_pos (by simp [h3])]
      obtain ⟨e1, e2, e3⟩ := size_wide c c0
      simp only [List.cons_append, List.nil_append, utf16Loop]
      rw [if_pos (by omega), e1, e2, if_pos e3]
      rw [show c0 + (u16 c + Text.utf16Len cs) + (c.utf8Size - u16 c) = c0 + c.utf8Size + Text.utf16Len cs by omega,
        ih', Nat.add_assoc]

/-- Where the line of a boundary starts. -/
theorem newlines_at (A B : Text) :
    (new (A ++ B)).newlines[A.lineFeeds]? = some (A.len - A.lastLine.len) ∧ A.lastLine.len ≤ A.len := by
  obtain ⟨P, h1, h2, h3⟩ := lastLine_decomp A
  have hl : A.len = P.len + A.lastLine.len := by
    have := congrArg Text.len h1; rwa [Text.len_append] at this
  refine ⟨?_, by omega⟩
  have hf : A.lineFeeds = P.lineFeeds := by
    have := congrArg Text.lineFeeds h1
    rwa [lineFeeds_append, lineFeeds_zero h2, Nat.add_zero] at this
  rw [hf, show A.len - A.lastLine.len = P.len by omega, new_newlines]
  have hA : nlFrom 0 (A ++ B) = nlFrom 0 P ++ nlFrom P.len (A.lastLine ++ B) := by
    conv => lhs; rw [h1, List.append_assoc, nlFrom_append]
    rw [Nat.zero_add]
  rw [hA]
  rcases h3 with rfl | ⟨Q, rfl⟩
  · rfl
  · have e1 : Text.lineFeeds (Q ++ ['\n']) = (nlFrom 0 Q).length + 1 := by
      rw [nlFrom_length]; simp [Text.lineFeeds]
    rw [e1, List.getElem?_cons_succ, nlFrom_append, List.append_assoc,
      List.getElem?_append_right (Nat.le_refl _), Nat.sub_self]
    simp [nlFrom]

theorem lineCol_at (A B : Text) :
    (new (A ++ B)).lineCol A.len = some ⟨A.lineFeeds, A.lastLine.len⟩ := by
  obtain ⟨h1, h2⟩ := newlines_at A B
  have hpp : Stdx.partitionPoint (new (A ++ B)).newlines (fun it => it ≤ A.len) = some (A.lineFeeds + 1) := by
    rw [new_newlines, nlFrom_append, ← List.cons_append, Nat.zero_add]
    rw [Stdx.partitionPoint_append]
    · rw [List.length_cons, nlFrom_length]
    · intro x hx
      rcases List.mem_cons.mp hx with rfl | hx
      · simp
      · have := nlFrom_range 0 A x hx; simp; omega
    · intro x hx
      have := nlFrom_range A.len B x hx
      simp; omega
  unfold lineCol
  rw [hpp]
  simp only [Nat.add_one_ne_zero, if_false, Nat.add_sub_cancel, h1]
  rw [if_pos (by omega)]
  congr 2; omega

theorem wide_at (A B : Text) : get (new (A ++ B)).utf16Lines A.lineFeeds =
    wideAt 0 0 A.lastLine ++ wideAt 0 A.lastLine.len B := by
  obtain ⟨P, h1, h2, h3⟩ := lastLine_decomp A
  have hf : A.lineFeeds = P.lineFeeds := by
    have := congrArg Text.lineFeeds h1
    rwa [lineFeeds_append, lineFeeds_zero h2, Nat.add_zero] at this
  rw [new_wide, hf]
  conv => lhs; rw [h1, List.append_assoc]
  rw [wideAt_start h3, wideAt_line h2, Nat.zero_add]

theorem toUtf16_at (A B : Text) :
    (new (A ++ B)).toUtf16 ⟨A.lineFeeds, A.lastLine.len⟩ = some ⟨A.lineFeeds, A.lastLine.utf16Len⟩ := by
  obtain ⟨P, h1, h2, h3⟩ := lastLine_decomp A
  rw [toUtf16_eq, wide_at]
  obtain ⟨d, h4, h5⟩ := utf8Loop_line h2 0 A.lastLine.len A.lastLine.len (wideAt 0 A.lastLine.len B) (by omega)
  rw [h5 (by omega), utf8Loop_stop]
  show some (LineCol.mk _ _) = _
  congr 2; omega

theorem toUtf8_at (A B : Text) :
    (new (A ++ B)).toUtf8 ⟨A.lineFeeds, A.lastLine.utf16Len⟩ = some ⟨A.lineFeeds, A.lastLine.len⟩ := by
  obtain ⟨P, h1, h2, h3⟩ := lastLine_decomp A
  rw [toUtf8_eq, wide_at]
  have := utf16Loop_line h2 0 (wideAt 0 A.lastLine.len B)
  rw [Nat.zero_add, Nat.zero_add] at this
  rw [this, utf16Loop_stop]
  rfl

end LineIndex

namespace Lsp
open LineIndex

theorem position_at (A B : Text) :
    position (LineIndex.new (A ++ B)) A.len = some ⟨A.lineFeeds, A.lastLine.utf16Len⟩ := by
  unfold position
  rw [lineCol_at]
  exact toUtf16_at A B

theorem offset_at (A B : Text) :
    offset (LineIndex.new (A ++ B)) ⟨A.lineFeeds, A.lastLine.utf16Len⟩ = some A.len := by
  unfold offset
  rw [toUtf8_at]
  obtain ⟨h1, h2⟩ := newlines_at A B
  show Option.map _ _ = _
  rw [h1]
  show some _ = _
  congr 1
  show A.len - A.lastLine.len + A.lastLine.len = _
  omega

end Lsp
end Verif
