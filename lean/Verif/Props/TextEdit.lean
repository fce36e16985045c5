import Verif.Proof.TextEditProof

/-
C26-C29: `TextEdit`.
-/
namespace Verif
namespace TextEdit

theorem build_some {is e : List Indel} (hw : ∀ i ∈ is, i.Wf) (h : build is = some e) :
    e = sort is ∧ is.Pairwise Indel.Disjoint := by
  rw [build_eq is hw] at h
  split at h
  · rename_i ha
    exact ⟨by simpa using h.symm, (adjacent_sort hw).mp ha⟩
  · cases h

theorem sort_ordered {is : List Indel} (hw : ∀ i ∈ is, i.Wf) (hd : is.Pairwise Indel.Disjoint) :
    Ordered (sort is) :=
  ordered_of_adjacent (fun i hi => hw i ((sort_perm is).mem_iff.mp hi)) ((adjacent_sort hw).mpr hd)

theorem cuts_of_ordered {text : Text} {e : List Indel} (ho : Ordered e) (hr : ∀ i ∈ e, RangeOf text i.delete) :
    ∃ cuts tail, text = Cut.old cuts tail ∧ e = Cut.edits 0 cuts := by
  have := cuts_exist e [] text ho (by simpa using hr) (by simp)
  simpa using this

/-- C26.  Any edit that could be built, applied to any text of which its ranges are ranges (in bounds, on
character boundaries), does not panic and replaces all its ranges simultaneously. -/
theorem apply_replaces (text : Text) (is e : List Indel) (hr : ∀ i ∈ is, RangeOf text i.delete)
    (hb : build is = some e) : ∃ new, apply e text = some new ∧ Replaces text e new := by
  have hw : ∀ i ∈ is, i.Wf := fun i hi => (hr i hi).1
  obtain ⟨rfl, hd⟩ := build_some hw hb
  obtain ⟨cuts, tail, h1, h2⟩ := cuts_of_ordered (text := text) (sort_ordered hw hd)
    (fun i hi => hr i ((sort_perm is).mem_iff.mp hi))
  refine ⟨Cut.new cuts tail, ?_, cuts, tail, h1, h2, rfl⟩
  rw [h2, h1, apply_cuts]

/-- The specification is unambiguous: there is at most one way to replace given ranges. -/
theorem Replaces.unique {text new new' : Text} {e : List Indel} (h : Replaces text e new) (h' : Replaces text e new') :
    new = new' := by
  obtain ⟨c, t, rfl, rfl, rfl⟩ := h
  obtain ⟨c', t', h1, h2, rfl⟩ := h'
  have h3 := apply_cuts c t
  rw [h1, h2, apply_cuts] at h3
  simpa using h3.symm

/-- C27.  Building an edit succeeds exactly if no two replacements overlap; it then contains exactly the
given replacements, ordered by position, replacements of the same range in the order in which they were
added. -/
theorem build_iff_disjoint (is : List Indel) (hw : ∀ i ∈ is, i.Wf) :
    ((∃ e, build is = some e) ↔ is.Pairwise Indel.Disjoint) ∧
    ∀ e, build is = some e → e.Perm is ∧ e.Pairwise (fun a b => a.delete.stop ≤ b.delete.start) ∧
      ∀ r, e.filter (fun i => i.delete = r) = is.filter (fun i => i.delete = r) := by
  refine ⟨⟨fun ⟨e, h⟩ => (build_some hw h).2, fun h => ?_⟩, fun e h => ?_⟩
  · rw [build_eq is hw, if_pos ((adjacent_sort hw).mpr h)]; exact ⟨_, rfl⟩
  · obtain ⟨rfl, hd⟩ := build_some hw h
    exact ⟨sort_perm is, sort_ordered hw hd, sort_filter is⟩

/-- C27.  The order in which replacements of distinct ranges are added does not matter. -/
theorem build_order_irrelevant (is js : List Indel) (hw : ∀ i ∈ is, i.Wf) (hp : is.Perm js)
    (hd : is.Pairwise (fun a b => a.delete ≠ b.delete)) : build is = build js := by
  have hw' : ∀ i ∈ js, i.Wf := fun i hi => hw i (hp.mem_iff.mpr hi)
  have hs : sort is = sort js := by
    refine List.Perm.eq_of_pairwise (le := fun a b => a.le b = true) ?_ (sort_sorted is) (sort_sorted js)
      (((sort_perm is).trans hp).trans (sort_perm js).symm)
    intro a b ha hb h1 h2
    have ha' := (sort_perm is).mem_iff.mp ha
    have hb' := hp.mem_iff.mpr ((sort_perm js).mem_iff.mp hb)
    have hk := le_antisymm' h1 h2
    clear ha hb h1 h2 hw hw' hp
    induction is with
    | nil => simp at ha'
    | cons x xs ih =>
      rw [List.pairwise_cons] at hd
      rcases List.mem_cons.mp ha' with h1 | h1
      · rcases List.mem_cons.mp hb' with h2 | h2
        · rw [h1, h2]
        · exact absurd (h1 ▸ hk) (hd.1 b h2)
      · rcases List.mem_cons.mp hb' with h2 | h2
        · exact absurd (h2 ▸ hk.symm) (hd.1 a h1)
        · exact ih hd.2 h1 h2
  rw [build_eq is hw, build_eq js hw', hs]

theorem pairwise_disjoint_append {a b : List Indel} (ha : a.Pairwise Indel.Disjoint) (hb : b.Pairwise Indel.Disjoint) :
    (a ++ b).Pairwise Indel.Disjoint ↔ ∀ x ∈ a, ∀ y ∈ b, x.Disjoint y := by
  rw [List.pairwise_append]
  exact ⟨fun h => h.2.2, fun h => ⟨ha, hb, h⟩⟩

/-- C28.  `union` of two edits never panics.  If no replacement of one overlaps one of the other, the result
is the edit built from the replacements of both; otherwise the edit is left unchanged. -/
theorem union_spec (is js self other : List Indel) (hi : ∀ i ∈ is, i.Wf) (hj : ∀ i ∈ js, i.Wf)
    (h1 : build is = some self) (h2 : build js = some other) :
    ((∀ a ∈ self, ∀ b ∈ other, a.Disjoint b) →
      ∃ e, union self other = some (e, true) ∧ build (is ++ js) = some e ∧ e.Perm (self ++ other)) ∧
    (¬ (∀ a ∈ self, ∀ b ∈ other, a.Disjoint b) → union self other = some (self, false)) := by
  obtain ⟨rfl, hd1⟩ := build_some hi h1
  obtain ⟨rfl, hd2⟩ := build_some hj h2
  have hsym : ∀ {a b : Indel}, a.Disjoint b → b.Disjoint a := fun h => Or.symm h
  have p1 := ((sort_perm is).pairwise_iff hsym).mpr hd1
  have p2 := ((sort_perm js).pairwise_iff hsym).mpr hd2
  have hw : ∀ i ∈ sort is ++ sort js, i.Wf := by
    intro i h
    rcases List.mem_append.mp h with h | h
    · exact hi i ((sort_perm is).mem_iff.mp h)
    · exact hj i ((sort_perm js).mem_iff.mp h)
  have hw' : ∀ i ∈ is ++ js, i.Wf := by
    intro i h
    rcases List.mem_append.mp h with h | h
    · exact hi i h
    · exact hj i h
  have hs : sort (sort is ++ sort js) = sort (is ++ js) :=
    sort_of_filter (fun r => by rw [List.filter_append, List.filter_append, sort_filter, sort_filter])
  have key := (adjacent_sort hw).trans (pairwise_disjoint_append p1 p2)
  unfold union
  constructor
  · intro h
    have ha := key.mpr h
    refine ⟨sort (sort is ++ sort js), ?_, ?_, sort_perm _⟩
    · rw [if_pos (show (checkDisjoint (sort is ++ sort js)).2 = true from ha), assertDisjoint_eq, if_pos ha]
      rfl
    · rw [build_eq _ hw', ← hs, if_pos ha]
  · intro h
    rw [if_neg (show ¬ (checkDisjoint (sort is ++ sort js)).2 = true from fun ha => h (key.mp ha))]

/-- C28.  Applying a successful union performs the replacements of both edits at once. -/
theorem union_apply (text : Text) (is js self other e : List Indel) (hi : ∀ i ∈ is, RangeOf text i.delete)
    (hj : ∀ i ∈ js, RangeOf text i.delete) (h1 : build is = some self) (h2 : build js = some other)
    (hu : union self other = some (e, true)) :
    e.Perm (is ++ js) ∧ ∃ new, apply e text = some new ∧ Replaces text e new := by
  have hwi : ∀ i ∈ is, i.Wf := fun i h => (hi i h).1
  have hwj : ∀ i ∈ js, i.Wf := fun i h => (hj i h).1
  obtain ⟨ha, hb⟩ := union_spec is js self other hwi hwj h1 h2
  have hd : ∀ a ∈ self, ∀ b ∈ other, a.Disjoint b := by
    refine Classical.byContradiction fun hn => ?_
    rw [hb hn] at hu
    simp at hu
  obtain ⟨e', h3, h4, h5⟩ := ha hd
  rw [h3] at hu
  obtain rfl : e' = e := by simpa using hu
  have hr : ∀ i ∈ is ++ js, RangeOf text i.delete := by
    intro i h
    rcases List.mem_append.mp h with h | h
    · exact hi i h
    · exact hj i h
  exact ⟨((build_iff_disjoint _ (fun i h => (hr i h).1)).2 _ h4).1, apply_replaces text _ _ hr h4⟩

/-- The replacements, as seen from a text of which the first `n` bytes have been cut off. -/
def shiftDown (n : Nat) (i : Indel) : Indel := ⟨i.insert, ⟨i.delete.start - n, i.delete.stop - n⟩⟩

/-- C29.  For every offset `o` on a character boundary, splitting the text into `A` before `o` and `B` from
`o` on: `apply_to_offset` returns `None` exactly if `o` is strictly inside a deleted range.  Otherwise the
edited text splits into `A'` and `B'`, where `A'` is `A` with the replacements starting before `o` carried
out and `B'` is `B` with the others carried out, and the offset returned is that of the split. -/
theorem applyToOffset_spec (A B new : Text) (is e : List Indel) (hr : ∀ i ∈ is, RangeOf (A ++ B) i.delete)
    (hb : build is = some e) (ha : apply e (A ++ B) = some new) :
    (applyToOffset A.len A.len e = some none ∧
      ∃ i ∈ e, i.delete.start < A.len ∧ A.len < i.delete.stop) ∨
    (∃ A' B' e1 e2, e = e1 ++ e2 ∧ (∀ i ∈ e1, i.delete.start < A.len) ∧ (∀ i ∈ e2, A.len ≤ i.delete.start) ∧
      (∀ i ∈ e, ¬ (i.delete.start < A.len ∧ A.len < i.delete.stop)) ∧
      Replaces A e1 A' ∧ Replaces B (e2.map (shiftDown A.len)) B' ∧ new = A' ++ B' ∧
      applyToOffset A.len A.len e = some (some A'.len)) := by
  have hw : ∀ i ∈ is, i.Wf := fun i hi => (hr i hi).1
  obtain ⟨rfl, hd⟩ := build_some hw hb
  obtain ⟨cuts, tail, h1, h2⟩ := cuts_of_ordered (text := A ++ B) (sort_ordered hw hd)
    (fun i hi => hr i ((sort_perm is).mem_iff.mp hi))
  rw [h2, h1, apply_cuts] at ha
  rw [h2]
  have hk := applyToOffset_cuts cuts tail 0 A.len 0 A B (by omega) h1.symm
  rw [Nat.zero_add] at hk
  rcases hk with hk | ⟨c1, t1, c2, t2, h3, h4, h5, h6, h7, h8⟩
  · exact Or.inl hk
  · refine Or.inr ⟨Cut.new c1 t1, Cut.new c2 t2, Cut.edits 0 c1, Cut.edits A.len c2, h5, fun i hi => (h6 i hi).1,
      edits_ge c2 A.len, ?_, ⟨c1, t1, h3, rfl, rfl⟩, ⟨c2, t2, h4, ?_, rfl⟩, ?_, ?_⟩
    · intro i hi
      rw [h5] at hi
      rcases List.mem_append.mp hi with hi | hi
      · have := h6 i hi; omega
      · have := edits_ge c2 A.len i hi; omega
    · have := edits_shift c2 0 A.len
      rw [Nat.zero_add] at this
      rw [this, List.map_map]
      conv => rhs; rw [← List.map_id (Cut.edits 0 c2)]
      apply List.map_congr_left
      intro i _
      obtain ⟨ins, s, t⟩ := i
      simp [shiftDown, Range.shift]
    · rw [← h7]; simpa using ha.symm
    · rw [h8, Nat.zero_add]

/-- C29.  If moreover no replacement starts at `o` itself, the character at `o` is still the character at
the offset returned. -/
theorem applyToOffset_same_char (A B new : Text) (c : Char) (is e : List Indel) (o' : Nat)
    (hr : ∀ i ∈ is, RangeOf (A ++ c :: B) i.delete) (hb : build is = some e)
    (ha : apply e (A ++ c :: B) = some new) (ho : applyToOffset A.len A.len e = some (some o'))
    (hn : ∀ i ∈ e, i.delete.start ≠ A.len) : ∃ A' B', new = A' ++ c :: B' ∧ A'.len = o' := by
  rcases applyToOffset_spec A (c :: B) new is e hr hb ha with ⟨h, -⟩ | ⟨A', B', e1, e2, h1, h2, h3, -, h4, h5, h6, h7⟩
  · rw [h] at ho; cases ho
  · rw [h7] at ho
    obtain ⟨cuts, tail, g1, g2, g3⟩ := h5
    refine ⟨A', B'.tail, ?_, by simpa using ho⟩
    rw [h6]
    congr 1
    cases cuts with
    | nil => rw [g3, Cut.new, ← show c :: B = tail from g1]; rfl
    | cons d ds =>
      cases e2 with
      | nil => simp [Cut.edits] at g2
      | cons i is =>
        simp only [List.map_cons, Cut.edits, shiftDown] at g2
        injection g2 with g4 _
        injection g4 with _ g5
        injection g5 with g6 _
        have hi : i ∈ e := by rw [h1]; simp
        have := hn i hi
        have := h3 i (by simp)
        have hk : d.kept ≠ [] := by
          intro hk; rw [hk, Text.len_nil] at g6; omega
        obtain ⟨x, xs, hx⟩ := List.exists_cons_of_ne_nil hk
        rw [Cut.old, hx] at g1
        rw [g3, Cut.new, hx]
        simp only [List.cons_append] at g1 ⊢
        injection g1 with g7 _
        rw [g7]; rfl

/-- C29.  `invalidates_offset` tells exactly whether some replacement touches the offset. -/
theorem invalidatesOffset_iff (e : List Indel) (o : Nat) :
    invalidatesOffset e o = true ↔ ∃ i ∈ e, i.delete.start ≤ o ∧ o ≤ i.delete.stop := by
  simp [invalidatesOffset]

private theorem edits_last : ∀ (cuts : List Cut) (pos : Nat), cuts ≠ [] →
    ∃ i ∈ Cut.edits pos cuts, i.delete.stop = pos + (Cut.old cuts []).len
  | [c], pos, _ => ⟨_, List.mem_singleton.2 rfl, by simp [Cut.old, Nat.add_assoc]⟩
  | c :: d :: cs, pos, _ => by
    obtain ⟨i, h1, h2⟩ := edits_last (d :: cs) (pos + c.kept.len + c.deleted.len) (by simp)
    refine ⟨i, by rw [Cut.edits]; exact List.mem_cons_of_mem _ h1, ?_⟩
    rw [h2, show Cut.old (c :: d :: cs) [] = c.kept ++ c.deleted ++ Cut.old (d :: cs) [] from rfl, Text.len_append,
      Text.len_append]
    omega

private theorem old_new_tail : ∀ (cuts : List Cut) (tail : Text) (c : Char), tail ≠ [] →
    (Cut.old cuts tail).getLast? = some c → ∃ A', Cut.new cuts tail = A' ++ [c]
  | [], tail, c, h, hc => by
    rw [Cut.old, List.getLast?_eq_some_iff] at hc
    obtain ⟨ys, hc⟩ := hc
    exact ⟨ys, hc⟩
  | d :: ds, tail, c, h, hc => by
    have hne : Cut.old ds tail ≠ [] := by
      intro h0
      have : ∀ (ds : List Cut), Cut.old ds tail = [] → tail = [] := by
        intro ds
        induction ds with
        | nil => exact id
        | cons x xs ih => intro hx; simp [Cut.old] at hx; exact ih hx.2.2
      exact h (this ds h0)
    have hc' : (Cut.old ds tail).getLast? = some c := by
      rw [Cut.old, List.getLast?_append] at hc
      cases hl : (Cut.old ds tail).getLast? with
      | none => exact absurd (List.getLast?_eq_none_iff.1 hl) hne
      | some x => rw [hl] at hc; simpa using hc
    obtain ⟨A', hA⟩ := old_new_tail ds tail c h hc'
    exact ⟨d.kept ++ d.inserted ++ A', by rw [Cut.new, hA]; simp⟩

/-- C29.  An offset that is not invalidated is carried over, and the characters before and after it stay the same. -/
theorem invalidatesOffset_safe (A B new : Text) (c d : Char) (is e : List Indel)
    (hr : ∀ i ∈ is, RangeOf (A ++ [c] ++ d :: B) i.delete) (hb : build is = some e)
    (ha : apply e (A ++ [c] ++ d :: B) = some new) (hv : invalidatesOffset e (A ++ [c]).len = false) :
    ∃ A' B', new = A' ++ [c] ++ d :: B' ∧
      applyToOffset (A ++ [c]).len (A ++ [c]).len e = some (some (A' ++ [c]).len) := by
  have hno : ∀ i ∈ e, ¬ (i.delete.start ≤ (A ++ [c]).len ∧ (A ++ [c]).len ≤ i.delete.stop) := by
    intro i hi h
    rw [(invalidatesOffset_iff e _).2 ⟨i, hi, h⟩] at hv
    cases hv
  rcases applyToOffset_spec (A ++ [c]) (d :: B) new is e hr hb ha with
    ⟨-, i, hi, h1, h2⟩ | ⟨A', B', e1, e2, h1, h2, h3, -, h4, -, h6, h7⟩
  · exact absurd ⟨by omega, by omega⟩ (hno i hi)
  · obtain ⟨cuts, tail, g1, g2, g3⟩ := h4
    have ht : tail ≠ [] := by
      rintro rfl
      cases cuts with
      | nil => simp [Cut.old] at g1
      | cons x xs =>
        obtain ⟨i, hi, hs⟩ := edits_last (x :: xs) 0 (by simp)
        rw [← g1, Nat.zero_add] at hs
        rw [← g2] at hi
        have := h2 i hi
        exact hno i (by rw [h1]; exact List.mem_append_left _ hi) ⟨by omega, by omega⟩
    obtain ⟨A1, hA⟩ := old_new_tail cuts tail c ht (by rw [← g1]; simp)
    rw [← g3] at hA
    have hn : ∀ i ∈ e, i.delete.start ≠ (A ++ [c]).len := by
      intro i hi h
      have hw : i.Wf := (hr i (by
        rw [(build_some (fun i hi => (hr i hi).1) hb).1] at hi
        exact (sort_perm is).mem_iff.mp hi)).1
      exact hno i hi ⟨by omega, by unfold Indel.Wf at hw; omega⟩
    obtain ⟨A2, B2, k1, k2⟩ := applyToOffset_same_char (A ++ [c]) B new d is e _ hr hb ha h7 hn
    have : A2 = A' := by
      rw [h6] at k1
      exact (Text.append_inj_len k1.symm k2).1
    exact ⟨A1, B2, by rw [k1, this, hA], by rw [h7, hA]⟩

/-! Concrete instances: three replacements of `local x = é` (one of them around a two-byte character), added
out of order. -/

def sampleText : Text := "local x = é".toList
def sampleEdits : List Indel :=
  [⟨"yy".toList, ⟨10, 12⟩⟩, ⟨"".toList, ⟨0, 6⟩⟩, ⟨"z".toList, ⟨7, 7⟩⟩]

example : ∀ i ∈ sampleEdits, RangeOf sampleText i.delete := by
  have b0 : Boundary sampleText 0 := ⟨[], _, rfl, rfl⟩
  have b6 : Boundary sampleText 6 := ⟨"local ".toList, "x = é".toList, by decide, by decide⟩
  have b7 : Boundary sampleText 7 := ⟨"local x".toList, " = é".toList, by decide, by decide⟩
  have b10 : Boundary sampleText 10 := ⟨"local x = ".toList, "é".toList, by decide, by decide⟩
  have b12 : Boundary sampleText 12 := ⟨"local x = é".toList, [], by decide, by decide⟩
  have hl : sampleText.len = 12 := by decide
  intro i hi
  simp only [sampleEdits, List.mem_cons, List.not_mem_nil, or_false] at hi
  rcases hi with rfl | rfl | rfl <;> refine ⟨by decide, by rw [hl]; decide, ?_, ?_⟩ <;> assumption

example : ∃ e, build sampleEdits = some e ∧ apply e sampleText = some "xz = yy".toList ∧
    applyToOffset 10 10 e = some (some 5) ∧ applyToOffset 11 11 e = some none ∧
    union e [⟨[], ⟨6, 7⟩⟩] = some ([⟨"".toList, ⟨0, 6⟩⟩, ⟨[], ⟨6, 7⟩⟩, ⟨"z".toList, ⟨7, 7⟩⟩, ⟨"yy".toList, ⟨10, 12⟩⟩], true) ∧
    union e [⟨[], ⟨5, 7⟩⟩] = some (e, false) :=
  ⟨[⟨"".toList, ⟨0, 6⟩⟩, ⟨"z".toList, ⟨7, 7⟩⟩, ⟨"yy".toList, ⟨10, 12⟩⟩],
    by decide, by decide, by decide, by decide, by decide, by decide⟩

example : invalidatesOffset [⟨"".toList, ⟨0, 6⟩⟩, ⟨"z".toList, ⟨7, 7⟩⟩, ⟨"yy".toList, ⟨10, 12⟩⟩] 9 = false ∧
    invalidatesOffset [⟨"".toList, ⟨0, 6⟩⟩, ⟨"z".toList, ⟨7, 7⟩⟩, ⟨"yy".toList, ⟨10, 12⟩⟩] 6 = true ∧
    sampleText = "local x ".toList ++ ['='] ++ ' ' :: "é".toList ∧ Text.len ("local x ".toList ++ ['=']) = 9 := by decide

end TextEdit
end Verif
