import Verif.Spec.Edits
import Verif.Proof.TextLemmas

namespace Verif
namespace TextEdit
open Indel

theorem le_iff {a b : Indel} : a.le b = true ↔
    a.delete.start < b.delete.start ∨ (a.delete.start = b.delete.start ∧ a.delete.stop ≤ b.delete.stop) := by
  simp [Indel.le]

theorem le_total' {a b : Indel} (h : ¬ a.le b = true) : b.le a = true := by
  rw [le_iff] at *; omega

theorem le_trans' {a b c : Indel} (h : a.le b = true) (h' : b.le c = true) : a.le c = true := by
  rw [le_iff] at *; omega

theorem le_antisymm' {a b : Indel} (h : a.le b = true) (h' : b.le a = true) : a.delete = b.delete := by
  rw [le_iff] at *
  obtain ⟨x, a1, a2⟩ := a
  obtain ⟨y, b1, b2⟩ := b
  simp at *
  omega

/-! ### The sort -/

theorem sortedInsert_perm (x : Indel) (l : List Indel) : (sortedInsert x l).Perm (x :: l) := by
  induction l with
  | nil => exact List.Perm.refl _
  | cons y ys ih =>
    unfold sortedInsert
    split
    · exact (List.Perm.cons y ih).trans (List.Perm.swap x y ys)
    · exact List.Perm.refl _

theorem sortedInsert_sorted (x : Indel) {l : List Indel} (h : l.Pairwise (fun a b => a.le b = true)) :
    (sortedInsert x l).Pairwise (fun a b => a.le b = true) := by
  induction l with
  | nil => simp [sortedInsert]
  | cons y ys ih =>
    rw [List.pairwise_cons] at h
    unfold sortedInsert
    split
    · rename_i hy
      rw [List.pairwise_cons]
      refine ⟨fun z hz => ?_, ih h.2⟩
      rcases List.mem_cons.mp ((sortedInsert_perm x ys).mem_iff.mp hz) with rfl | hz
      · exact hy
      · exact h.1 z hz
    · rename_i hy
      have hx := le_total' hy
      rw [List.pairwise_cons]
      refine ⟨fun z hz => ?_, List.pairwise_cons.mpr h⟩
      rcases List.mem_cons.mp hz with rfl | hz
      · exact hx
      · exact le_trans' hx (h.1 z hz)

theorem sort_snoc (l : List Indel) (x : Indel) : sort (l ++ [x]) = sortedInsert x (sort l) := by
  simp [sort, List.foldl_append]

theorem sort_nil : sort [] = [] := rfl

theorem snoc_ind {P : List Indel → Prop} (h0 : P []) (h1 : ∀ l x, P l → P (l ++ [x])) : ∀ l, P l := by
  intro l
  have : P l.reverse.reverse := by
    induction l.reverse with
    | nil => exact h0
    | cons x xs ih => rw [List.reverse_cons]; exact h1 _ _ ih
  simpa using this

theorem sort_perm (l : List Indel) : (sort l).Perm l := by
  induction l using snoc_ind with
  | h0 => exact List.Perm.refl _
  | h1 l x ih =>
    rw [sort_snoc]
    exact ((sortedInsert_perm x _).trans (List.Perm.cons x ih)).trans (List.perm_append_comm (l₁ := [x]) (l₂ := l))

theorem sort_sorted (l : List Indel) : (sort l).Pairwise (fun a b => a.le b = true) := by
  induction l using snoc_ind with
  | h0 => exact List.Pairwise.nil
  | h1 l x ih => rw [sort_snoc]; exact sortedInsert_sorted x ih

theorem sortedInsert_last {x : Indel} {l : List Indel} (h : ∀ y ∈ l, y.le x = true) :
    sortedInsert x l = l ++ [x] := by
  induction l with
  | nil => rfl
  | cons y ys ih =>
    unfold sortedInsert
    rw [if_pos (h y (by simp)), ih (fun z hz => h z (by simp [hz]))]
    rfl

/-- Sorting keeps the order of replacements of the same range. -/
theorem sortedInsert_filter (x : Indel) (r : Range) {l : List Indel}
    (h : l.Pairwise (fun a b => a.le b = true)) :
    (sortedInsert x l).filter (fun i => i.delete = r) = (l ++ [x]).filter (fun i => i.delete = r) := by
  induction l with
  | nil => rfl
  | cons y ys ih =>
    rw [List.pairwise_cons] at h
    unfold sortedInsert
    split
    · rw [List.filter_cons, List.cons_append, List.filter_cons, ih h.2]
    · rename_i hy
      rw [List.filter_append]
      by_cases hx : x.delete = r
      · have : (y :: ys).filter (fun i => i.delete = r) = [] := by
          rw [List.filter_eq_nil_iff]
          intro z hz hzr
          have hxy := le_total' hy
          have hyz : y.le z = true := by
            rcases List.mem_cons.mp hz with rfl | hz
            · rw [le_iff]; omega
            · exact h.1 z hz
          have hzx : z.delete = x.delete := by rw [hx]; simpa using hzr
          apply hy
          rw [le_iff] at *
          rw [hzx] at hyz
          omega
        rw [List.filter_cons, this]
        simp [hx]
      · rw [List.filter_cons]
        simp [hx]

theorem sort_filter (l : List Indel) (r : Range) :
    (sort l).filter (fun i => i.delete = r) = l.filter (fun i => i.delete = r) := by
  induction l using snoc_ind with
  | h0 => rfl
  | h1 l x ih =>
    rw [sort_snoc, sortedInsert_filter x r (sort_sorted l), List.filter_append, ih, List.filter_append]

/-- A sorted list is determined by the replacements of every range. -/
theorem sorted_unique {l m : List Indel} (hl : l.Pairwise (fun a b => a.le b = true))
    (hm : m.Pairwise (fun a b => a.le b = true))
    (h : ∀ r, l.filter (fun i => i.delete = r) = m.filter (fun i => i.delete = r)) : l = m := by
  have mem : ∀ {l m : List Indel}, (∀ r, l.filter (fun i => i.delete = r) = m.filter (fun i => i.delete = r)) →
      ∀ x ∈ l, x ∈ m := by
    intro l m h x hx
    have : x ∈ m.filter (fun i => i.delete = x.delete) := by
      rw [← h x.delete]; simp [hx]
    exact (List.mem_filter.mp this).1
  induction l generalizing m with
  | nil =>
    cases m with
    | nil => rfl
    | cons y ys => exact absurd (mem (fun r => (h r).symm) y (by simp)) (by simp)
  | cons x xs ih =>
    cases m with
    | nil => exact absurd (mem h x (by simp)) (by simp)
    | cons y ys =>
      have refl : ∀ a : Indel, a.le a = true := fun a => by rw [le_iff]; omega
      have hyx : y.le x = true := by
        rcases List.mem_cons.mp (mem h x (by simp)) with rfl | hx
        · exact refl _
        · exact (List.pairwise_cons.mp hm).1 x hx
      have hxy : x.le y = true := by
        rcases List.mem_cons.mp (mem (fun r => (h r).symm) y (by simp)) with rfl | hy
        · exact refl _
        · exact (List.pairwise_cons.mp hl).1 y hy
      have hk := le_antisymm' hxy hyx
      have h0 := h x.delete
      rw [List.filter_cons, List.filter_cons, if_pos (by simp), if_pos (by simp [hk])] at h0
      injection h0 with h1 h2
      subst h1
      refine congrArg _ (ih (List.pairwise_cons.mp hl).2 (List.pairwise_cons.mp hm).2 ?_)
      intro r
      have hr := h r
      rw [List.filter_cons, List.filter_cons] at hr
      split at hr
      · injection hr
      · exact hr

theorem sort_of_filter {l m : List Indel}
    (h : ∀ r, l.filter (fun i => i.delete = r) = m.filter (fun i => i.delete = r)) : sort l = sort m :=
  sorted_unique (sort_sorted l) (sort_sorted m) (fun r => by rw [sort_filter, sort_filter, h])

theorem sort_of_sorted {l : List Indel} (h : l.Pairwise (fun a b => a.le b = true)) : sort l = l :=
  sorted_unique (sort_sorted l) h (sort_filter l)

/-! ### Disjointness -/

/-- Every replacement ends before the next ones start. -/
def Ordered (l : List Indel) : Prop := l.Pairwise (fun a b => a.delete.stop ≤ b.delete.start)

theorem ordered_of_adjacent {l : List Indel} (hw : ∀ i ∈ l, i.Wf) (h : adjacent l = true) : Ordered l := by
  induction l with
  | nil => exact List.Pairwise.nil
  | cons x xs ih =>
    cases xs with
    | nil => simp [Ordered]
    | cons y ys =>
      simp only [adjacent, Bool.and_eq_true, decide_eq_true_eq] at h
      have h2 := ih (fun i hi => hw i (by simp [hi])) h.2
      unfold Ordered at *
      rw [List.pairwise_cons]
      refine ⟨fun z hz => ?_, h2⟩
      rcases List.mem_cons.mp hz with rfl | hz
      · exact h.1
      · have h3 := (List.pairwise_cons.mp h2).1 z hz
        have h4 : y.Wf := hw y (by simp)
        unfold Indel.Wf at h4
        omega

theorem adjacent_of_ordered {l : List Indel} (h : Ordered l) : adjacent l = true := by
  induction l with
  | nil => rfl
  | cons x xs ih =>
    cases xs with
    | nil => rfl
    | cons y ys =>
      have h' := List.pairwise_cons.mp h
      simp only [adjacent, Bool.and_eq_true, decide_eq_true_eq]
      exact ⟨h'.1 y (by simp), ih h'.2⟩

theorem Disjoint.symm {a b : Indel} (h : a.Disjoint b) : b.Disjoint a := Or.symm h

theorem disjoint_of_ordered {l : List Indel} (h : Ordered l) : l.Pairwise Indel.Disjoint :=
  List.Pairwise.imp (fun h => Or.inl h) h

theorem ordered_of_disjoint {l : List Indel} (hw : ∀ i ∈ l, i.Wf) (hs : l.Pairwise (fun a b => a.le b = true))
    (hd : l.Pairwise Indel.Disjoint) : Ordered l := by
  induction l with
  | nil => exact List.Pairwise.nil
  | cons x xs ih =>
    have hs' := List.pairwise_cons.mp hs
    have hd' := List.pairwise_cons.mp hd
    refine List.pairwise_cons.mpr ⟨fun y hy => ?_, ih (fun i hi => hw i (by simp [hi])) hs'.2 hd'.2⟩
    have h1 := le_iff.mp (hs'.1 y hy)
    have h2 := hd'.1 y hy
    have h3 : x.Wf := hw x (by simp)
    have h4 : y.Wf := hw y (by simp [hy])
    unfold Indel.Wf at *
    unfold Indel.Disjoint at h2
    omega

theorem adjacent_sort {l : List Indel} (hw : ∀ i ∈ l, i.Wf) :
    adjacent (sort l) = true ↔ l.Pairwise Indel.Disjoint := by
  have hp := sort_perm l
  have hw' : ∀ i ∈ sort l, i.Wf := fun i hi => hw i (hp.mem_iff.mp hi)
  have hsym : ∀ {a b : Indel}, a.Disjoint b → b.Disjoint a := fun h => Or.symm h
  constructor
  · intro h
    exact (hp.pairwise_iff hsym).mp (disjoint_of_ordered (ordered_of_adjacent hw' h))
  · intro h
    exact adjacent_of_ordered (ordered_of_disjoint hw' (sort_sorted l) ((hp.pairwise_iff hsym).mpr h))

theorem assertDisjoint_eq (l : List Indel) :
    assertDisjoint l = if adjacent (sort l) = true then some (sort l) else none := rfl

theorem builder_inv (is : List Indel) (hw : ∀ i ∈ is, i.Wf) :
    (∃ s, is.foldlM builderIndel [] = some s ∧ s.Perm is ∧
      (∀ r, s.filter (fun i => i.delete = r) = is.filter (fun i => i.delete = r))) ∨
    (is.foldlM builderIndel [] = none ∧ ¬ is.Pairwise Indel.Disjoint) := by
  induction is using snoc_ind with
  | h0 => exact Or.inl ⟨[], rfl, List.Perm.refl _, fun _ => rfl⟩
  | h1 l x ih =>
    rw [List.foldlM_append]
    rcases ih (fun i hi => hw i (by simp [hi])) with ⟨s, h1, h2, h3⟩ | ⟨h1, h2⟩
    · rw [h1]
      show (∃ t, List.foldlM builderIndel s [x] = some t ∧ _) ∨ (List.foldlM builderIndel s [x] = none ∧ _)
      simp only [List.foldlM_cons, List.foldlM_nil]
      have hp : (s ++ [x]).Perm (l ++ [x]) := List.Perm.append_right _ h2
      have hf : ∀ r, (s ++ [x]).filter (fun i => i.delete = r) = (l ++ [x]).filter (fun i => i.delete = r) := by
        intro r; rw [List.filter_append, List.filter_append, h3]
      have hw' : ∀ i ∈ s ++ [x], i.Wf := fun i hi => hw i (hp.mem_iff.mp hi)
      have hsym : ∀ {a b : Indel}, a.Disjoint b → b.Disjoint a := fun h => Or.symm h
      unfold builderIndel
      split
      · rw [assertDisjoint_eq]
        split
        · exact Or.inl ⟨_, rfl, (sort_perm _).trans hp, fun r => by rw [sort_filter, hf]⟩
        · rename_i hn
          refine Or.inr ⟨rfl, fun hd => hn ((adjacent_sort hw').mpr ((hp.pairwise_iff hsym).mpr hd))⟩
      · exact Or.inl ⟨_, rfl, hp, hf⟩
    · rw [h1]
      exact Or.inr ⟨rfl, fun h => h2 (List.pairwise_append.mp h).1⟩

theorem build_eq (is : List Indel) (hw : ∀ i ∈ is, i.Wf) :
    build is = if adjacent (sort is) = true then some (sort is) else none := by
  unfold build
  rcases builder_inv is hw with ⟨s, h1, h2, h3⟩ | ⟨h1, h2⟩
  · rw [h1]
    show assertDisjoint s = _
    rw [assertDisjoint_eq, sort_of_filter h3]
  · rw [h1, if_neg (fun h => h2 ((adjacent_sort hw).mp h))]
    rfl

/-! ### Cutting a text at ordered ranges -/

theorem boundary_after {P rest : Text} {o : Nat} (h : Boundary (P ++ rest) o) (ho : P.len ≤ o) :
    ∃ a b, rest = a ++ b ∧ P.len + a.len = o := by
  obtain ⟨x, y, h1, h2⟩ := h
  induction P generalizing x o with
  | nil => exact ⟨x, y, h1, by simpa using h2⟩
  | cons c cs ih =>
    cases x with
    | nil =>
      have := Text.utf8Size_pos c
      simp at h2 ho
      omega
    | cons d ds =>
      rw [List.cons_append, List.cons_append] at h1
      injection h1 with h3 h4
      subst h3
      rw [Text.len_cons] at h2 ho
      obtain ⟨a, b, h5, h6⟩ := ih (o := o - c.utf8Size) (by omega) ds h4 (by omega)
      exact ⟨a, b, h5, by rw [Text.len_cons]; omega⟩

theorem cuts_exist (es : List Indel) : ∀ (P rest : Text), Ordered es →
    (∀ e ∈ es, RangeOf (P ++ rest) e.delete) → (∀ e ∈ es, P.len ≤ e.delete.start) →
    ∃ cuts tail, rest = Cut.old cuts tail ∧ es = Cut.edits P.len cuts := by
  induction es with
  | nil => intro P rest _ _ _; exact ⟨[], rest, rfl, rfl⟩
  | cons e es ih =>
    intro P rest ho hr hp
    obtain ⟨h1, h2, h3, h4⟩ := hr e (by simp)
    obtain ⟨a, b, rfl, hb⟩ := boundary_after h3 (hp e (by simp))
    have hab : Boundary ((P ++ a) ++ b) e.delete.stop := by rw [List.append_assoc]; exact h4
    obtain ⟨d, t, rfl, hd⟩ := boundary_after hab (by rw [Text.len_append]; omega)
    have ho' := List.pairwise_cons.mp ho
    have hlen : (P ++ a ++ d).len = e.delete.stop := by rw [Text.len_append]; omega
    obtain ⟨cuts, tail, h5, h6⟩ := ih (P ++ a ++ d) t ho'.2
      (fun i hi => by have := hr i (by simp [hi]); simpa [List.append_assoc] using this)
      (fun i hi => by rw [hlen]; exact ho'.1 i hi)
    refine ⟨⟨a, d, e.insert⟩ :: cuts, tail, by rw [Cut.old, ← h5, List.append_assoc], ?_⟩
    rw [Cut.edits]
    rw [h6, hlen]
    rw [Text.len_append] at hd
    have e1 : P.len + a.len = e.delete.start := hb
    have e2 : P.len + a.len + d.len = e.delete.stop := hd
    show e :: _ = ⟨e.insert, ⟨P.len + a.len, P.len + a.len + d.len⟩⟩ :: Cut.edits (P.len + a.len + d.len) cuts
    rw [e2, e1]

theorem edits_shift (cuts : List Cut) (pos n : Nat) :
    Cut.edits (pos + n) cuts = (Cut.edits pos cuts).map (fun i => ⟨i.insert, i.delete.shift n⟩) := by
  induction cuts generalizing pos with
  | nil => rfl
  | cons c cs ih =>
    simp only [Cut.edits, List.map_cons]
    rw [show pos + n + c.kept.len + c.deleted.len = pos + c.kept.len + c.deleted.len + n by omega, ih]
    rw [show pos + n + c.kept.len = pos + c.kept.len + n by omega]
    rfl

/-! ### apply -/

theorem totalLen_cuts (cuts : List Cut) (tail : Text) (pos x : Nat) :
    totalLen (x + (Cut.old cuts tail).len) (Cut.edits pos cuts) = some (x + (Cut.new cuts tail).len) := by
  induction cuts generalizing pos x with
  | nil => rfl
  | cons c cs ih =>
    simp only [Cut.edits, totalLen, Cut.old, Cut.new, Text.len_append]
    rw [if_pos (by omega)]
    have := ih (pos + c.kept.len + c.deleted.len) (x + c.kept.len + c.inserted.len)
    rw [show x + (c.kept.len + c.deleted.len + (Cut.old cs tail).len) + c.inserted.len -
      (pos + c.kept.len + c.deleted.len - (pos + c.kept.len)) =
      x + c.kept.len + c.inserted.len + (Cut.old cs tail).len by omega, this]
    congr 1; omega

theorem applyLoop_cuts (cuts : List Cut) (tail : Text) : ∀ (P buf : Text),
    applyLoop (P ++ Cut.old cuts tail) P.len buf (Cut.edits P.len cuts) = some (buf ++ Cut.new cuts tail) := by
  induction cuts with
  | nil =>
    intro P buf
    have := Text.slice_append P tail []
    simp only [List.append_nil] at this
    simp only [Cut.edits, applyLoop, Cut.old, Cut.new, Text.len_append, this, Option.map_some]
  | cons c cs ih =>
    intro P buf
    have hr := ih (P ++ c.kept ++ c.deleted)
    simp only [Text.len_append] at hr
    simp only [Cut.edits, applyLoop, Cut.old, Cut.new]
    by_cases hk : c.kept.len = 0
    · have hk' := Text.len_eq_zero.mp hk
      rw [if_neg (by omega)]
      have := hr (buf ++ c.inserted)
      rw [hk'] at this
      simpa [hk', List.append_assoc] using this
    · rw [if_pos (by omega)]
      have hs := Text.slice_append P c.kept (c.deleted ++ Cut.old cs tail)
      have e : P ++ (c.kept ++ c.deleted ++ Cut.old cs tail) = P ++ c.kept ++ (c.deleted ++ Cut.old cs tail) := by
        simp [List.append_assoc]
      rw [e, hs]
      have := hr (buf ++ c.kept ++ c.inserted)
      simpa [List.append_assoc] using this

theorem apply_cuts (cuts : List Cut) (tail : Text) :
    apply (Cut.edits 0 cuts) (Cut.old cuts tail) = some (Cut.new cuts tail) := by
  cases cuts with
  | nil => rfl
  | cons c cs =>
    cases cs with
    | nil =>
      simp only [Cut.edits, apply, Indel.apply, Cut.old, Cut.new]
      rw [if_pos (by omega)]
      have h1 := Text.sliceTo_append c.kept (c.deleted ++ tail)
      have h2 := Text.sliceFrom_append (c.kept ++ c.deleted) tail
      rw [Text.len_append] at h2
      rw [← List.append_assoc] at h1
      simp only [Nat.zero_add, h1, h2]
    | cons d ds =>
      have h1 := totalLen_cuts (c :: d :: ds) tail 0 0
      have h2 := applyLoop_cuts (c :: d :: ds) tail [] []
      rw [Nat.zero_add, Nat.zero_add] at h1
      rw [List.nil_append, List.nil_append] at h2
      show (match totalLen (Cut.old (c :: d :: ds) tail).len (Cut.edits 0 (c :: d :: ds)),
        applyLoop (Cut.old (c :: d :: ds) tail) 0 [] (Cut.edits 0 (c :: d :: ds)) with
        | some n, some buf => if buf.len = n then some buf else none
        | _, _ => none) = _
      rw [h1, show applyLoop (Cut.old (c :: d :: ds) tail) 0 [] (Cut.edits 0 (c :: d :: ds)) = _ from h2]
      simp

/-! ### apply_to_offset -/

theorem edits_ge (cuts : List Cut) (pos : Nat) : ∀ e ∈ Cut.edits pos cuts, pos ≤ e.delete.start := by
  induction cuts generalizing pos with
  | nil => intro e he; simp [Cut.edits] at he
  | cons c cs ih =>
    intro e he
    rcases List.mem_cons.mp he with rfl | he
    · simp
    · have := ih _ e he; omega

theorem append_split {a b c d : Text} (h : a ++ b = c ++ d) (hl : a.len ≤ c.len) : ∃ m, c = a ++ m ∧ b = m ++ d := by
  induction a generalizing c with
  | nil => exact ⟨c, rfl, h⟩
  | cons x xs ih =>
    cases c with
    | nil => have := Text.utf8Size_pos x; simp at hl; omega
    | cons y ys =>
      rw [List.cons_append, List.cons_append] at h
      injection h with h1 h2
      subst h1
      obtain ⟨m, h3, h4⟩ := ih h2 (by rw [Text.len_cons, Text.len_cons] at hl; omega)
      exact ⟨m, by rw [h3]; rfl, h4⟩

theorem applyToOffset_cuts (cuts : List Cut) (tail : Text) : ∀ (pos o x : Nat) (A B : Text),
    pos + A.len = o → Cut.old cuts tail = A ++ B →
    (applyToOffset o (x + A.len) (Cut.edits pos cuts) = some none ∧
      ∃ e ∈ Cut.edits pos cuts, e.delete.start < o ∧ o < e.delete.stop) ∨
    (∃ cuts1 t1 cuts2 t2, A = Cut.old cuts1 t1 ∧ B = Cut.old cuts2 t2 ∧
      Cut.edits pos cuts = Cut.edits pos cuts1 ++ Cut.edits o cuts2 ∧
      (∀ e ∈ Cut.edits pos cuts1, e.delete.start < o ∧ e.delete.stop ≤ o) ∧
      Cut.new cuts tail = Cut.new cuts1 t1 ++ Cut.new cuts2 t2 ∧
      applyToOffset o (x + A.len) (Cut.edits pos cuts) = some (some (x + (Cut.new cuts1 t1).len))) := by
  induction cuts with
  | nil =>
    intro pos o x A B ho h
    exact Or.inr ⟨[], A, [], B, rfl, rfl, rfl, by simp [Cut.edits], h, rfl⟩
  | cons c cs ih =>
    intro pos o x A B ho h
    simp only [Cut.edits, applyToOffset]
    by_cases h1 : pos + c.kept.len ≥ o
    · rw [if_pos h1]
      rw [Cut.old, List.append_assoc] at h
      obtain ⟨m, h2, h3⟩ := append_split h.symm (by omega)
      refine Or.inr ⟨[], A, ⟨m, c.deleted, c.inserted⟩ :: cs, tail, rfl, ?_, ?_, by simp [Cut.edits], ?_, rfl⟩
      · rw [h3, Cut.old, List.append_assoc]
      · have e : pos + c.kept.len = o + m.len := by rw [h2, Text.len_append]; omega
        rw [e]
        rfl
      · rw [Cut.new, Cut.new, h2]; simp [Cut.new, List.append_assoc]
    · rw [if_neg h1]
      by_cases h2 : o < pos + c.kept.len + c.deleted.len
      · rw [if_pos h2]
        exact Or.inl ⟨rfl, _, List.mem_cons_self, Nat.lt_of_not_le h1, h2⟩
      · rw [if_neg h2, if_pos (by omega)]
        rw [Cut.old] at h
        obtain ⟨m, rfl, h4⟩ := append_split h (by rw [Text.len_append]; omega)
        rw [Text.len_append, Text.len_append] at ho
        rw [Text.len_append, Text.len_append]
        rw [show x + (c.kept.len + c.deleted.len + m.len) + c.inserted.len -
          (pos + c.kept.len + c.deleted.len - (pos + c.kept.len)) = (x + c.kept.len + c.inserted.len) + m.len by omega]
        rcases ih (pos + c.kept.len + c.deleted.len) o (x + c.kept.len + c.inserted.len) m B (by omega) h4 with
          ⟨h5, e, he, h6⟩ | ⟨cuts1, t1, cuts2, t2, h5, h6, h7, h8, h9, h10⟩
        · exact Or.inl ⟨h5, e, by simp [he], h6⟩
        · refine Or.inr ⟨c :: cuts1, t1, cuts2, t2, by rw [Cut.old, ← h5], h6, ?_, ?_, ?_, ?_⟩
          · rw [h7]; rfl
          · intro e he
            rcases List.mem_cons.mp he with rfl | he
            · simp only; omega
            · exact h8 e he
          · rw [Cut.new, h9, Cut.new]; simp [List.append_assoc]
          · rw [h10, Cut.new, Text.len_append, Text.len_append]; congr 2; omega

end TextEdit
end Verif
