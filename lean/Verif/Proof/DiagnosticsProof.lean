import Verif.Spec.DiagnosticLog
import Verif.Props.LineIndex
import Verif.Props.Validation

namespace Verif
open Spec

/-! ### positions are total -/

namespace LineIndex

theorem utf8Loop_total (text : Text) : ∀ (i c0 col res : Nat),
    (i = 0 → c0 ≤ col → col - c0 ≤ res) → (i ≠ 0 → col ≤ res) →
    ∃ r, utf8Loop col res (wideAt i c0 text) = some r := by
  induction text with
  | nil => intro i c0 col res _ _; exact ⟨res, by simp [wideAt, utf8Loop]⟩
  | cons c cs ih =>
    intro i c0 col res h0 h1
    simp only [wideAt]
    by_cases hc : c = '\n'
    · rw [if_pos hc]
      cases i with
      | zero => exact ⟨res, rfl⟩
      | succ i =>
        have := h1 (by simp)
        exact ih i 0 col res (by intros; omega) (by intros; omega)
    · rw [if_neg hc]
      by_cases hw : i = 0 ∧ ¬ c.val < 128
      · rw [if_pos hw]
        obtain ⟨hi, -⟩ := hw
        subst hi
        have h0' := h0 rfl
        obtain ⟨s1, s2, s3⟩ := size_wide c c0
        simp only [List.cons_append, List.nil_append, utf8Loop, s1, s2]
        by_cases hs : c0 + c.utf8Size ≤ col
        · rw [if_pos hs, if_pos (by omega)]
          exact ih 0 _ col _ (by intros; omega) (by simp)
        · rw [if_neg hs]; exact ⟨res, rfl⟩
      · rw [if_neg hw]
        exact ih i _ col res (fun a b => by have := h0 a (by omega); omega) h1

end LineIndex

namespace Lsp

/-- Every offset, even one past the end of the text, has a position. -/
theorem position_total (text : Text) (o : Nat) : ∃ pos, position (LineIndex.new text) o = some pos := by
  obtain ⟨lc, h1, -⟩ := LineIndex.offset_lineCol text o
  unfold position
  rw [h1]
  simp only [Option.bind_some]
  rw [LineIndex.toUtf16_eq, LineIndex.new_wide]
  obtain ⟨r, hr⟩ := LineIndex.utf8Loop_total text lc.line 0 lc.col lc.col (by intros; omega)
    (by simp)
  exact ⟨_, by rw [hr]; rfl⟩

theorem range_total (text : Text) (r : Range) : ∃ p, range (LineIndex.new text) r = some p := by
  obtain ⟨a, ha⟩ := position_total text r.start
  obtain ⟨b, hb⟩ := position_total text r.stop
  exact ⟨(a, b), by unfold range; rw [ha, hb]⟩

end Lsp

theorem mapM_total {α β : Type} (f : α → Option β) : ∀ l : List α, (∀ a ∈ l, ∃ b, f a = some b) →
    ∃ bs, l.mapM f = some bs := by
  intro l
  induction l with
  | nil => intro _; exact ⟨[], by simp⟩
  | cons a l ih =>
    intro h
    obtain ⟨b, hb⟩ := h a (by simp)
    obtain ⟨bs, hbs⟩ := ih fun x hx => h x (by simp [hx])
    exact ⟨b :: bs, by simp [List.mapM_cons, hb, hbs]⟩

/-- What `mapM` in `Option` returns. -/
theorem mapM_some_iff {α β : Type} (f : α → Option β) : ∀ (l : List α) (bs : List β),
    l.mapM f = some bs ↔ l.map f = bs.map some := by
  intro l
  induction l with
  | nil => intro bs; cases bs <;> simp
  | cons a l ih =>
    intro bs
    simp only [List.mapM_cons, List.map_cons]
    cases ha : f a with
    | none => cases bs <;> simp
    | some b =>
      cases bs with
      | nil =>
        cases hl : l.mapM f <;> simp
      | cons b' bs =>
        cases hl : l.mapM f with
        | none =>
          simp only [Option.pure_def, Option.bind_eq_bind, Option.bind_some, Option.bind_none, reduceCtorEq, List.map_cons, false_iff]
          intro hh
          have := (ih bs).2 (by simpa using (List.cons.inj hh).2)
          rw [hl] at this; cases this
        | some bs' =>
          have h1 := ih bs
          rw [hl] at h1
          simp only [Option.pure_def, Option.bind_eq_bind, Option.bind_some, List.map_cons, List.cons.injEq,
            Option.some.injEq] at h1 ⊢
          rw [h1]

theorem diagnosticsOf_total (text : Text) : ∃ ds, diagnosticsOf text = some ds := by
  obtain ⟨tree, errors, h, -, -⟩ := C08_source_file_parse_total text
  unfold diagnosticsOf
  rw [h]
  refine mapM_total _ _ fun e _ => ?_
  obtain ⟨p, hp⟩ := Lsp.range_total text e.range
  exact ⟨_, by unfold toDiag; rw [hp]; rfl⟩

/-! ### the collection -/

namespace DiagnosticCollection

theorem areDiagnosticsEqual_iff (a b : Diag) : areDiagnosticsEqual a b = true ↔ a = b := by
  cases a; cases b
  simp [areDiagnosticsEqual]
  constructor
  · rintro ⟨⟨⟨h1, h2⟩, h3, h4⟩, h5⟩; exact ⟨h3, h4, h2, h1, h5⟩
  · rintro ⟨h3, h4, h2, h1, h5⟩; exact ⟨⟨⟨h1, h2⟩, h3, h4⟩, h5⟩

theorem zip_equal (a b : List Diag) :
    (b.length == a.length && (a.zip b).all fun p => areDiagnosticsEqual p.1 p.2) = true ↔ b = a := by
  induction a generalizing b with
  | nil => cases b <;> simp
  | cons x xs ih =>
    cases b with
    | nil => simp
    | cons y ys =>
      have := ih ys
      simp only [Bool.and_eq_true, beq_iff_eq] at this
      simp only [List.length_cons, List.zip_cons_cons, List.all_cons, Bool.and_eq_true, beq_iff_eq,
        areDiagnosticsEqual_iff, List.cons.injEq]
      constructor
      · rintro ⟨h1, h2, h3⟩
        exact ⟨h2.symm, this.1 ⟨by omega, h3⟩⟩
      · rintro ⟨h1, h2⟩
        obtain ⟨h3, h4⟩ := this.2 h2
        exact ⟨by omega, h1.symm, h4⟩

/-- `set_native_diagnostics`, exactly. -/
theorem set_eq (c : DiagnosticCollection) (id : Nat) (ds : List Diag) :
    c.setNativeDiagnostics id ds =
      if c.native.lookup id = some ds then c
      else { native := (id, ds) :: c.native
             changes := if id ∈ c.changes then c.changes else c.changes ++ [id] } := by
  unfold setNativeDiagnostics
  cases h : c.native.lookup id with
  | none => simp
  | some old =>
    simp only [Option.some.injEq]
    by_cases ho : old = ds
    · rw [if_pos ho, if_pos ((zip_equal ds old).2 ho)]
    · rw [if_neg ho, if_neg (fun hh => ho ((zip_equal ds old).1 hh))]

theorem set_lookup (c : DiagnosticCollection) (id : Nat) (ds : List Diag) (k : Nat) :
    (c.setNativeDiagnostics id ds).native.lookup k = if id = k then some ds else c.native.lookup k := by
  rw [set_eq]
  by_cases h : c.native.lookup id = some ds
  · rw [if_pos h]
    by_cases hk : id = k
    · subst hk; simp [h]
    · simp [hk]
  · rw [if_neg h]
    by_cases hk : id = k
    · subst hk; simp [List.lookup]
    · have : (k == id) = false := by simp; exact fun e => hk e.symm
      simp [List.lookup, this, hk]

theorem set_changes_nodup (c : DiagnosticCollection) (id : Nat) (ds : List Diag) (h : c.changes.Nodup) :
    (c.setNativeDiagnostics id ds).changes.Nodup := by
  rw [set_eq]
  split
  · exact h
  · simp only
    split
    · exact h
    · rename_i h1 h2
      rw [List.nodup_append]
      refine ⟨h, by simp, ?_⟩
      intro a ha b hb e
      simp at hb; subst hb; subst e; exact h2 ha

theorem set_changes_mem (c : DiagnosticCollection) (id : Nat) (ds : List Diag) (k : Nat) :
    k ∈ (c.setNativeDiagnostics id ds).changes ↔
      k ∈ c.changes ∨ (k = id ∧ c.native.lookup id ≠ some ds) := by
  rw [set_eq]
  split
  · rename_i h; simp [h]
  · rename_i h
    simp only
    split
    · rename_i h2
      constructor
      · exact Or.inl
      · rintro (h3 | ⟨rfl, -⟩)
        · exact h3
        · exact h2
    · simp [h]

theorem run_snoc (c : DiagnosticCollection) (ops : List DiagOp) (op : DiagOp) :
    c.run (ops ++ [op]) = (match op with
      | .set id ds => (c.run ops).setNativeDiagnostics id ds
      | .take => (c.run ops).takeChanges.1) := by
  cases op <;> simp [run, List.foldl_append]

theorem storedAfter_snoc (ops : List DiagOp) (op : DiagOp) (k : Nat) :
    storedAfter (ops ++ [op]) k = (match op with
      | .set id ds => if id = k then some ds else storedAfter ops k
      | .take => storedAfter ops k) := by
  cases op <;> simp [storedAfter, List.foldl_append]

theorem dirty_snoc (ops : List DiagOp) (op : DiagOp) (k : Nat) :
    Dirty (ops ++ [op]) k ↔ (match op with
      | .set id ds => Dirty ops k ∨ (k = id ∧ storedAfter ops id ≠ some ds)
      | .take => False) := by
  constructor
  · rintro ⟨before, ds, since, h1, h2, h3⟩
    rcases List.eq_nil_or_concat since with rfl | ⟨since', op', rfl⟩
    · rw [List.append_nil] at h1
      obtain ⟨rfl, h⟩ := List.append_inj' h1 rfl
      simp at h; subst h
      exact Or.inr ⟨rfl, h3⟩
    · rw [List.concat_eq_append, ← List.append_assoc] at h1
      obtain ⟨rfl, h⟩ := List.append_inj' h1 rfl
      simp at h; subst h
      simp only [List.concat_eq_append, List.mem_append, List.mem_singleton, not_or] at h2
      cases op with
      | take => exact (h2.2 rfl).elim
      | set id ds' => exact Or.inl ⟨before, ds, since', rfl, h2.1, h3⟩
  · cases op with
    | take => exact fun h => h.elim
    | set id ds =>
      rintro (⟨before, ds', since, rfl, h2, h3⟩ | ⟨rfl, h⟩)
      · exact ⟨before, ds', since ++ [.set id ds], by simp, by simp [h2], h3⟩
      · exact ⟨ops, ds, [], by simp, by simp, h⟩

theorem run_spec : ∀ (n : Nat) (ops : List DiagOp), ops.length = n →
    (∀ k, (run {} ops).native.lookup k = storedAfter ops k) ∧ (run {} ops).changes.Nodup ∧
      ∀ k, k ∈ (run {} ops).changes ↔ Dirty ops k := by
  intro n
  induction n with
  | zero =>
    intro ops h
    have : ops = [] := List.length_eq_zero_iff.1 h
    subst this
    refine ⟨fun k => rfl, by simp [run], fun k => ?_⟩
    simp only [run, List.foldl_nil, List.not_mem_nil, false_iff]
    rintro ⟨a, b, c, h, -⟩
    simp at h
  | succ n ih =>
    intro ops hn
    have hne : ops ≠ [] := by rintro rfl; simp at hn
    rw [← List.dropLast_concat_getLast hne]
    generalize ops.getLast hne = op
    have hl : ops.dropLast.length = n := by simp [hn]
    generalize ops.dropLast = ops at hl
    obtain ⟨i1, i2, i3⟩ := ih ops hl
    cases op with
    | set id ds =>
      rw [run_snoc]
      refine ⟨fun k => ?_, set_changes_nodup _ _ _ i2, fun k => ?_⟩
      · rw [set_lookup, storedAfter_snoc, i1]
      · rw [set_changes_mem, i3, dirty_snoc, i1]
    | take =>
      rw [run_snoc]
      simp only [takeChanges]
      refine ⟨fun k => ?_, ?_, fun k => ?_⟩
      · rw [storedAfter_snoc]; split <;> exact i1 k
      · split
        · exact i2
        · simp
      · rw [dirty_snoc]
        split
        · rename_i h; simp only [List.isEmpty_iff] at h; simp [h]
        · simp

end DiagnosticCollection
end Verif
