import Verif.Proof.VfsProof

/-
C36, C37, C38: the file store (crates/vfs), for every history of calls on a fresh `Vfs`.
-/
namespace Verif
open Spec Vfs

/-- C36, totality: a history of calls panics exactly if it writes to more than 2^32-1 distinct paths. -/
theorem C36_vfs_total (ops : List VfsOp) :
    (Vfs.default.run ops).isSome ↔ (pathsOf ops).length ≤ 4294967295 := by
  constructor
  · intro h
    apply Classical.byContradiction
    intro hn
    rw [(run_rel ops).2 hn] at h
    cases h
  · intro h
    obtain ⟨v, hv, _⟩ := (run_rel ops).1 h
    simp [hv]

/-- C36: after any history, a path has an id exactly if the last write to it was `Some`, and the
contents of that id are those of that write. -/
theorem C36_vfs_is_a_map {ops : List VfsOp} {v : Vfs} (h : Vfs.default.run ops = some v) (p : AbsPath) :
    match contentsAfter p ops with
    | none => v.fileId p = some none
    | some c => ∃ id, v.fileId p = some (some id) ∧ v.fileContents id = some c := by
  have hr := rel_of_run h
  have hf := fileId_rel hr p
  cases hc : contentsAfter p ops with
  | none => simpa [hc] using hf
  | some c =>
    have hm : p ∈ pathsOf ops := by
      apply Classical.byContradiction
      intro hn
      rw [hr.fresh p hn] at hc; cases hc
    obtain ⟨i, hi⟩ := idxOf?_mem hm
    refine ⟨i, by simpa [hc, hi] using hf, ?_⟩
    rw [fileContents_rel hr (idxOf?_some hi), hc]

/-- C36: `file_id` never panics, and the files listed by `iter` are exactly the existing ones, each
once, in increasing order of ids. -/
theorem C36_vfs_iter {ops : List VfsOp} {v : Vfs} (h : Vfs.default.run ops = some v) :
    ∃ files, v.iter = some files ∧ files.Pairwise (fun a b => a.1 < b.1) ∧
      ∀ id p, (id, p) ∈ files ↔ v.fileId p = some (some id) := by
  have hr := rel_of_run h
  have hlen : v.data.length = (pathsOf ops).length := by rw [hr.data]; simp
  have hmap : ∀ l : List Nat, (∀ i ∈ l, i < (pathsOf ops).length) →
      ∃ files, (l.mapM fun id => (v.filePath id).map (id, ·)) = some files ∧
        files.map Prod.fst = l ∧ ∀ id p, (id, p) ∈ files ↔ id ∈ l ∧ v.filePath id = some p := by
    intro l hl
    induction l with
    | nil => exact ⟨[], by simp, rfl, by simp⟩
    | cons i l ih =>
      obtain ⟨fs, h1, h2, h3⟩ := ih fun j hj => hl j (List.mem_cons_of_mem _ hj)
      have hi : v.filePath i = some (pathsOf ops)[i]! := by
        have := hl i (List.mem_cons_self)
        simp [filePath, hr.paths, this]
      refine ⟨(i, (pathsOf ops)[i]!) :: fs, by simp [List.mapM_cons, h1, hi], by simp [h2], ?_⟩
      intro id p
      simp only [List.mem_cons, h3, Prod.mk.injEq]
      constructor
      · rintro (⟨rfl, rfl⟩ | ⟨a, b⟩)
        · exact ⟨Or.inl rfl, hi⟩
        · exact ⟨Or.inr a, b⟩
      · rintro ⟨rfl | a, b⟩
        · rw [hi] at b; exact Or.inl ⟨rfl, (Option.some.inj b).symm⟩
        · exact Or.inr ⟨a, b⟩
  obtain ⟨files, h1, h2, h3⟩ := hmap
    ((List.range v.data.length).filter fun id => (v.fileContents id).isSome) (by
      intro i hi
      simp only [List.mem_filter, List.mem_range] at hi
      omega)
  refine ⟨files, h1, ?_, ?_⟩
  · have : (files.map Prod.fst).Pairwise (· < ·) := by
      rw [h2]; exact List.Pairwise.filter _ List.pairwise_lt_range
    exact List.pairwise_map.1 this
  · intro id p
    rw [h3, fileId_rel hr]
    simp only [List.mem_filter, List.mem_range, filePath, hr.paths]
    constructor
    · rintro ⟨⟨_, hc⟩, hp⟩
      rw [fileContents_rel hr hp] at hc
      simp [hc, idxOf?_of_get hr.nodup hp]
    · intro hi
      cases hc : contentsAfter p ops with
      | none => simp [hc] at hi
      | some c =>
        simp only [hc, Option.isSome_some, if_true, Option.some.injEq] at hi
        have hp := idxOf?_some hi
        refine ⟨⟨?_, ?_⟩, hp⟩
        · have := (List.getElem?_eq_some_iff.1 hp).1; omega
        · rw [fileContents_rel hr hp, hc]; rfl

theorem pathsOf_prefix (ops more : List VfsOp) : pathsOf ops <+: pathsOf (ops ++ more) := by
  induction more generalizing ops with
  | nil => simp
  | cons op more ih =>
    have h1 : pathsOf ops <+: pathsOf (ops ++ [op]) := by
      rw [pathsOf_snoc]
      cases op with
      | take => exact List.prefix_refl _
      | write p c =>
        simp only
        split
        · exact List.prefix_refl _
        · exact List.prefix_append _ _
    have := h1.trans (ih (ops ++ [op]))
    simpa using this

/-- C37: the id a path has at some point is its id whenever it has one later, whatever happens in
between (deletion and re-creation included), no other path ever has it, and `file_path` gives the
path back at any time. -/
theorem C37_ids_stable_unique {ops more : List VfsOp} {v w : Vfs} {p : AbsPath} {id : Nat}
    (hv : Vfs.default.run ops = some v) (hw : Vfs.default.run (ops ++ more) = some w)
    (hid : v.fileId p = some (some id)) :
    v.filePath id = some p ∧ w.filePath id = some p ∧
      (∀ q id', w.fileId q = some (some id') → (q = p ↔ id' = id)) := by
  have rv := rel_of_run hv
  have rw' := rel_of_run hw
  have geti : ∀ {ops v q i}, Rel ops v → v.fileId q = some (some i) → (pathsOf ops)[i]? = some q := by
    intro ops v q i hr h
    rw [fileId_rel hr] at h
    split at h
    · exact idxOf?_some (Option.some.inj h)
    · cases h
  have hp := geti rv hid
  have hp' : (pathsOf (ops ++ more))[id]? = some p := by
    obtain ⟨t, ht⟩ := pathsOf_prefix ops more
    rw [← ht, List.getElem?_append_left (List.getElem?_eq_some_iff.1 hp).1]
    exact hp
  refine ⟨by rw [filePath, rv.paths]; exact hp, by rw [filePath, rw'.paths]; exact hp', ?_⟩
  intro q id' hq
  have hq' := geti rw' hq
  constructor
  · rintro rfl
    have h1 := idxOf?_of_get rw'.nodup hq'
    rw [idxOf?_of_get rw'.nodup hp'] at h1
    exact (Option.some.inj h1).symm
  · rintro rfl
    rw [hp'] at hq'
    exact (Option.some.inj hq').symm

/-- C38: a write reports whether it changed the contents of its path. -/
theorem C38_write_reports_change {ops : List VfsOp} {v w : Vfs} {p : AbsPath} {c : Option Bytes} {b : Bool}
    (hv : Vfs.default.run ops = some v) (hs : v.setFileContents p c = some (w, b)) :
    b = true ↔ contentsAfter p ops ≠ c := by
  have hrun : Vfs.default.run (ops ++ [.write p c]) = some w := by
    rw [run_append, hv]; simp [run, step, hs]
  have hb : (pathsOf (ops ++ [.write p c])).length ≤ 4294967295 :=
    (C36_vfs_total _).1 (by rw [hrun]; rfl)
  obtain ⟨w', hw', _⟩ := set_rel (rel_of_run hv) p c hb
  rw [hs] at hw'
  have : b = decide (contentsAfter p ops ≠ c) := by
    have := congrArg (Option.map Prod.snd) hw'
    simpa using this
  rw [this]; simp

/-- C38: draining the log returns exactly the effective changes since the previous drain, in order,
each with the path it changed and its kind. -/
theorem C38_take_changes {ops : List VfsOp} {v : Vfs} (hv : Vfs.default.run ops = some v) :
    (v.takeChanges.2).map (fun c => (v.filePath c.fileId, c.kind)) =
      (pending ops).map (fun c => (some c.1, c.2)) := (rel_of_run hv).changes

/-- Non-vacuity of C36-C38: a history with creation, modification, a write that changes nothing,
deletion and re-creation, over two paths. -/
def vfsExample : List VfsOp :=
  [.write "/a" (some (.utf8 ['x'])), .write "/b" none, .write "/a" (some (.utf8 ['x'])), .take,
   .write "/b" (some (.invalid [255])), .write "/a" none, .write "/a" (some (.utf8 ['y']))]

example : (pathsOf vfsExample).length ≤ 4294967295 := by decide +kernel

example : (Vfs.default.run vfsExample).bind (·.fileId "/a") = some (some 0) ∧
    (Vfs.default.run vfsExample).bind (·.fileId "/c") = some none ∧
    (Vfs.default.run vfsExample).bind (·.fileContents 0) = some (.utf8 ['y']) ∧
    (Vfs.default.run vfsExample).map (·.changes) =
      some [⟨1, .create⟩, ⟨0, .delete⟩, ⟨0, .create⟩] := by decide +kernel

example : pending vfsExample = [("/b", .create), ("/a", .delete), ("/a", .create)] ∧
    contentsAfter "/a" vfsExample = some (.utf8 ['y']) ∧
    contentsAfter "/c" vfsExample = none := by decide +kernel

end Verif
