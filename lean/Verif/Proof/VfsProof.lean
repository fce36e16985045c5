import Verif.Spec.FileStore

namespace Verif
open Spec

namespace Vfs

theorem run_append (v : Vfs) (a b : List VfsOp) :
    v.run (a ++ b) = (v.run a).bind fun w => w.run b := by
  induction a generalizing v with
  | nil => rfl
  | cons op a ih =>
    simp only [List.cons_append, run]
    cases v.step op with
    | none => rfl
    | some r => exact ih r.1

theorem contentsAfter_snoc (p : AbsPath) (ops : List VfsOp) (op : VfsOp) :
    contentsAfter p (ops ++ [op]) = (match op with
      | .write q c => if q = p then c else contentsAfter p ops
      | .take => contentsAfter p ops) := by
  cases op <;> simp [contentsAfter, List.foldl_append]

theorem pathsOf_snoc (ops : List VfsOp) (op : VfsOp) :
    pathsOf (ops ++ [op]) = (match op with
      | .write q _ => if q ∈ pathsOf ops then pathsOf ops else pathsOf ops ++ [q]
      | .take => pathsOf ops) := by
  cases op <;> (rw [pathsOf, List.foldl_append]; rfl)

theorem pending_go_snoc (past acc ops op) :
    pending.go past acc (ops ++ [op]) = (match op with
      | .take => []
      | .write p c => (match changeOf (contentsAfter p (past ++ ops)) c with
          | none => pending.go past acc ops
          | some k => pending.go past acc ops ++ [(p, k)])) := by
  induction ops generalizing past acc with
  | nil => cases op <;> simp [pending.go] <;> rfl
  | cons o ops ih =>
    cases o <;> simp only [List.cons_append, pending.go, ih] <;> cases op <;> simp

theorem pending_snoc (ops op) :
    pending (ops ++ [op]) = (match op with
      | .take => []
      | .write p c => (match changeOf (contentsAfter p ops) c with
          | none => pending ops
          | some k => pending ops ++ [(p, k)])) := by
  have := pending_go_snoc [] [] ops op
  simpa [pending] using this

/-- The state of a store after the history `ops`. -/
structure Rel (ops : List VfsOp) (v : Vfs) : Prop where
  paths : v.paths = pathsOf ops
  nodup : (pathsOf ops).Nodup
  data : v.data = (pathsOf ops).map (contentsAfter · ops)
  fresh : ∀ p, p ∉ pathsOf ops → contentsAfter p ops = none
  changes : v.changes.map (fun c => (v.filePath c.fileId, c.kind)) =
    (pending ops).map fun c => (some c.1, c.2)

theorem Rel.default : Rel [] Vfs.default :=
  ⟨rfl, by simp [pathsOf], rfl, fun _ _ => rfl, rfl⟩

theorem idxOf?_some {l : List AbsPath} {p : AbsPath} {i : Nat} (h : l.idxOf? p = some i) :
    l[i]? = some p := by
  induction l generalizing i with
  | nil => simp [List.idxOf?] at h
  | cons a l ih =>
    rw [List.idxOf?_cons] at h
    by_cases ha : a = p
    · simp [ha] at h; subst h; simp [ha]
    · simp [ha] at h
      obtain ⟨j, hj, rfl⟩ := h
      simpa using ih hj

theorem idxOf?_mem {l : List AbsPath} {p : AbsPath} (h : p ∈ l) :
    ∃ i, l.idxOf? p = some i := by
  induction l with
  | nil => simp at h
  | cons a l ih =>
    rw [List.idxOf?_cons]
    by_cases ha : a = p
    · simp [ha]
    · have : p ∈ l := by simpa [Ne.symm ha, eq_comm, ha] using h
      obtain ⟨i, hi⟩ := ih this
      exact ⟨i + 1, by simp [ha, hi]⟩

theorem idxOf?_not_mem {l : List AbsPath} {p : AbsPath} (h : p ∉ l) : l.idxOf? p = none := by
  cases hc : l.idxOf? p with
  | none => rfl
  | some i => exact absurd (List.mem_of_getElem? (idxOf?_some hc)) h

theorem idxOf?_of_get {l : List AbsPath} (hn : l.Nodup) {p : AbsPath} {i : Nat}
    (h : l[i]? = some p) : l.idxOf? p = some i := by
  obtain ⟨j, hj⟩ := idxOf?_mem (List.mem_of_getElem? h)
  have hj' := idxOf?_some hj
  rw [hj]
  obtain ⟨hi1, hi2⟩ := List.getElem?_eq_some_iff.1 h
  obtain ⟨hj1, hj2⟩ := List.getElem?_eq_some_iff.1 hj'
  have := (List.getElem?_inj hj1 hn).1 (hj'.trans h.symm)
  rw [this]

theorem map_set_at (l : List AbsPath) (hn : l.Nodup) (f : AbsPath → Option Bytes) (p : AbsPath)
    (c : Option Bytes) {i : Nat} (h : l[i]? = some p) :
    (l.map f).set i c = l.map fun q => if p = q then c else f q := by
  apply List.ext_getElem?
  intro j
  rw [List.getElem?_set]
  obtain ⟨hi1, hi2⟩ := List.getElem?_eq_some_iff.1 h
  by_cases hij : i = j
  · subst hij; simp [hi1, hi2]
  · simp only [hij, if_false, List.getElem?_map]
    cases hj : l[j]? with
    | none => rfl
    | some q =>
      have hne : p ≠ q := by
        intro e
        subst e
        obtain ⟨hj1, hj2⟩ := List.getElem?_eq_some_iff.1 hj
        exact hij ((List.getElem?_inj hi1 hn).1 (h.trans hj.symm))
      simp [hne]

/-- `alloc_file_id`, exactly. -/
theorem alloc_rel {ops v} (h : Rel ops v) (p : AbsPath) :
    (p ∈ pathsOf ops ∧ (∃ i, (pathsOf ops)[i]? = some p ∧
      v.allocFileId p = if i < 4294967295 then some (v, i) else none)) ∨
    (p ∉ pathsOf ops ∧ v.allocFileId p =
      if (pathsOf ops).length < 4294967295 then
        some ({ v with paths := v.paths ++ [p], data := v.data ++ [none] }, (pathsOf ops).length)
      else none) := by
  have hl : v.data.length = (pathsOf ops).length := by rw [h.data]; simp
  by_cases hp : p ∈ pathsOf ops
  · left
    obtain ⟨i, hi⟩ := idxOf?_mem hp
    refine ⟨hp, i, idxOf?_some hi, ?_⟩
    have hi2 := (List.getElem?_eq_some_iff.1 (idxOf?_some hi)).1
    simp only [allocFileId, intern, h.paths, hi]
    by_cases hlt : i < 4294967295
    · simp only [hlt, if_true]
      rw [show max v.data.length (i + 1) - v.data.length = 0 by omega]
      simp [← h.paths]
    · simp only [hlt, if_false]
  · right
    refine ⟨hp, ?_⟩
    simp only [allocFileId, intern, h.paths, idxOf?_not_mem hp]
    by_cases hlt : (pathsOf ops).length < 4294967295
    · simp only [hlt, if_true]
      rw [show max v.data.length ((pathsOf ops).length + 1) - v.data.length = 1 by omega]
      rfl
    · simp only [hlt, if_false]

/-- The changes of a store only mention interned paths. -/
theorem Rel.changes_lt {ops v} (h : Rel ops v) {c : ChangedFile} (hc : c ∈ v.changes) :
    c.fileId < (pathsOf ops).length := by
  have : (v.filePath c.fileId, c.kind) ∈ (pending ops).map fun c => (some c.1, c.2) := by
    rw [← h.changes]; exact List.mem_map_of_mem hc
  obtain ⟨x, _, hx⟩ := List.mem_map.1 this
  have : v.filePath c.fileId = some x.1 := by simpa using (congrArg Prod.fst hx).symm
  rw [filePath, h.paths] at this
  exact (List.getElem?_eq_some_iff.1 this).1

/-- The rest of `set_file_contents` once the file has its id. -/
def setTail (v : Vfs) (i : Nat) (c : Option Bytes) : Option (Vfs × Bool) :=
    match v.data[i]? with
      | none => none
      | some old =>
        match old, c with
        | none, none => some (v, false)
        | none, some _ =>
          some ({ v with data := v.data.set i c, changes := v.changes ++ [⟨i, .create⟩] }, true)
        | some _, none =>
          some ({ v with data := v.data.set i c, changes := v.changes ++ [⟨i, .delete⟩] }, true)
        | some o, some n =>
          if o = n then some (v, false)
          else some ({ v with data := v.data.set i c, changes := v.changes ++ [⟨i, .modify⟩] }, true)

theorem setFileContents_eq (v : Vfs) (p : AbsPath) (c : Option Bytes) :
    v.setFileContents p c = (match v.allocFileId p with
      | none => none
      | some (v, id) => setTail v id c) := rfl

/-- What the tail of `set_file_contents` does once the file has its id. -/
theorem set_tail {ops : List VfsOp} {v : Vfs} (p : AbsPath) (c : Option Bytes) (i : Nat)
    (L : List AbsPath) (hL : L.Nodup) (hi : L[i]? = some p) (hp : v.paths = L)
    (hd : v.data = L.map (contentsAfter · ops))
    (hf : ∀ q, q ∉ L → contentsAfter q ops = none)
    (hch : v.changes.map (fun c => (v.filePath c.fileId, c.kind)) =
      (pending ops).map fun c => (some c.1, c.2))
    (hLp : pathsOf (ops ++ [.write p c]) = L) :
    ∃ w, setTail v i c =
      some (w, decide (contentsAfter p ops ≠ c)) ∧ Rel (ops ++ [.write p c]) w := by
  have hget : v.data[i]? = some (contentsAfter p ops) := by rw [hd]; simp [hi]
  simp only [setTail, hget]
  have hfresh : ∀ q, q ∉ L → contentsAfter q (ops ++ [.write p c]) = none := by
    intro q hq
    rw [contentsAfter_snoc]
    have : p ≠ q := by
      rintro rfl
      exact hq (List.mem_of_getElem? hi)
    simp [this, hf q hq]
  -- the write changes nothing
  have same : contentsAfter p ops = c → Rel (ops ++ [.write p c]) v := by
    intro he
    refine ⟨hp.trans hLp.symm, hLp ▸ hL, ?_, by rw [hLp]; exact hfresh, ?_⟩
    · rw [hLp, hd]
      apply List.map_congr_left
      intro q _
      rw [contentsAfter_snoc]
      by_cases hq : p = q
      · subst hq; simp [he]
      · simp [hq]
    · rw [hch, pending_snoc]; simp [changeOf, he]
  have diff : ∀ k, changeOf (contentsAfter p ops) c = some k →
      Rel (ops ++ [.write p c]) { v with data := v.data.set i c, changes := v.changes ++ [⟨i, k⟩] } := by
    intro k hk
    refine ⟨hp.trans hLp.symm, hLp ▸ hL, ?_, by rw [hLp]; exact hfresh, ?_⟩
    · simp only
      rw [hLp, hd, map_set_at L hL _ p c hi]
      apply List.map_congr_left
      intro q _
      rw [contentsAfter_snoc]
    · rw [pending_snoc]
      have hfp : ({ v with data := v.data.set i c, changes := v.changes ++ [⟨i, k⟩] } : Vfs).filePath =
        v.filePath := rfl
      simp only [hfp, hk, List.map_append, hch]
      simp [filePath, hp, hi]
  cases ho : contentsAfter p ops with
  | none =>
    cases c with
    | none => exact ⟨v, by simp, same ho⟩
    | some n => exact ⟨_, by simp, diff .create (by simp [changeOf, ho])⟩
  | some o =>
    cases c with
    | none => exact ⟨_, by simp, diff .delete (by simp [changeOf, ho])⟩
    | some n =>
      by_cases hon : o = n
      · exact ⟨v, by simp [hon], same (by rw [ho, hon])⟩
      · exact ⟨_, by simp [hon], diff .modify (by simp [changeOf, ho, hon])⟩

/-- A write, exactly: it panics if there is no id left for the path, and otherwise reports whether
the contents changed. -/
theorem set_rel {ops v} (h : Rel ops v) (p : AbsPath) (c : Option Bytes)
    (hb : (pathsOf (ops ++ [.write p c])).length ≤ 4294967295) :
    ∃ w, v.setFileContents p c = some (w, decide (contentsAfter p ops ≠ c)) ∧
      Rel (ops ++ [.write p c]) w := by
  rcases alloc_rel h p with ⟨hp, i, hi, ha⟩ | ⟨hp, ha⟩
  · have hLp : pathsOf (ops ++ [.write p c]) = pathsOf ops := by rw [pathsOf_snoc]; simp [hp]
    have hlt : i < 4294967295 := by
      have := (List.getElem?_eq_some_iff.1 hi).1
      rw [hLp] at hb; omega
    rw [if_pos hlt] at ha
    simp only [setFileContents_eq, ha]
    exact set_tail p c i _ h.nodup hi h.paths h.data h.fresh h.changes hLp
  · have hLp : pathsOf (ops ++ [.write p c]) = pathsOf ops ++ [p] := by rw [pathsOf_snoc]; simp [hp]
    have hlt : (pathsOf ops).length < 4294967295 := by rw [hLp] at hb; simp at hb; omega
    rw [if_pos hlt] at ha
    simp only [setFileContents_eq, ha]
    have hn : (pathsOf ops ++ [p]).Nodup := by
      rw [List.nodup_append]
      refine ⟨h.nodup, by simp, ?_⟩
      intro a hain b hb e
      simp at hb; subst hb; subst e; exact hp hain
    refine set_tail (v := { v with paths := v.paths ++ [p], data := v.data ++ [none] })
      p c _ _ hn (by simp) (by simp [h.paths]) ?_ ?_ ?_ hLp
    · simp [h.data, h.fresh p hp]
    · intro q hq
      simp at hq
      exact h.fresh q hq.1
    · rw [← h.changes]
      apply List.map_congr_left
      intro ch hch
      have := h.changes_lt hch
      simp only [filePath]
      rw [List.getElem?_append_left (by rw [h.paths]; exact this)]

theorem set_panics {ops v} (h : Rel ops v) (p : AbsPath) (c : Option Bytes)
    (hl : (pathsOf ops).length ≤ 4294967295)
    (hb : ¬ (pathsOf (ops ++ [.write p c])).length ≤ 4294967295) : v.setFileContents p c = none := by
  rcases alloc_rel h p with ⟨hp, i, hi, ha⟩ | ⟨hp, ha⟩
  · exact absurd (by rw [pathsOf_snoc]; simpa [hp] using hl) hb
  · have hLp : pathsOf (ops ++ [.write p c]) = pathsOf ops ++ [p] := by rw [pathsOf_snoc]; simp [hp]
    rw [if_neg (by rw [hLp] at hb; simp at hb; omega)] at ha
    simp only [setFileContents_eq, ha]

theorem take_rel {ops v} (h : Rel ops v) : Rel (ops ++ [.take]) v.takeChanges.1 := by
  refine ⟨?_, ?_, ?_, ?_, ?_⟩
  · rw [pathsOf_snoc]; exact h.paths
  · rw [pathsOf_snoc]; exact h.nodup
  · rw [pathsOf_snoc]
    simp only [takeChanges, h.data]
    apply List.map_congr_left
    intro q _
    rw [contentsAfter_snoc]
  · intro q hq
    rw [pathsOf_snoc] at hq
    rw [contentsAfter_snoc]; exact h.fresh q hq
  · simp [takeChanges, pending_snoc]

theorem pathsOf_length_snoc (ops op) :
    (pathsOf ops).length ≤ (pathsOf (ops ++ [op])).length := by
  rw [pathsOf_snoc]
  cases op with
  | take => simp
  | write p c => simp only; split <;> simp

theorem run_rel (ops : List VfsOp) :
    ((pathsOf ops).length ≤ 4294967295 → ∃ v, Vfs.default.run ops = some v ∧ Rel ops v) ∧
    (¬ (pathsOf ops).length ≤ 4294967295 → Vfs.default.run ops = none) := by
  have key : ∀ n, ∀ ops : List VfsOp, ops.length = n →
      ((pathsOf ops).length ≤ 4294967295 → ∃ v, Vfs.default.run ops = some v ∧ Rel ops v) ∧
      (¬ (pathsOf ops).length ≤ 4294967295 → Vfs.default.run ops = none) := by
    intro n
    induction n with
    | zero =>
      intro ops h
      have : ops = [] := List.length_eq_zero_iff.1 h
      subst this
      exact ⟨fun _ => ⟨_, rfl, Rel.default⟩, fun h => absurd (by simp [pathsOf]) h⟩
    | succ n ih =>
      intro ops hn
      have hne : ops ≠ [] := by rintro rfl; simp at hn
      rw [← List.dropLast_concat_getLast hne]
      generalize ops.getLast hne = op
      have hl : ops.dropLast.length = n := by simp [hn]
      generalize ops.dropLast = ops at hl
      have hmono := pathsOf_length_snoc ops op
      obtain ⟨ih1, ih2⟩ := ih ops hl
      constructor
      · intro hb
        obtain ⟨v, hv, hr⟩ := ih1 (Nat.le_trans hmono hb)
        rw [run_append, hv]
        cases op with
        | take => exact ⟨_, rfl, take_rel hr⟩
        | write p c =>
          obtain ⟨w, hw, hr'⟩ := set_rel hr p c hb
          exact ⟨w, by simp [run, step, hw], hr'⟩
      · intro hb
        rw [run_append]
        by_cases hc : (pathsOf ops).length ≤ 4294967295
        · obtain ⟨v, hv, hr⟩ := ih1 hc
          rw [hv]
          cases op with
          | take => exact absurd (by rw [pathsOf_snoc]; exact hc) hb
          | write p c => simp [run, step, set_panics hr p c hc hb]
        · rw [ih2 hc]; rfl
  exact key _ ops rfl

theorem rel_of_run {ops v} (h : Vfs.default.run ops = some v) : Rel ops v := by
  by_cases hb : (pathsOf ops).length ≤ 4294967295
  · obtain ⟨w, hw, hr⟩ := (run_rel ops).1 hb
    rw [hw] at h; cases h; exact hr
  · rw [(run_rel ops).2 hb] at h; cases h

theorem fileId_rel {ops v} (h : Rel ops v) (p : AbsPath) :
    v.fileId p = some (if (contentsAfter p ops).isSome then (pathsOf ops).idxOf? p else none) := by
  simp only [fileId, internerGet, h.paths]
  cases hi : (pathsOf ops).idxOf? p with
  | none => simp
  | some i =>
    have := idxOf?_some hi
    simp [h.data, this]

theorem fileContents_rel {ops v} (h : Rel ops v) {i p} (hi : (pathsOf ops)[i]? = some p) :
    v.fileContents i = contentsAfter p ops := by
  simp only [fileContents, h.data, List.getElem?_map, hi, Option.map_some]
  cases contentsAfter p ops <;> rfl

end Vfs
end Verif
