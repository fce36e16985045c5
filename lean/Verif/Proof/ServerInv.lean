import Verif.Proof.ServerVfs

/-
What `handle_event` does after the dispatch, and the invariant of the main loop.
-/
namespace Verif
open Spec

namespace Vfs

/-- The contents of a path. -/
def contentsOf (v : Vfs) (p : AbsPath) : Option Bytes := (v.paths.idxOf? p).bind v.fileContents

theorem contentsOf_at {v : Vfs} (h : WF v) {id : Nat} {p : AbsPath} (hp : v.paths[id]? = some p) :
    v.contentsOf p = v.fileContents id := by
  unfold contentsOf
  rw [idxOf?_of_get h.nodup hp]; rfl

theorem fileId_contentsOf {v : Vfs} (h : WF v) (p : AbsPath) :
    v.contentsOf p = ((v.fileId p).join).bind v.fileContents := by
  rw [fileId_wf h]
  unfold contentsOf
  cases v.paths.idxOf? p with
  | none => rfl
  | some i =>
    simp only [Option.bind_some, Option.join_some, Option.filter_some]
    cases hc : v.fileContents i <;> simp [hc]

theorem contentsOf_some {v : Vfs} (h : WF v) {p : AbsPath} {b : Bytes} :
    v.contentsOf p = some b ↔ ∃ id, v.fileId p = some (some id) ∧ v.fileContents id = some b := by
  rw [fileId_contentsOf h, fileId_wf h]
  simp only [Option.join_some]
  generalize (Option.filter (fun id => (v.fileContents id).isSome) (List.idxOf? p v.paths)) = x
  cases x <;> simp

theorem Wrote.contentsOf {v w : Vfs} {p c b id} (h : Wrote v w p c b id) (hv : WF v) (q : AbsPath) :
    w.contentsOf q = if q = p then c else v.contentsOf q := by
  by_cases hq : q = p
  · subst hq
    rw [if_pos rfl, contentsOf_at h.wf h.at_, h.contents, if_pos rfl]
  · rw [if_neg hq]
    have hidx : ∀ i : Nat, w.paths[i]? = some q ↔ v.paths[i]? = some q := by
      intro i
      rcases h.paths with e | e
      · rw [e]
      · rw [e]
        by_cases hi : i < v.paths.length
        · rw [List.getElem?_append_left hi]
        · rw [List.getElem?_append_right (by omega), List.getElem?_eq_none (l := v.paths) (by omega)]
          constructor
          · intro hh
            have := List.mem_of_getElem? hh
            simp at this; exact absurd this hq
          · intro hh; cases hh
    cases hi : v.paths.idxOf? q with
    | some i =>
      have h1 := idxOf?_some hi
      rw [contentsOf_at hv h1, contentsOf_at h.wf ((hidx i).2 h1), h.contents, if_neg]
      rintro rfl
      have := (hidx i).2 h1
      have e := h.at_
      rw [this] at e
      exact hq (Option.some.inj e)
    | none =>
      have h2 : w.paths.idxOf? q = none := by
        cases hw : w.paths.idxOf? q with
        | none => rfl
        | some j =>
          have := (hidx j).1 (idxOf?_some hw)
          rw [idxOf?_of_get hv.nodup this] at hi; cases hi
      unfold Vfs.contentsOf; rw [hi, h2]; rfl

theorem Wrote.prefix {v w : Vfs} {p c b id} (h : Wrote v w p c b id) : v.paths <+: w.paths := by
  rcases h.paths with e | e
  · rw [e]; exact List.prefix_refl _
  · rw [e]; exact List.prefix_append _ _

theorem Wrote.changes_nil {v w : Vfs} {p c b id} (h : Wrote v w p c b id) (hv : WF v) (hn : w.changes = []) :
    v.changes = [] ∧ ∀ q, w.contentsOf q = v.contentsOf q := by
  rw [h.changes] at hn
  obtain ⟨h1, h2⟩ := List.append_eq_nil_iff.1 hn
  refine ⟨h1, fun q => ?_⟩
  rw [h.contentsOf hv]
  by_cases hq : q = p
  · subst hq
    rw [if_pos rfl]
    have hid : v.contentsOf q = v.fileContents id := by
      have := contentsOf_at h.wf h.at_
      rcases h.paths with e | e
      · exact contentsOf_at hv (by rw [← e]; exact h.at_)
      · by_cases hi : id < v.paths.length
        · refine contentsOf_at hv ?_
          have := h.at_
          rw [e, List.getElem?_append_left hi] at this
          exact this
        · rw [fileContents_none hv (by omega)]
          have hnm : q ∉ v.paths := by
            have := h.wf.nodup
            rw [e, List.nodup_append] at this
            exact fun hm => this.2.2 q hm q (by simp) rfl
          unfold Vfs.contentsOf
          rw [idxOf?_not_mem hnm]; rfl
    rw [hid]
    apply Classical.byContradiction
    intro hne
    have : ∃ k, changeOf (v.fileContents id) c = some k := by
      unfold changeOf
      rw [if_neg (fun e => hne e.symm)]
      split <;> exact ⟨_, rfl⟩
    obtain ⟨k, hk⟩ := this
    rw [hk] at h2
    cases h2
  · rw [if_neg hq]

end Vfs

namespace Server

def openDocs (s : Server) : List AbsPath := s.memDocs.map (·.1)

/-- The diagnostics in a task queue. -/
def entries (tasks : List Task) : List (Nat × List Diag) :=
  tasks.flatMap fun
    | .diagnostics ds => ds
    | .response _ _ => []

/-- The open documents have contents, which are valid UTF-8. -/
def Docs (s : Server) : Prop := ∀ p ∈ openDocs s, ∃ t, s.vfs.contentsOf p = some (.utf8 t)

/-- Diagnostics of exactly the open documents, for their current text. -/
structure Fresh (diag : Text → Option (List Diag)) (s : Server) (ds : List (Nat × List Diag)) : Prop where
  sound : ∀ x ∈ ds, ∃ p ∈ openDocs s, ∃ t, s.vfs.paths[x.1]? = some p ∧ s.vfs.contentsOf p = some (.utf8 t) ∧
    diag t = some x.2
  complete : ∀ p ∈ openDocs s, ∃ x ∈ ds, s.vfs.paths[x.1]? = some p

theorem update_sub {s : Server} (hw : s.vfs.WF) (hd : Docs s) (hs : ∀ id, SyncAt s id) {p : AbsPath}
    (hp : p ∈ openDocs s) : ∃ id t, (s.vfs.fileId p).join = some id ∧ s.vfs.paths[id]? = some p ∧
      s.vfs.contentsOf p = some (.utf8 t) ∧ s.fileText id = some t := by
  obtain ⟨t, ht⟩ := hd p hp
  obtain ⟨id, h1, h2⟩ := (Vfs.contentsOf_some hw).1 ht
  have := hs id
  unfold SyncAt at this
  rw [h2] at this
  exact ⟨id, t, by rw [h1]; rfl, ((Vfs.fileId_iff hw p id).1 h1).1, ht, this⟩

theorem update_spec {diag o} {s s' : Server} (hw : s.vfs.WF) (hd : Docs s) (hs : ∀ id, SyncAt s id)
    (h : maybeUpdateDiagnostics diag o s = some s') :
    ∃ ds, s' = { s with tasks := s.tasks ++ [.diagnostics ds] } ∧ Fresh diag s ds := by
  unfold maybeUpdateDiagnostics at h
  cases h1 : (o.docs (s.memDocs.map (·.1))).mapM fun path => (s.vfs.fileId path).join with
  | none => rw [h1] at h; cases h
  | some subs =>
    rw [h1] at h
    simp only at h
    cases h2 : subs.mapM (fileDiagnostics diag s) with
    | none => rw [h2] at h; cases h
    | some ds =>
      rw [h2] at h
      simp only [Option.some.injEq] at h
      refine ⟨ds, h.symm, ?_, ?_⟩
      · intro x hx
        have e1 := (mapM_some_iff _ _ _).1 h1
        have e2 := (mapM_some_iff _ _ _).1 h2
        have : some x ∈ subs.map (fileDiagnostics diag s) := by
          rw [e2]; exact List.mem_map_of_mem hx
        obtain ⟨id, hid, hx'⟩ := List.mem_map.1 this
        have : some id ∈ (o.docs (s.memDocs.map (·.1))).map fun path => (s.vfs.fileId path).join := by
          rw [e1]; exact List.mem_map_of_mem hid
        obtain ⟨p, hp, hpid⟩ := List.mem_map.1 this
        have hp' : p ∈ openDocs s := (o.docs_perm _).mem_iff.1 hp
        obtain ⟨id', t, g1, g2, g3, g4⟩ := update_sub hw hd hs hp'
        rw [hpid] at g1
        simp only [Option.some.injEq] at g1
        subst g1
        unfold fileDiagnostics at hx'
        rw [g4] at hx'
        simp only at hx'
        obtain ⟨d, hd1, hd2⟩ := Option.map_eq_some_iff.1 hx'
        subst hd2
        exact ⟨p, hp', t, g2, g3, hd1⟩
      · intro p hp
        obtain ⟨id', t, g1, g2, g3, g4⟩ := update_sub hw hd hs hp
        have e1 := (mapM_some_iff _ _ _).1 h1
        have e2 := (mapM_some_iff _ _ _).1 h2
        have : some id' ∈ subs.map some := by
          rw [← e1, ← g1]
          exact List.mem_map_of_mem (f := fun path => (s.vfs.fileId path).join) ((o.docs_perm _).mem_iff.2 hp)
        obtain ⟨i, hi, he⟩ := List.mem_map.1 this
        simp only [Option.some.injEq] at he
        subst he
        have : fileDiagnostics diag s i ∈ ds.map some := by
          rw [← e2]; exact List.mem_map_of_mem hi
        obtain ⟨x, hx, hxe⟩ := List.mem_map.1 this
        unfold fileDiagnostics at hxe
        rw [g4] at hxe
        simp only at hxe
        obtain ⟨d, hd1, hd2⟩ := Option.map_eq_some_iff.1 hxe.symm
        exact ⟨x, hx, by rw [← hd2]; exact g2⟩

theorem update_total {diag o} {s : Server} (ht : ∀ t, ∃ d, diag t = some d) (hw : s.vfs.WF) (hd : Docs s)
    (hs : ∀ id, SyncAt s id) : ∃ s', maybeUpdateDiagnostics diag o s = some s' := by
  unfold maybeUpdateDiagnostics
  obtain ⟨subs, h1⟩ := mapM_total (fun path => (s.vfs.fileId path).join) (o.docs (s.memDocs.map (·.1))) (by
    intro p hp
    obtain ⟨id, t, g1, -⟩ := update_sub hw hd hs ((o.docs_perm _).mem_iff.1 hp)
    exact ⟨id, g1⟩)
  rw [h1]
  simp only
  obtain ⟨ds, h2⟩ := mapM_total (fileDiagnostics diag s) subs (by
    intro id hid
    have e1 := (mapM_some_iff _ _ _).1 h1
    have : some id ∈ (o.docs (s.memDocs.map (·.1))).map fun path => (s.vfs.fileId path).join := by
      rw [e1]; exact List.mem_map_of_mem hid
    obtain ⟨p, hp, hpid⟩ := List.mem_map.1 this
    obtain ⟨id', t, g1, g2, g3, g4⟩ := update_sub hw hd hs ((o.docs_perm _).mem_iff.1 hp)
    rw [hpid] at g1
    simp only [Option.some.injEq] at g1
    subst g1
    obtain ⟨d, hd⟩ := ht t
    exact ⟨(id, d), by unfold fileDiagnostics; rw [g4]; simp [hd]⟩)
  rw [h2]
  exact ⟨_, rfl⟩

theorem publish_nil {o} {s : Server} (h : s.diagnostics.changes = []) : publishChanges o s = some s := by
  unfold publishChanges DiagnosticCollection.takeChanges
  rw [h]; rfl

/-- What `handle_event` does after an event that may have written to the Vfs. -/
theorem finish_touch {diag o} {s s' : Server} (hm : Mid s) (hd : Docs s) (hc : s.diagnostics.changes = [])
    (h : finishEvent diag o s = some s') :
    ¬ BadChange s.vfs ∧
    s' = { s with vfs := { s.vfs with changes := [] }, fileText := s'.fileText, tasks := s'.tasks } ∧
    (∀ id, SyncAt s' id) ∧
    ((s.vfs.changes = [] ∧ s'.tasks = s.tasks) ∨
     (s.vfs.changes ≠ [] ∧ ∃ ds, s'.tasks = s.tasks ++ [.diagnostics ds] ∧ Fresh diag s' ds)) := by
  unfold finishEvent at h
  cases hp : processChanges s with
  | none => rw [hp] at h; cases h
  | some r =>
    obtain ⟨s1, b⟩ := r
    rw [hp] at h
    simp only at h
    obtain ⟨h1, h2, ⟨db, h3⟩, h4⟩ := processChanges_spec hm hp
    by_cases he : s.vfs.changes = []
    · have hb : b = false := by rw [h1, he]; rfl
      rw [hb] at h
      simp only [Bool.false_eq_true, if_false] at h
      rw [publish_nil (by rw [h3]; exact hc)] at h
      simp only [Option.some.injEq] at h
      subst h
      refine ⟨h2, by rw [h3], h4, Or.inl ⟨he, by rw [h3]⟩⟩
    · have hb : b = true := by
        rw [h1]
        cases hx : s.vfs.changes with
        | nil => exact absurd hx he
        | cons _ _ => rfl
      rw [hb] at h
      simp only [if_true] at h
      cases hu : maybeUpdateDiagnostics diag o s1 with
      | none => rw [hu] at h; cases h
      | some s2 =>
        rw [hu] at h
        simp only at h
        have hw1 : s1.vfs.WF := by rw [h3]; exact ⟨hm.wf.nodup, hm.wf.len⟩
        have hd1 : Docs s1 := by rw [h3]; exact hd
        obtain ⟨ds, g1, g2⟩ := update_spec hw1 hd1 h4 hu
        rw [publish_nil (by rw [g1, h3]; exact hc)] at h
        simp only [Option.some.injEq] at h
        subst h
        refine ⟨h2, by rw [g1, h3], ?_, Or.inr ⟨he, ds, by rw [g1, h3], ?_⟩⟩
        · intro id; rw [g1]; exact h4 id
        · rw [g1]; exact ⟨g2.sound, g2.complete⟩

theorem finish_total {diag o} {s : Server} (ht : ∀ t, ∃ d, diag t = some d) (hm : Mid s) (hd : Docs s)
    (hc : s.diagnostics.changes = []) (hb : ¬ BadChange s.vfs) : ∃ s', finishEvent diag o s = some s' := by
  obtain ⟨⟨s1, b⟩, hp⟩ := processChanges_total hb
  obtain ⟨h1, h2, ⟨db, h3⟩, h4⟩ := processChanges_spec hm hp
  have hw1 : s1.vfs.WF := by rw [h3]; exact ⟨hm.wf.nodup, hm.wf.len⟩
  have hd1 : Docs s1 := by rw [h3]; exact hd
  unfold finishEvent
  rw [hp]
  simp only
  cases b with
  | false =>
    simp only [Bool.false_eq_true, if_false]
    exact ⟨_, publish_nil (by rw [h3]; exact hc)⟩
  | true =>
    obtain ⟨s2, hu⟩ := update_total (o := o) ht hw1 hd1 h4
    obtain ⟨ds, g1, g2⟩ := update_spec hw1 hd1 h4 hu
    simp only [if_true, hu]
    exact ⟨_, publish_nil (by rw [g1, h3]; exact hc)⟩

/-- After an event that wrote nothing, only diagnostics are published. -/
theorem finish_quiet {diag o} {s : Server} (hc : s.vfs.changes = []) :
    finishEvent diag o s = publishChanges o s := by
  have hs : ({ s with vfs := { s.vfs with changes := [] } } : Server) = s := by
    rcases s with ⟨_, _, _, _, _, _, _, _, ⟨p, d, ch⟩, _, _, _, _⟩
    simp only at hc
    subst hc
    rfl
  unfold finishEvent
  rw [processChanges_eq, if_pos hc, hs]
  rfl

/-- The message publishing the diagnostics of a file. -/
def publication (s : Server) (id : Nat) : Msg :=
  .publishDiagnostics (.file ((s.vfs.filePath id).getD "")) (s.memDocs.lookup ((s.vfs.filePath id).getD ""))
    (s.diagnostics.diagnosticsFor id)

/-- `publish`, exactly. -/
theorem publish_spec {o} {s : Server} (h : ∀ id ∈ s.diagnostics.changes, id < s.vfs.paths.length) :
    publishChanges o s = some { s with
      diagnostics := { s.diagnostics with changes := [] }
      sent := s.sent ++ (o.files s.diagnostics.changes).map (publication s) } ∨
    (s.diagnostics.changes = [] ∧ publishChanges o s = some s) := by
  by_cases he : s.diagnostics.changes = []
  · exact Or.inr ⟨he, publish_nil he⟩
  · left
    unfold publishChanges DiagnosticCollection.takeChanges
    rw [if_neg (by rw [List.isEmpty_iff]; exact he)]
    simp only
    have hmem : ∀ id ∈ o.files s.diagnostics.changes, id < s.vfs.paths.length :=
      fun id hid => h id ((o.files_perm _).mem_iff.1 hid)
    generalize o.files s.diagnostics.changes = l at hmem
    have key : ∀ (l : List Nat) (sent : List Msg), (∀ id ∈ l, id < s.vfs.paths.length) →
        l.foldlM (init := ({ s with diagnostics := { s.diagnostics with changes := [] }, sent := sent } : Server))
          (fun s fileId => (s.vfs.filePath fileId).map fun path =>
            s.send (.publishDiagnostics (.file path) (s.memDocs.lookup path) (s.diagnostics.diagnosticsFor fileId))) =
        some { s with
          diagnostics := { s.diagnostics with changes := [] }
          sent := sent ++ l.map (publication s) } := by
      intro l
      induction l with
      | nil => intro sent _; simp
      | cons id l ih =>
        intro sent hl
        have hid : s.vfs.filePath id = some s.vfs.paths[id]! := by
          have := hl id (by simp)
          simp [Vfs.filePath, this]
        have hp : publication s id = .publishDiagnostics (.file s.vfs.paths[id]!) (s.memDocs.lookup s.vfs.paths[id]!)
            (s.diagnostics.diagnosticsFor id) := by simp [publication, hid]
        have := ih (sent ++ [publication s id]) fun j hj => hl j (by simp [hj])
        rw [List.map_cons, List.append_cons, ← this, hp, List.foldlM_cons]
        simp only [hid, Option.map_some]
        rfl
    exact key l s.sent hmem

end Server
end Verif
