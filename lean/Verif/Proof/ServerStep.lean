import Verif.Proof.ServerInv
import Verif.Spec.Client

namespace Verif
open Spec

namespace Server

/-- The invariant of the main loop, between events. -/
structure Inv (s : Server) : Prop where
  wf : s.vfs.WF
  changes : s.vfs.changes = []
  sync : ∀ id, SyncAt s id
  published : s.diagnostics.changes = []
  docs : Docs s
  nodup : (openDocs s).Nodup
  native : ∀ x ∈ s.diagnostics.native, x.1 < s.vfs.paths.length
  queued : ∀ x ∈ entries s.tasks, x.1 < s.vfs.paths.length

theorem Inv.new (config : Config) : Inv (new config) where
  wf := Vfs.WF.default
  changes := rfl
  sync := fun _ => Or.inl rfl
  published := rfl
  docs := fun _ h => by cases h
  nodup := by simp [openDocs, Server.new]
  native := fun _ h => by cases h
  queued := fun _ h => by cases h

theorem Inv.mid {s : Server} (h : Inv s) : Mid s :=
  ⟨h.wf, fun id _ => h.sync id, fun a c b hab => by rw [h.changes] at hab; simp at hab⟩

/-- An event that may write to the Vfs: what it can change. -/
structure Touch (diag : Text → Option (List Diag)) (s s' : Server) : Prop where
  same : s' = { s with memDocs := s'.memDocs, vfs := s'.vfs, fileText := s'.fileText, tasks := s'.tasks }
  changes : s'.vfs.changes = []
  wf : s'.vfs.WF
  paths : s.vfs.paths <+: s'.vfs.paths
  sync : ∀ id, SyncAt s' id
  docs : Docs s'
  tasks : (s'.tasks = s.tasks ∧ ∀ p ∈ openDocs s', p ∈ openDocs s ∧ s'.vfs.contentsOf p = s.vfs.contentsOf p) ∨
    ∃ ds, s'.tasks = s.tasks ++ [.diagnostics ds] ∧ Fresh diag s' ds

theorem entries_append (a b : List Task) : entries (a ++ b) = entries a ++ entries b := by
  simp [entries]

theorem Touch.inv {diag} {s s' : Server} (h : Touch diag s s') (hi : Inv s) (hn : (openDocs s').Nodup) : Inv s' where
  wf := h.wf
  changes := h.changes
  sync := h.sync
  published := by rw [h.same]; exact hi.published
  docs := h.docs
  nodup := hn
  native := fun x hx => by
    rw [h.same] at hx
    exact Nat.lt_of_lt_of_le (hi.native x hx) (List.IsPrefix.length_le h.paths)
  queued := fun x hx => by
    have hle := List.IsPrefix.length_le h.paths
    rcases h.tasks with ⟨e, -⟩ | ⟨ds, e, hf⟩
    · rw [e] at hx
      exact Nat.lt_of_lt_of_le (hi.queued x hx) hle
    · rw [e, entries_append, List.mem_append] at hx
      rcases hx with hx | hx
      · exact Nat.lt_of_lt_of_le (hi.queued x hx) hle
      · obtain ⟨p, -, t, h1, -⟩ := hf.sound x (by simpa [entries] using hx)
        exact (List.getElem?_eq_some_iff.1 h1).1

theorem insertDoc_keys (docs : List (AbsPath × Int)) (p : AbsPath) (v : Int) :
    (insertDoc docs p v).map (·.1) = if p ∈ docs.map (·.1) then docs.map (·.1) else docs.map (·.1) ++ [p] := by
  unfold insertDoc
  by_cases h : p ∈ docs.map (·.1)
  · rw [if_pos (by simpa using h), if_pos h]
    rw [List.map_map]
    apply List.map_congr_left
    intro d _
    simp only [Function.comp_apply]
    split
    · rename_i e; exact e.symm
    · rfl
  · rw [if_neg (by simpa using h), if_neg h]
    simp

theorem insertDoc_nodup (docs : List (AbsPath × Int)) (p : AbsPath) (v : Int) (h : (docs.map (·.1)).Nodup) :
    ((insertDoc docs p v).map (·.1)).Nodup := by
  rw [insertDoc_keys]
  split
  · exact h
  · rename_i hp
    rw [List.nodup_append]
    refine ⟨h, by simp, ?_⟩
    intro a ha b hb e
    simp at hb; subst hb; subst e; exact hp ha

theorem mem_insertDoc (docs : List (AbsPath × Int)) (p q : AbsPath) (v : Int) :
    q ∈ (insertDoc docs p v).map (·.1) ↔ q = p ∨ q ∈ docs.map (·.1) := by
  rw [insertDoc_keys]
  split
  · rename_i h
    constructor
    · exact Or.inr
    · rintro (rfl | h')
      · exact h
      · exact h'
  · simp only [List.mem_append, List.mem_singleton]
    exact ⟨fun h => h.symm, fun h => h.symm⟩

/-- The part common to the events that write one file: the state after the write, then the rest. -/
theorem touch_write {diag o} {s s' : Server} (hi : Inv s) {p : AbsPath} {t : Text} {version : Int} {w : Vfs} {b : Bool}
    (hw : s.vfs.setFileContents p (some (.utf8 t)) = some (w, b))
    (h : finishEvent diag o { s with memDocs := insertDoc s.memDocs p version, vfs := w } = some s') :
    (∀ q, s'.vfs.contentsOf q = if q = p then some (.utf8 t) else s.vfs.contentsOf q) ∧
    s'.memDocs = insertDoc s.memDocs p version ∧
    s' = { s with memDocs := s'.memDocs, vfs := s'.vfs, fileText := s'.fileText, tasks := s'.tasks } ∧
    s'.vfs.changes = [] ∧ s'.vfs.WF ∧ s.vfs.paths <+: s'.vfs.paths ∧ (∀ id, SyncAt s' id) ∧ Docs s' ∧
    ((w.changes = [] ∧ s'.tasks = s.tasks ∧ ∀ q, s'.vfs.contentsOf q = s.vfs.contentsOf q) ∨
     ∃ ds, s'.tasks = s.tasks ++ [.diagnostics ds] ∧ Fresh diag s' ds) := by
  obtain ⟨id, hwr⟩ := Vfs.set_wrote hi.wf hw
  have hm : Mid { s with memDocs := insertDoc s.memDocs p version, vfs := w } := hi.mid.set hw rfl rfl
  have hcont := hwr.contentsOf hi.wf
  have hd : Docs { s with memDocs := insertDoc s.memDocs p version, vfs := w } := by
    intro q hq
    rcases (mem_insertDoc s.memDocs p q version).1 hq with rfl | hq'
    · exact ⟨t, by rw [hcont, if_pos rfl]⟩
    · by_cases hqp : q = p
      · exact ⟨t, by rw [hcont, if_pos hqp]⟩
      · obtain ⟨t', ht'⟩ := hi.docs q hq'
        exact ⟨t', by rw [hcont, if_neg hqp]; exact ht'⟩
  obtain ⟨-, h2, h3, h4⟩ := finish_touch hm hd hi.published h
  have hv : s'.vfs = { w with changes := [] } := by rw [h2]
  have hcv : ∀ q, s'.vfs.contentsOf q = w.contentsOf q := by intro q; rw [hv]; rfl
  have hmd : s'.memDocs = insertDoc s.memDocs p version := by rw [h2]
  refine ⟨fun q => by rw [hcv, hcont], hmd, by rw [h2], by rw [hv], by rw [hv]; exact ⟨hwr.wf.nodup, hwr.wf.len⟩,
    by rw [hv]; exact hwr.prefix, h3, ?_, ?_⟩
  · intro q hq
    rw [openDocs, hmd] at hq
    rw [hcv]
    exact hd q hq
  · rcases h4 with ⟨h5, h6⟩ | ⟨-, h6⟩
    · exact Or.inl ⟨h5, h6, fun q => by rw [hcv]; exact (hwr.changes_nil hi.wf h5).2 q⟩
    · exact Or.inr h6

/-- `didOpen` of a file. -/
theorem didOpen_spec {diag o} {s s' : Server} (hi : Inv s) {p : AbsPath} {version : Int} {t : Text}
    (h : handleEvent diag s (.didOpen (.file p) version t, o) = some s') :
    Touch diag s s' ∧ s'.memDocs = insertDoc s.memDocs p version ∧
    (∀ q, s'.vfs.contentsOf q = if q = p then some (.utf8 t) else s.vfs.contentsOf q) ∧
    ∃ ds, s'.tasks = s.tasks ++ [.diagnostics ds] ∧ Fresh diag s' ds := by
  unfold handleEvent at h
  simp only [dispatch, didOpen] at h
  cases hw : s.vfs.setFileContents p (some (.utf8 t)) with
  | none => rw [hw] at h; cases h
  | some r =>
    obtain ⟨w, b⟩ := r
    rw [hw] at h
    simp only at h
    obtain ⟨id, hwr⟩ := Vfs.set_wrote hi.wf hw
    cases b with
    | true =>
      simp only [Bool.not_true, Bool.false_eq_true, if_false] at h
      obtain ⟨g1, g2, g3, g4, g5, g6, g7, g8, g9⟩ := touch_write hi hw h
      have hne : w.changes ≠ [] := by
        intro hn
        have hch := hwr.changed
        simp only [true_eq_decide_iff] at hch
        rw [hwr.changes] at hn
        obtain ⟨-, hn⟩ := List.append_eq_nil_iff.1 hn
        have : ∃ k, changeOf (s.vfs.fileContents id) (some (.utf8 t)) = some k := by
          unfold changeOf
          rw [if_neg hch]
          split <;> exact ⟨_, rfl⟩
        obtain ⟨k, hk⟩ := this
        rw [hk] at hn
        cases hn
      have g9' : ∃ ds, s'.tasks = s.tasks ++ [.diagnostics ds] ∧ Fresh diag s' ds := by
        rcases g9 with ⟨e, -⟩ | e
        · exact absurd e hne
        · exact e
      exact ⟨⟨g3, g4, g5, g6, g7, g8, Or.inr g9'⟩, g2, g1, g9'⟩
    | false =>
      simp only [Bool.not_false, if_true] at h
      have hsame : s.vfs.fileContents id = some (.utf8 t) := by
        have hch := hwr.changed
        simpa using hch
      have hwc : w.changes = [] := by
        rw [hwr.changes, hi.changes, hsame]; simp [changeOf]
      -- the state in which diagnostics are computed
      have hm : Mid { s with memDocs := insertDoc s.memDocs p version, vfs := w } := hi.mid.set hw rfl rfl
      have hcont := hwr.contentsOf hi.wf
      have hd : Docs { s with memDocs := insertDoc s.memDocs p version, vfs := w } := by
        intro q hq
        rcases (mem_insertDoc s.memDocs p q version).1 hq with rfl | hq'
        · exact ⟨t, by rw [hcont, if_pos rfl]⟩
        · by_cases hqp : q = p
          · exact ⟨t, by rw [hcont, if_pos hqp]⟩
          · obtain ⟨t', ht'⟩ := hi.docs q hq'
            exact ⟨t', by rw [hcont, if_neg hqp]; exact ht'⟩
      have hsy : ∀ i, SyncAt { s with memDocs := insertDoc s.memDocs p version, vfs := w } i :=
        fun i => hm.sync i (by rw [show ({ s with memDocs := insertDoc s.memDocs p version, vfs := w } : Server).vfs.changes = w.changes from rfl, hwc]; simp)
      cases hu : maybeUpdateDiagnostics diag o { s with memDocs := insertDoc s.memDocs p version, vfs := w } with
      | none => rw [hu] at h; cases h
      | some s2 =>
        rw [hu] at h
        simp only at h
        obtain ⟨ds, g1, g2⟩ := update_spec hwr.wf hd hsy hu
        rw [finish_quiet (by rw [g1]; exact hwc), publish_nil (by rw [g1]; exact hi.published)] at h
        simp only [Option.some.injEq] at h
        subst h
        have g9' : ∃ ds', s2.tasks = s.tasks ++ [.diagnostics ds'] ∧ Fresh diag s2 ds' :=
          ⟨ds, by rw [g1], by rw [g1]; exact ⟨g2.sound, g2.complete⟩⟩
        refine ⟨⟨by rw [g1], by rw [g1]; exact hwc, by rw [g1]; exact hwr.wf, by rw [g1]; exact hwr.prefix,
          by intro i; rw [g1]; exact hsy i, by rw [g1]; exact hd, Or.inr g9'⟩, by rw [g1], ?_, g9'⟩
        intro q
        rw [show s2.vfs = w by rw [g1]]
        exact hcont q

/-- `didChange` of an open document. -/
theorem didChange_spec {diag o} {s s' : Server} (hi : Inv s) {p : AbsPath} {version : Int} {cs : List Lsp.Change}
    (hp : p ∈ openDocs s) (h : handleEvent diag s (.didChange (.file p) version cs, o) = some s') :
    ∃ t t', s.vfs.contentsOf p = some (.utf8 t) ∧ Lsp.applyDocumentChanges t cs = some t' ∧
    Touch diag s s' ∧ s'.memDocs = insertDoc s.memDocs p version ∧
    (∀ q, s'.vfs.contentsOf q = if q = p then some (.utf8 t') else s.vfs.contentsOf q) := by
  obtain ⟨t, ht⟩ := hi.docs p hp
  obtain ⟨id, h1, h2⟩ := (Vfs.contentsOf_some hi.wf).1 ht
  unfold handleEvent at h
  simp only [dispatch, didChange] at h
  rw [if_pos (show ((s.memDocs.map (·.1)).contains p) = true by simpa [openDocs] using hp)] at h
  simp only [h1, Option.join_some, h2, Bytes.toText] at h
  cases hc : Lsp.applyDocumentChanges t cs with
  | none => rw [hc] at h; cases h
  | some t' =>
    rw [hc] at h
    simp only at h
    cases hw : s.vfs.setFileContents p (some (.utf8 t')) with
    | none => rw [hw] at h; cases h
    | some r =>
      obtain ⟨w, b⟩ := r
      rw [hw] at h
      simp only [Option.map_some] at h
      obtain ⟨g1, g2, g3, g4, g5, g6, g7, g8, g9⟩ := touch_write hi hw h
      refine ⟨t, t', ht, hc, ⟨g3, g4, g5, g6, g7, g8, ?_⟩, g2, g1⟩
      rcases g9 with ⟨-, e, h3⟩ | e
      · refine Or.inl ⟨e, fun q hq => ⟨?_, h3 q⟩⟩
        rw [openDocs, g2] at hq
        rcases (mem_insertDoc s.memDocs p q version).1 hq with rfl | hq'
        · exact hp
        · exact hq'
      · exact Or.inr e

theorem didChange_ignored {diag o} {s : Server} (hi : Inv s) {uri : Uri} {version : Int} {cs : List Lsp.Change}
    (hp : ∀ p, uri = .file p → p ∉ openDocs s) : handleEvent diag s (.didChange uri version cs, o) = some s := by
  unfold handleEvent
  have : dispatch diag o s (.didChange uri version cs) = some s := by
    cases uri with
    | other u => rfl
    | file p =>
      have := hp p rfl
      simp only [dispatch, didChange]
      rw [if_neg (by simpa [openDocs] using this)]
  simp only [this]
  rw [finish_quiet hi.changes, publish_nil hi.published]

/-! ### the loader -/

/-- One file of a loader message. -/
def writeFile (s : Server) (f : AbsPath × Option Bytes) : Option Server :=
  if (s.memDocs.map (·.1)).contains f.1 then some s
  else (s.vfs.setFileContents f.1 f.2).map fun r => { s with vfs := r.1 }

theorem handleLoader_eq (s : Server) (msgs : List LoaderMsg) :
    msgs.foldlM handleLoader s = (writes msgs).foldlM writeFile s := by
  induction msgs generalizing s with
  | nil => rfl
  | cons m msgs ih =>
    have : writes (m :: msgs) = writes [m] ++ writes msgs := by simp [writes]
    rw [this, List.foldlM_append, List.foldlM_cons]
    have h1 : handleLoader s m = (writes [m]).foldlM writeFile s := by
      cases m with
      | progress a b c => rfl
      | loaded files =>
        have : writes [.loaded files] = files := by simp [writes]
        rw [this]; rfl
    rw [h1]
    congr 1
    funext s'
    exact ih s'

theorem afterWrites_cons (c0 : AbsPath → Option Bytes) (w) (ws : List (AbsPath × Option Bytes)) (p : AbsPath) :
    afterWrites c0 (w :: ws) p = afterWrites (fun q => if w.1 = q then w.2 else c0 q) ws p := rfl

theorem creates_cons (c0 : AbsPath → Option Bytes) (w) (ws : List (AbsPath × Option Bytes)) (p : AbsPath) :
    Creates c0 (w :: ws) p ↔ (w.1 = p ∧ w.2 ≠ none ∧ c0 p ≠ w.2) ∨
      Creates (fun q => if w.1 = q then w.2 else c0 q) ws p := by
  constructor
  · rintro ⟨before, b, after, h1, h2⟩
    cases before with
    | nil =>
      simp only [List.nil_append, List.cons.injEq] at h1
      obtain ⟨rfl, rfl⟩ := h1
      exact Or.inl ⟨rfl, by simp, h2⟩
    | cons x before =>
      simp only [List.cons_append, List.cons.injEq] at h1
      obtain ⟨rfl, rfl⟩ := h1
      exact Or.inr ⟨before, b, after, rfl, h2⟩
  · rintro (⟨rfl, h2, h3⟩ | ⟨before, b, after, rfl, h2⟩)
    · cases hw : w.2 with
      | none => exact absurd hw h2
      | some b => exact ⟨[], b, ws, by rw [List.nil_append, ← hw], by rw [← hw]; exact h3⟩
    · exact ⟨w :: before, b, after, rfl, h2⟩

theorem changeOf_kind {old new : Option Bytes} {k : ChangeKind} (h : changeOf old new = some k) :
    (k ≠ .delete ↔ new ≠ none) ∧ old ≠ new := by
  unfold changeOf at h
  by_cases e : old = new
  · rw [if_pos e] at h; cases h
  · rw [if_neg e] at h
    refine ⟨?_, e⟩
    cases old with
    | none =>
      cases new with
      | none => exact absurd rfl e
      | some b => simp at h; subst h; simp
    | some a =>
      cases new with
      | none => simp at h; subst h; simp
      | some b => simp at h; subst h; simp

/-- The writes of a batch. -/
theorem batch_spec {s1 : Server} : ∀ {ws : List (AbsPath × Option Bytes)} {s : Server}, Mid s →
    ws.foldlM writeFile s = some s1 →
    s1 = { s with vfs := s1.vfs } ∧ Mid s1 ∧ s.vfs.paths <+: s1.vfs.paths ∧
    (∀ q, s1.vfs.contentsOf q = if q ∈ openDocs s then s.vfs.contentsOf q else afterWrites s.vfs.contentsOf ws q) ∧
    (s1.vfs.changes = [] → s.vfs.changes = [] ∧ ∀ q, s1.vfs.contentsOf q = s.vfs.contentsOf q) ∧
    (∀ c ∈ s.vfs.changes, c ∈ s1.vfs.changes) ∧
    (∀ id p, s1.vfs.paths[id]? = some p → (∃ c ∈ s1.vfs.changes, c.fileId = id ∧ c.kind ≠ .delete) →
      (∃ c ∈ s.vfs.changes, c.fileId = id ∧ c.kind ≠ .delete) ∨ (p ∉ openDocs s ∧ Creates s.vfs.contentsOf ws p)) ∧
    (∀ p, p ∉ openDocs s → Creates s.vfs.contentsOf ws p → ∃ c ∈ s1.vfs.changes, s1.vfs.paths[c.fileId]? = some p ∧
      c.kind ≠ .delete) ∧
    (∀ c ∈ s1.vfs.changes, c ∈ s.vfs.changes ∨ c.fileId < s1.vfs.paths.length) := by
  intro ws
  induction ws with
  | nil =>
    intro s hm h
    simp only [List.foldlM_nil, Option.pure_def, Option.some.injEq] at h
    subst h
    refine ⟨rfl, hm, List.prefix_refl _, fun q => by simp [afterWrites], fun h => ⟨h, fun _ => rfl⟩, fun _ h => h,
      fun id p _ h => Or.inl h, ?_, fun c hc => Or.inl hc⟩
    rintro p - ⟨before, b, after, h, -⟩
    simp at h
  | cons f ws ih =>
    intro s hm h
    rw [List.foldlM_cons] at h
    by_cases ho : f.1 ∈ openDocs s
    · have hf : writeFile s f = some s := by
        unfold writeFile
        rw [if_pos (by simpa [openDocs] using ho)]
      rw [hf] at h
      obtain ⟨h1, h2, h3, h4, h5, h6, h7, h8, h9⟩ := ih hm h
      have hne : ∀ q, q ∉ openDocs s → ¬ f.1 = q := fun q hq e => hq (e ▸ ho)
      have hcr : ∀ p, p ∉ openDocs s → (Creates s.vfs.contentsOf (f :: ws) p ↔ Creates s.vfs.contentsOf ws p) := by
        intro p hp
        rw [creates_cons]
        have aux : ∀ l, afterWrites (fun q => if f.1 = q then f.2 else s.vfs.contentsOf q) l p =
            afterWrites s.vfs.contentsOf l p := by
          intro l; unfold afterWrites; simp only [if_neg (hne p hp)]
        constructor
        · rintro (⟨e, -⟩ | ⟨b, x, a, e1, e2⟩)
          · exact absurd e (hne p hp)
          · exact ⟨b, x, a, e1, by rw [aux] at e2; exact e2⟩
        · rintro ⟨b, x, a, e1, e2⟩
          exact Or.inr ⟨b, x, a, e1, by rw [aux]; exact e2⟩
      refine ⟨h1, h2, h3, ?_, h5, h6, ?_, ?_, h9⟩
      · intro q
        rw [h4]
        by_cases hq : q ∈ openDocs s
        · simp only [if_pos hq]
        · simp only [if_neg hq, afterWrites_cons]
          unfold afterWrites
          simp only [if_neg (hne q hq)]
      · intro id p hp hc
        rcases h7 id p hp hc with e | ⟨e1, e2⟩
        · exact Or.inl e
        · exact Or.inr ⟨e1, (hcr p e1).2 e2⟩
      · intro p hp hc
        exact h8 p hp ((hcr p hp).1 hc)
    · have hf : writeFile s f = (s.vfs.setFileContents f.1 f.2).map fun r => { s with vfs := r.1 } := by
        unfold writeFile
        rw [if_neg (by simpa [openDocs] using ho)]
      rw [hf] at h
      cases hw : s.vfs.setFileContents f.1 f.2 with
      | none => rw [hw] at h; cases h
      | some r =>
        obtain ⟨w, b⟩ := r
        rw [hw] at h
        simp only [Option.map_some, Option.bind_eq_bind, Option.bind_some] at h
        obtain ⟨id0, hwr⟩ := Vfs.set_wrote hm.wf hw
        have hm1 : Mid { s with vfs := w } := hm.set hw rfl rfl
        obtain ⟨h1, h2, h3, h4, h5, h6, h7, h8, h9⟩ := ih hm1 h
        have hcont := hwr.contentsOf hm.wf
        have hcf : (fun q => if f.1 = q then f.2 else s.vfs.contentsOf q) = w.contentsOf := by
          funext q
          rw [hcont]
          by_cases hq : f.1 = q
          · rw [if_pos hq, if_pos hq.symm]
          · rw [if_neg hq, if_neg (fun e => hq e.symm)]
        have hod : openDocs ({ s with vfs := w } : Server) = openDocs s := rfl
        rw [hod] at h4 h7 h8
        have hidp : s1.vfs.paths[id0]? = some f.1 := by
          obtain ⟨t, ht⟩ := h3
          rw [← ht, List.getElem?_append_left (List.getElem?_eq_some_iff.1 hwr.at_).1]
          exact hwr.at_
        -- the contents of the path before the write are those of its id
        have hold : s.vfs.contentsOf f.1 = s.vfs.fileContents id0 := by
          rcases hwr.paths with e | e
          · exact Vfs.contentsOf_at hm.wf (by rw [← e]; exact hwr.at_)
          · by_cases hi : id0 < s.vfs.paths.length
            · refine Vfs.contentsOf_at hm.wf ?_
              have := hwr.at_
              rw [e, List.getElem?_append_left hi] at this
              exact this
            · rw [Vfs.fileContents_none hm.wf (by omega)]
              have hnm : f.1 ∉ s.vfs.paths := by
                have := hwr.wf.nodup
                rw [e, List.nodup_append] at this
                exact fun hmm => this.2.2 f.1 hmm f.1 (by simp) rfl
              unfold Vfs.contentsOf
              rw [Vfs.idxOf?_not_mem hnm]; rfl
        have hkind : ∀ k, changeOf (s.vfs.fileContents id0) f.2 = some k → (k ≠ .delete ↔ f.2 ≠ none) ∧
            s.vfs.fileContents id0 ≠ f.2 := by
          exact fun k hk => changeOf_kind hk
        refine ⟨by rw [h1], h2, List.IsPrefix.trans hwr.prefix h3, ?_, ?_, ?_, ?_, ?_, ?_⟩
        · intro q
          rw [h4]
          by_cases hq : q ∈ openDocs s
          · simp only [if_pos hq, hcont, if_neg (show ¬ q = f.1 from fun e => ho (e ▸ hq))]
          · simp only [if_neg hq, afterWrites_cons, hcf]
        · intro hn
          obtain ⟨e1, e2⟩ := h5 hn
          obtain ⟨e3, e4⟩ := hwr.changes_nil hm.wf e1
          exact ⟨e3, fun q => by rw [e2]; exact e4 q⟩
        · intro c hc
          exact h6 c (by show c ∈ w.changes; rw [hwr.changes]; simp [hc])
        · intro id p hp hc
          rcases h7 id p hp hc with ⟨c, hc1, hc2, hc3⟩ | ⟨e1, e2⟩
          · rw [show ({ s with vfs := w } : Server).vfs.changes = w.changes from rfl, hwr.changes, List.mem_append] at hc1
            rcases hc1 with hc1 | hc1
            · exact Or.inl ⟨c, hc1, hc2, hc3⟩
            · right
              cases hk : changeOf (s.vfs.fileContents id0) f.2 with
              | none => rw [hk] at hc1; simp at hc1
              | some k =>
                rw [hk] at hc1
                simp only [List.mem_singleton] at hc1
                subst hc1
                simp only at hc2 hc3
                subst hc2
                rw [hidp] at hp
                simp only [Option.some.injEq] at hp
                subst hp
                refine ⟨ho, (creates_cons _ _ _ _).2 (Or.inl ⟨rfl, (hkind k hk).1.1 hc3, ?_⟩)⟩
                rw [hold]; exact (hkind k hk).2
          · exact Or.inr ⟨e1, (creates_cons _ _ _ _).2 (Or.inr (by rw [hcf]; exact e2))⟩
        · intro p hp hc
          rcases (creates_cons _ _ _ _).1 hc with ⟨e1, e2, e3⟩ | e
          · subst e1
            rw [hold] at e3
            have : ∃ k, changeOf (s.vfs.fileContents id0) f.2 = some k := by
              unfold changeOf
              rw [if_neg e3]
              split <;> exact ⟨_, rfl⟩
            obtain ⟨k, hk⟩ := this
            have hmem : (⟨id0, k⟩ : ChangedFile) ∈ w.changes := by rw [hwr.changes, hk]; simp
            exact ⟨⟨id0, k⟩, h6 _ hmem, hidp, (hkind k hk).1.2 e2⟩
          · rw [hcf] at e
            exact h8 p hp e
        · intro c hc
          rcases h9 c hc with e | e
          · rw [show ({ s with vfs := w } : Server).vfs.changes = w.changes from rfl, hwr.changes, List.mem_append] at e
            rcases e with e | e
            · exact Or.inl e
            · right
              split at e
              · cases e
              · simp only [List.mem_singleton] at e
                subst e
                exact (List.getElem?_eq_some_iff.1 hidp).1
          · exact Or.inr e

theorem batch_total : ∀ {ws : List (AbsPath × Option Bytes)} {s : Server}, s.vfs.WF →
    s.vfs.paths.length + ws.length ≤ 4294967295 → ∃ s1, ws.foldlM writeFile s = some s1 ∧
      s1.vfs.paths.length ≤ s.vfs.paths.length + ws.length := by
  intro ws
  induction ws with
  | nil => intro s _ _; exact ⟨s, rfl, by simp⟩
  | cons f ws ih =>
    intro s hw hl
    simp only [List.length_cons] at hl
    rw [List.foldlM_cons]
    by_cases ho : f.1 ∈ openDocs s
    · have hf : writeFile s f = some s := by
        unfold writeFile
        rw [if_pos (by simpa [openDocs] using ho)]
      rw [hf]
      obtain ⟨s1, h1, h2⟩ := ih hw (by omega)
      exact ⟨s1, h1, by simp only [List.length_cons]; omega⟩
    · have hf : writeFile s f = (s.vfs.setFileContents f.1 f.2).map fun r => { s with vfs := r.1 } := by
        unfold writeFile
        rw [if_neg (by simpa [openDocs] using ho)]
      obtain ⟨w, b, hs⟩ := Vfs.set_some hw f.1 f.2 (Or.inl (by omega))
      obtain ⟨id, hwr⟩ := Vfs.set_wrote hw hs
      rw [hf, hs]
      simp only [Option.map_some, Option.bind_eq_bind, Option.bind_some]
      have hlen : w.paths.length ≤ s.vfs.paths.length + 1 := by
        rcases hwr.paths with e | e <;> rw [e] <;> simp
      obtain ⟨s1, h1, h2⟩ := ih (s := { s with vfs := w }) hwr.wf (by simp only; omega)
      exact ⟨s1, h1, by simp only at h2; simp only [List.length_cons]; omega⟩

/-- A batch of loader messages. -/
theorem loader_spec {diag o} {s s' : Server} (hi : Inv s) {first : LoaderMsg} {rest : List LoaderMsg}
    (h : handleEvent diag s (.loader first rest, o) = some s') :
    Touch diag s s' ∧ s'.memDocs = s.memDocs ∧
    (∀ q, s'.vfs.contentsOf q = if q ∈ openDocs s then s.vfs.contentsOf q
      else afterWrites s.vfs.contentsOf (writes (first :: rest)) q) ∧
    ∀ p, p ∉ openDocs s → Creates s.vfs.contentsOf (writes (first :: rest)) p → s'.vfs.contentsOf p ≠ none := by
  unfold handleEvent at h
  simp only [dispatch] at h
  rw [handleLoader_eq] at h
  cases hf : (writes (first :: rest)).foldlM writeFile s with
  | none => rw [hf] at h; cases h
  | some s1 =>
    rw [hf] at h
    simp only at h
    obtain ⟨h1, h2, h3, h4, h5, h6, h7, h8, h9⟩ := batch_spec hi.mid hf
    have hmd : s1.memDocs = s.memDocs := by rw [h1]
    have hd : Docs s1 := by
      intro q hq
      have hq' : q ∈ openDocs s := by rw [openDocs, hmd] at hq; exact hq
      obtain ⟨t, ht⟩ := hi.docs q hq'
      exact ⟨t, by rw [h4, if_pos hq']; exact ht⟩
    obtain ⟨g1, g2, g3, g4⟩ := finish_touch h2 hd (by rw [h1]; exact hi.published) h
    have hv : s'.vfs = { s1.vfs with changes := [] } := by rw [g2]
    have hcv : ∀ q, s'.vfs.contentsOf q = s1.vfs.contentsOf q := by intro q; rw [hv]; rfl
    have hmd' : s'.memDocs = s.memDocs := by rw [g2, ← hmd]
    refine ⟨⟨?_, by rw [hv], by rw [hv]; exact ⟨h2.wf.nodup, h2.wf.len⟩, by rw [hv]; exact h3, g3, ?_, ?_⟩, hmd', ?_, ?_⟩
    · rw [g2, h1]
    · intro q hq
      have : q ∈ openDocs s1 := by rw [openDocs, hmd', ← hmd] at hq; exact hq
      rw [hcv]; exact hd q this
    · rcases g4 with ⟨e1, e2⟩ | ⟨-, e⟩
      · left
        refine ⟨by rw [e2, h1], fun q hq => ⟨?_, ?_⟩⟩
        · rw [openDocs, hmd'] at hq; exact hq
        · rw [hcv]; exact (h5 e1).2 q
      · right
        obtain ⟨ds, e1, e2⟩ := e
        exact ⟨ds, by rw [e1, h1], e2⟩
    · intro q; rw [hcv]; exact h4 q
    · intro p hp hc hn
      obtain ⟨c, c1, c2, c3⟩ := h8 p hp hc
      refine g1 ⟨c, c1, c3, ?_⟩
      rw [← Vfs.contentsOf_at h2.wf c2, ← hcv]; exact hn

end Server
end Verif
