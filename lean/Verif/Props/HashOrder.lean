import Verif.Props.ClientView
import Verif.Spec.Shuffled

/-
The iteration order of the server's hash tables cannot be observed, except in the order of publications for
different documents that are sent together.
-/
namespace Verif
open Spec

namespace Server

/-- Both fail, or both succeed with related results. -/
private def Opt {α β : Type} (R : α → β → Prop) : Option α → Option β → Prop
  | none, none => True
  | some a, some b => R a b
  | _, _ => False

private theorem mapM_perm {α β : Type} (f : α → Option β) {l l' : List α} (h : l.Perm l') :
    Opt List.Perm (l.mapM f) (l'.mapM f) := by
  have key : ∀ {l l' : List α}, l.Perm l' →
      (l.mapM f = none ∧ l'.mapM f = none) ∨ ∃ r r', l.mapM f = some r ∧ l'.mapM f = some r' ∧ r.Perm r' := by
    intro l l' h
    induction h with
    | nil => exact Or.inr ⟨[], [], by simp, by simp, .refl _⟩
    | cons x _ ih =>
      cases hx : f x with
      | none => left; simp [List.mapM_cons, hx]
      | some y =>
        rcases ih with ⟨h1, h2⟩ | ⟨r, r', h1, h2, h3⟩
        · left; simp [List.mapM_cons, hx, h1, h2]
        · right; exact ⟨y :: r, y :: r', by simp [List.mapM_cons, hx, h1], by simp [List.mapM_cons, hx, h2], h3.cons _⟩
    | swap x y l =>
      cases hx : f x with
      | none => left; cases hy : f y <;> simp [List.mapM_cons, hx, hy]
      | some a =>
        cases hy : f y with
        | none => left; simp [List.mapM_cons, hx, hy]
        | some b =>
          cases hl : l.mapM f with
          | none => left; simp [List.mapM_cons, hx, hy, hl]
          | some r =>
            right
            exact ⟨b :: a :: r, a :: b :: r, by simp [List.mapM_cons, hx, hy, hl], by simp [List.mapM_cons, hx, hy, hl],
              .swap _ _ _⟩
    | trans _ _ ih1 ih2 =>
      rcases ih1 with ⟨h1, h2⟩ | ⟨r, r', h1, h2, h3⟩
      · rcases ih2 with ⟨h4, h5⟩ | ⟨r, r', h4, -, -⟩
        · exact Or.inl ⟨h1, h5⟩
        · rw [h2] at h4; cases h4
      · rcases ih2 with ⟨h4, -⟩ | ⟨q, q', h4, h5, h6⟩
        · rw [h2] at h4; cases h4
        · rw [h2] at h4; cases h4
          exact Or.inr ⟨r, q', h1, h5, h3.trans h6⟩
  rcases key h with ⟨h1, h2⟩ | ⟨r, r', h1, h2, h3⟩
  · rw [h1, h2]; trivial
  · rw [h1, h2]; exact h3

private theorem mem_of_mapM {α β : Type} {f : α → Option β} {l : List α} {r : List β} (h : l.mapM f = some r) {y : β}
    (hy : y ∈ r) : ∃ x ∈ l, f x = some y := by
  have := (mapM_some_iff f l r).1 h
  have hm : some y ∈ r.map some := List.mem_map_of_mem hy
  rw [← this] at hm
  obtain ⟨x, hx, e⟩ := List.mem_map.1 hm
  exact ⟨x, hx, e⟩

/-! ### collections -/

private structure Same (c d : DiagnosticCollection) : Prop where
  lookup : ∀ k, c.native.lookup k = d.native.lookup k
  changes : ∀ k, k ∈ c.changes ↔ k ∈ d.changes

private theorem Same.trans {c d e : DiagnosticCollection} (h : Same c d) (h' : Same d e) : Same c e :=
  ⟨fun k => (h.lookup k).trans (h'.lookup k), fun k => (h.changes k).trans (h'.changes k)⟩

private theorem Same.rfl' (c : DiagnosticCollection) : Same c c := ⟨fun _ => rfl, fun _ => Iff.rfl⟩

private theorem Same.set {c d : DiagnosticCollection} (h : Same c d) (id : Nat) (ds : List Diag) :
    Same (c.setNativeDiagnostics id ds) (d.setNativeDiagnostics id ds) :=
  ⟨fun k => by rw [DiagnosticCollection.set_lookup, DiagnosticCollection.set_lookup, h.lookup],
   fun k => by rw [DiagnosticCollection.set_changes_mem, DiagnosticCollection.set_changes_mem, h.lookup, h.changes]⟩

private theorem Same.swap (c : DiagnosticCollection) {i j : Nat} (ds es : List Diag) (h : i ≠ j) :
    Same ((c.setNativeDiagnostics i ds).setNativeDiagnostics j es)
      ((c.setNativeDiagnostics j es).setNativeDiagnostics i ds) := by
  refine ⟨fun k => ?_, fun k => ?_⟩
  · simp only [DiagnosticCollection.set_lookup]
    by_cases h1 : i = k
    · by_cases h2 : j = k
      · exact absurd (h1.trans h2.symm) h
      · rw [if_neg h2, if_pos h1, if_pos h1]
    · rw [if_neg h1, if_neg h1]
  · simp only [DiagnosticCollection.set_changes_mem, DiagnosticCollection.set_lookup, if_neg h, if_neg (Ne.symm h)]
    constructor
    · rintro ((h | h) | h)
      · exact Or.inl (Or.inl h)
      · exact Or.inr h
      · exact Or.inl (Or.inr h)
    · rintro ((h | h) | h)
      · exact Or.inl (Or.inl h)
      · exact Or.inr h
      · exact Or.inl (Or.inr h)

private theorem Same.setAll_same {c d : DiagnosticCollection} (h : Same c d) (ds : List (Nat × List Diag)) :
    Same (setAll ds c) (setAll ds d) := by
  induction ds generalizing c d with
  | nil => exact h
  | cons x ds ih => exact ih (h.set x.1 x.2)

/-- Every file has one list of diagnostics. -/
private def Single (ds : List (Nat × List Diag)) : Prop := ∃ f : Nat → List Diag, ∀ x ∈ ds, x.2 = f x.1

private theorem Same.setAll_perm {ds es : List (Nat × List Diag)} (hp : ds.Perm es) (hf : Single ds) :
    ∀ {c d : DiagnosticCollection}, Same c d → Same (setAll ds c) (setAll es d) := by
  obtain ⟨f, hf⟩ := hf
  induction hp with
  | nil => exact fun h => h
  | cons x _ ih => exact fun h => ih (fun y hy => hf y (List.mem_cons_of_mem _ hy)) (h.set x.1 x.2)
  | swap x y l =>
    intro c d h
    show Same (setAll l ((c.setNativeDiagnostics y.1 y.2).setNativeDiagnostics x.1 x.2))
      (setAll l ((d.setNativeDiagnostics x.1 x.2).setNativeDiagnostics y.1 y.2))
    apply Same.setAll_same
    by_cases e : y.1 = x.1
    · have : y.2 = x.2 := by rw [hf y (by simp), hf x (by simp), e]
      rw [e, this]
      exact (h.set _ _).set _ _
    · exact (Same.swap c _ _ e).trans ((h.set _ _).set _ _)
  | trans h1 _ ih1 ih2 =>
    intro c d h
    exact (ih1 hf h).trans (ih2 (fun x hx => hf x (h1.mem_iff.2 hx)) (Same.rfl' d))

/-! ### queues -/

private inductive Queues : List Task → List Task → Prop where
  | nil : Queues [] []
  | response {a b : List Task} (id : ReqId) (oc : Outcome) : Queues a b →
      Queues (a ++ [.response id oc]) (b ++ [.response id oc])
  | diagnostics {a b : List Task} {ds es : List (Nat × List Diag)} : Queues a b → ds.Perm es → Single ds →
      Queues (a ++ [.diagnostics ds]) (b ++ [.diagnostics es])

private theorem Queues.responses {a b : List Task} (h : Queues a b) : responses a = responses b := by
  induction h with
  | nil => rfl
  | response id oc _ ih => unfold Server.responses at ih ⊢; rw [List.flatMap_append, List.flatMap_append, ih]
  | diagnostics _ _ _ ih =>
    unfold Server.responses at ih ⊢; rw [List.flatMap_append, List.flatMap_append, ih]; rfl

private theorem setAll_append (a b : List (Nat × List Diag)) (c : DiagnosticCollection) :
    setAll (a ++ b) c = setAll b (setAll a c) := by
  unfold setAll; rw [List.foldl_append]

private theorem Queues.setAll {a b : List Task} (h : Queues a b) {c d : DiagnosticCollection} (hc : Same c d) :
    Same (setAll (entries a) c) (setAll (entries b) d) := by
  induction h with
  | nil => exact hc
  | response id oc _ ih =>
    rw [entries_append, entries_append, setAll_append, setAll_append]
    exact ih
  | diagnostics _ hp hs ih =>
    rw [entries_snoc, entries_snoc, setAll_append, setAll_append]
    exact Same.setAll_perm hp hs ih

/-! ### servers -/

private structure Alike (s t : Server) : Prop where
  same : t = { s with diagnostics := t.diagnostics, tasks := t.tasks, sent := t.sent }
  tasks : Queues s.tasks t.tasks
  diagnostics : Same s.diagnostics t.diagnostics
  quiet : s.diagnostics.changes = [] ∧ t.diagnostics.changes = []
  sent : Shuffled s.sent t.sent

/-- The parts of two servers that may differ. -/
private theorem Alike.form {s t : Server} (h : Alike s t) : ∃ d ts ms, t = { s with diagnostics := d, tasks := ts, sent := ms } ∧
    Queues s.tasks ts ∧ Same s.diagnostics d ∧ (s.diagnostics.changes = [] ∧ d.changes = []) ∧ Shuffled s.sent ms :=
  ⟨_, _, _, h.same, h.tasks, h.diagnostics, h.quiet, h.sent⟩

private theorem alike_update {diag} {o o' : Orders} {s t : Server} (h : Alike s t) :
    Opt Alike (maybeUpdateDiagnostics diag o s) (maybeUpdateDiagnostics diag o' t) := by
  obtain ⟨d, ts, ms, rfl, h1, h2, hq, h3⟩ := h.form
  unfold maybeUpdateDiagnostics
  have hp : (o.docs (s.memDocs.map (·.1))).Perm (o'.docs (s.memDocs.map (·.1))) :=
    (o.docs_perm _).trans (o'.docs_perm _).symm
  have hm := mapM_perm (fun path => (s.vfs.fileId path).join) hp
  simp only
  cases e1 : List.mapM (fun path => (s.vfs.fileId path).join) (o.docs (s.memDocs.map (·.1))) with
  | none =>
    cases e2 : List.mapM (fun path => (s.vfs.fileId path).join) (o'.docs (s.memDocs.map (·.1))) with
    | none => trivial
    | some _ => rw [e1, e2] at hm; exact hm.elim
  | some l =>
    cases e2 : List.mapM (fun path => (s.vfs.fileId path).join) (o'.docs (s.memDocs.map (·.1))) with
    | none => rw [e1, e2] at hm; exact hm.elim
    | some l' =>
      rw [e1, e2] at hm
      have hm2 := mapM_perm (fileDiagnostics diag s) hm
      have he : fileDiagnostics diag { s with diagnostics := d, tasks := ts, sent := ms } = fileDiagnostics diag s := rfl
      simp only
      rw [he]
      cases e3 : List.mapM (fileDiagnostics diag s) l with
      | none =>
        cases e4 : List.mapM (fileDiagnostics diag s) l' with
        | none => trivial
        | some _ => rw [e3, e4] at hm2; exact hm2.elim
      | some r =>
        cases e4 : List.mapM (fileDiagnostics diag s) l' with
        | none => rw [e3, e4] at hm2; exact hm2.elim
        | some r' =>
          rw [e3, e4] at hm2
          refine ⟨rfl, .diagnostics h1 hm2 ?_, h2, hq, h3⟩
          refine ⟨fun id => ((s.fileText id).bind diag).getD [], fun x hx => ?_⟩
          obtain ⟨y, -, hy⟩ := mem_of_mapM e3 hx
          unfold fileDiagnostics at hy
          cases ht : s.fileText y with
          | none => rw [ht] at hy; cases hy
          | some text =>
            rw [ht] at hy
            simp only [Option.map_eq_some_iff] at hy
            obtain ⟨d, hd, rfl⟩ := hy
            simp [ht, hd]

private theorem alike_publish {o o' : Orders} {s t : Server} (h : Alike s t) :
    Opt Alike (publishChanges o s) (publishChanges o' t) := by
  rw [publish_nil h.quiet.1, publish_nil h.quiet.2]
  exact h

private theorem alike_finish {diag} {o o' : Orders} {s t : Server} (h : Alike s t) :
    Opt Alike (finishEvent diag o s) (finishEvent diag o' t) := by
  have hu : ∀ {s t : Server}, Alike s t → ∀ b : Bool,
      Opt Alike (match (if b = true then maybeUpdateDiagnostics diag o s else some s) with
        | none => none
        | some s => publishChanges o s) (match (if b = true then maybeUpdateDiagnostics diag o' t else some t) with
        | none => none
        | some s => publishChanges o' s) := by
    intro s t h b
    cases b with
    | false => exact alike_publish h
    | true =>
      have := alike_update (diag := diag) (o := o) (o' := o') h
      simp only [if_true]
      cases e1 : maybeUpdateDiagnostics diag o s with
      | none =>
        cases e2 : maybeUpdateDiagnostics diag o' t with
        | none => trivial
        | some _ => rw [e1, e2] at this; exact this.elim
      | some s' =>
        cases e2 : maybeUpdateDiagnostics diag o' t with
        | none => rw [e1, e2] at this; exact this.elim
        | some t' => rw [e1, e2] at this; exact alike_publish this
  obtain ⟨d, ts, ms, rfl, h1, h2, hq, h3⟩ := h.form
  unfold finishEvent processChanges
  simp only
  by_cases hc : s.vfs.takeChanges.2.isEmpty
  · rw [if_pos hc, if_pos hc]
    exact hu ⟨rfl, h1, h2, hq, h3⟩ false
  · rw [if_neg hc, if_neg hc]
    cases collectChanges s.vfs.takeChanges.1 s.vfs.takeChanges.2 with
    | none => trivial
    | some change => exact hu ⟨rfl, h1, h2, hq, h3⟩ true

private theorem alike_send {s t : Server} (h : Alike s t) (m : Msg) : Alike (s.send m) (t.send m) := by
  obtain ⟨d, ts, ms, rfl, h1, h2, hq, h3⟩ := h.form
  exact ⟨rfl, h1, h2, hq, h3.message m⟩

private theorem alike_respond {s t : Server} (h : Alike s t) (id : ReqId) (oc : Outcome) :
    Alike (s.respond id oc) (t.respond id oc) := by
  obtain ⟨d, ts, ms, rfl, h1, h2, hq, h3⟩ := h.form
  unfold respond
  by_cases hi : id ∈ s.incoming
  · simp only [if_pos hi]
    exact ⟨rfl, h1, h2, hq, h3.message _⟩
  · simp only [if_neg hi]
    exact h

private theorem alike_request {s t : Server} (h : Alike s t) (id : ReqId) (m : Method) (ok : Bool) :
    Alike (s.onRequest id m ok) (t.onRequest id m ok) := by
  have hr : Alike (s.registerRequest id) (t.registerRequest id) := by
    obtain ⟨d, ts, ms, rfl, h1, h2, hq, h3⟩ := h.form
    exact ⟨rfl, h1, h2, hq, h3⟩
  have hs : (t.registerRequest id).shutdownRequested = (s.registerRequest id).shutdownRequested := by
    rw [hr.same]
  unfold onRequest
  simp only [hs]
  by_cases hd : (s.registerRequest id).shutdownRequested
  · rw [if_pos hd, if_pos hd]; exact alike_respond hr _ _
  · rw [if_neg hd, if_neg hd]
    cases m with
    | shutdown =>
      cases ok with
      | false => exact alike_respond hr _ _
      | true =>
        refine alike_respond ?_ _ _
        obtain ⟨d, ts, ms, e, h1, h2, hq, h3⟩ := hr.form
        rw [e]
        exact ⟨rfl, h1, h2, hq, h3⟩
    | completion =>
      cases ok with
      | false => exact alike_respond hr _ _
      | true =>
        obtain ⟨d, ts, ms, e, h1, h2, hq, h3⟩ := hr.form
        rw [e]
        exact ⟨rfl, .response _ _ h1, h2, hq, h3⟩
    | unknown => exact alike_respond hr _ _

private theorem alike_open {diag} {o o' : Orders} {s t : Server} (h : Alike s t) (uri : Uri) (v : Int) (text : Text) :
    Opt Alike (didOpen diag o s uri v text) (didOpen diag o' t uri v text) := by
  cases uri with
  | other u => exact h
  | file p =>
    obtain ⟨d, ts, ms, rfl, h1, h2, hq, h3⟩ := h.form
    unfold didOpen
    simp only
    cases hw : s.vfs.setFileContents p (some (.utf8 text)) with
    | none => trivial
    | some r =>
      obtain ⟨w, b⟩ := r
      have ha : Alike { s with memDocs := insertDoc s.memDocs p v, vfs := w }
        { s with memDocs := insertDoc s.memDocs p v, vfs := w, diagnostics := d, tasks := ts, sent := ms } :=
        ⟨rfl, h1, h2, hq, h3⟩
      cases b with
      | true => exact ha
      | false => exact alike_update ha

private theorem alike_change {s t : Server} (h : Alike s t) (uri : Uri) (v : Int) (cs : List Lsp.Change) :
    Opt Alike (didChange s uri v cs) (didChange t uri v cs) := by
  cases uri with
  | other u => exact h
  | file p =>
    obtain ⟨d, ts, ms, rfl, h1, h2, hq, h3⟩ := h.form
    unfold didChange
    simp only
    by_cases hc : (s.memDocs.map (·.1)).contains p
    · rw [if_pos hc, if_pos hc]
      cases (s.vfs.fileId p).join with
      | none => trivial
      | some id =>
        simp only
        cases s.vfs.fileContents id with
        | none => trivial
        | some bytes =>
          simp only
          cases bytes.toText with
          | none => trivial
          | some text =>
            simp only
            cases Lsp.applyDocumentChanges text cs with
            | none => trivial
            | some text' =>
              simp only
              cases s.vfs.setFileContents p (some (.utf8 text')) with
              | none => trivial
              | some r => exact ⟨rfl, h1, h2, hq, h3⟩
    · rw [if_neg hc, if_neg hc]; exact h

private theorem alike_complete {s t : Server} (h : Alike s t) (id : ReqId) (e : Bool) (r : Option Json) :
    Opt Alike (completeRequest s id e r) (completeRequest t id e r) := by
  obtain ⟨d, ts, ms, rfl, h1, h2, hq, h3⟩ := h.form
  unfold completeRequest
  simp only
  by_cases hi : id ∈ s.outgoing
  · rw [if_pos hi, if_pos hi]
    cases e with
    | true => exact ⟨rfl, h1, h2, hq, h3⟩
    | false =>
      simp only [Bool.false_eq_true, if_false]
      split
      · unfold updateConfiguration loadWorkspace
        simp only
        split
        · split
          · exact ⟨rfl, h1, h2, hq, h3⟩
          · trivial
        · exact ⟨rfl, h1, h2, hq, h3⟩
      · exact ⟨rfl, h1, h2, hq, h3⟩
  · rw [if_neg hi, if_neg hi]; trivial

private theorem alike_files {s t : Server} (h : Alike s t) (files : List (AbsPath × Option Bytes)) :
    Opt Alike (handleLoader s (.loaded files)) (handleLoader t (.loaded files)) := by
  unfold handleLoader
  simp only
  induction files generalizing s t with
  | nil => exact h
  | cons f files ih =>
    rw [List.foldlM_cons, List.foldlM_cons]
    have h0 := h
    obtain ⟨d, ts, ms, rfl, h1, h2, hq, h3⟩ := h.form
    simp only
    by_cases hc : (s.memDocs.map (·.1)).contains f.1
    · rw [if_pos hc, if_pos hc]; exact ih h0
    · rw [if_neg hc, if_neg hc]
      cases s.vfs.setFileContents f.1 f.2 with
      | none => trivial
      | some r => exact ih (s := { s with vfs := r.1 }) ⟨rfl, h1, h2, hq, h3⟩

private theorem alike_loader {s t : Server} (h : Alike s t) (ms : List LoaderMsg) :
    Opt Alike (ms.foldlM handleLoader s) (ms.foldlM handleLoader t) := by
  induction ms generalizing s t with
  | nil => exact h
  | cons m ms ih =>
    rw [List.foldlM_cons, List.foldlM_cons]
    have hm : Opt Alike (handleLoader s m) (handleLoader t m) := by
      cases m with
      | progress => exact h
      | loaded files => exact alike_files h files
    cases e1 : handleLoader s m with
    | none =>
      cases e2 : handleLoader t m with
      | none => trivial
      | some _ => rw [e1, e2] at hm; exact hm.elim
    | some s' =>
      cases e2 : handleLoader t m with
      | none => rw [e1, e2] at hm; exact hm.elim
      | some t' => rw [e1, e2] at hm; exact ih hm

private theorem alike_dispatch {diag} {o o' : Orders} {s t : Server} (h : Alike s t) {e : ServerEvent} (he : e ≠ .task) :
    Opt Alike (dispatch diag o s e) (dispatch diag o' t e) := by
  cases e with
  | request id m ok => exact alike_request h id m ok
  | didOpen uri v text => exact alike_open h uri v text
  | didChange uri v cs => exact alike_change h uri v cs
  | didClose uri =>
    cases uri with
    | other u => exact alike_send h _
    | file p =>
      obtain ⟨d, ts, ms, rfl, h1, h2, hq, h3⟩ := h.form
      exact ⟨rfl, h1, h2, hq, h3.message _⟩
  | didSave uri => exact h
  | didChangeConfiguration =>
    obtain ⟨d, ts, ms, rfl, h1, h2, hq, h3⟩ := h.form
    exact ⟨rfl, h1, h2, hq, h3.message _⟩
  | malformedNotification => trivial
  | unknownNotification => exact h
  | response id e r => exact alike_complete h id e r
  | task => exact absurd rfl he
  | loader first rest => exact alike_loader h (first :: rest)

private theorem shuffled_answers (rs : List (ReqId × Outcome)) (inc : List ReqId) {a b : List Msg} (h : Shuffled a b) :
    (answerAll rs (inc, b)).1 = (answerAll rs (inc, a)).1 ∧
      Shuffled (answerAll rs (inc, a)).2 (answerAll rs (inc, b)).2 := by
  induction rs generalizing inc a b with
  | nil => exact ⟨rfl, h⟩
  | cons r rs ih =>
    unfold answerAll
    rw [List.foldl_cons, List.foldl_cons]
    by_cases hi : r.1 ∈ inc
    · simp only [if_pos hi]; exact ih _ (h.message _)
    · simp only [if_neg hi]; exact ih _ h

private theorem alike_task {diag} {o o' : Orders} {s t : Server} (h : Alike s t) (hs : Inv s) (ht : Inv t) :
    Opt Alike (handleEvent diag s (.task, o)) (handleEvent diag t (.task, o')) := by
  rw [task_event hs, task_event ht]
  obtain ⟨d, ts, ms, rfl, h1, h2, hq, h3⟩ := h.form
  have hsame : Same (setAll (entries s.tasks) s.diagnostics) (setAll (entries ts) d) := h1.setAll h2
  have hn : (setAll (entries s.tasks) s.diagnostics).changes.Nodup := setAll_nodup _ _ (by rw [hq.1]; exact List.nodup_nil)
  have hn' : (setAll (entries ts) d).changes.Nodup := setAll_nodup _ _ (by rw [hq.2]; exact List.nodup_nil)
  have hperm : (setAll (entries s.tasks) s.diagnostics).changes.Perm (setAll (entries ts) d).changes :=
    (List.perm_ext_iff_of_nodup hn hn').2 hsame.changes
  have hbound : ∀ id ∈ (setAll (entries s.tasks) s.diagnostics).changes, id < s.vfs.paths.length := by
    intro id hid
    rcases (setAll_mem _ _ _).1 hid with h | h
    · rw [hq.1] at h; cases h
    · obtain ⟨x, hx, rfl⟩ := List.mem_map.1 h
      exact hs.queued x hx
  obtain ⟨a1, a2⟩ := shuffled_answers (Server.responses s.tasks) s.incoming h3
  have hpub : publication { s with diagnostics := setAll (entries ts) d, tasks := ts, sent := ms } =
      publication { s with diagnostics := setAll (entries s.tasks) s.diagnostics } := by
    funext id
    unfold publication DiagnosticCollection.diagnosticsFor
    simp only [hsame.lookup id]
  refine ⟨?_, .nil, ⟨hsame.lookup, fun k => by simp⟩, ⟨rfl, rfl⟩, ?_⟩
  · simp only
    rw [← h1.responses, a1]
  · simp only
    rw [← h1.responses, hpub]
    refine a2.publications ?_ ?_ ?_
    · exact (((o.files_perm _).trans hperm).trans (o'.files_perm _).symm).map _
    · rw [List.map_map]
      have hnd : (o.files (setAll (entries s.tasks) s.diagnostics).changes).Nodup := (o.files_perm _).nodup_iff.2 hn
      refine List.Pairwise.map _ ?_ (List.Pairwise.and_mem.1 hnd)
      rintro i j ⟨hi, hj, hij⟩ e
      have hi' := hbound i ((o.files_perm _).mem_iff.1 hi)
      have hj' := hbound j ((o.files_perm _).mem_iff.1 hj)
      simp only [publication, publishes, Vfs.filePath, List.getElem?_eq_getElem hi', List.getElem?_eq_getElem hj',
        Function.comp_apply, Option.getD_some, Option.some.injEq, Uri.file.injEq] at e
      exact hij ((List.getElem?_inj hi' hs.wf.nodup).1 (by
        rw [List.getElem?_eq_getElem hi', List.getElem?_eq_getElem hj', e]))
    · intro m hm
      obtain ⟨id, -, rfl⟩ := List.mem_map.1 hm
      simp [publication, publishes]

private theorem alike_event {diag} {o o' : Orders} {s t : Server} (h : Alike s t) (hs : Inv s) (ht : Inv t) (e : ServerEvent) :
    Opt Alike (handleEvent diag s (e, o)) (handleEvent diag t (e, o')) := by
  by_cases he : e = .task
  · subst he; exact alike_task h hs ht
  · have hd := alike_dispatch (diag := diag) (o := o) (o' := o') h he
    unfold handleEvent
    simp only
    cases e1 : dispatch diag o s e with
    | none =>
      cases e2 : dispatch diag o' t e with
      | none => trivial
      | some _ => rw [e1, e2] at hd; exact hd.elim
    | some s' =>
      cases e2 : dispatch diag o' t e with
      | none => rw [e1, e2] at hd; exact hd.elim
      | some t' => rw [e1, e2] at hd; exact alike_finish hd

private theorem alike_run {diag} {config : Config} (es es' : List (ServerEvent × Orders))
    (he : happened es = happened es') :
    Opt Alike (run diag (.new config) es) (run diag (.new config) es') := by
  induction es using history_ind generalizing es' with
  | nil =>
    have : es' = [] := by simpa using he.symm
    subst this
    exact ⟨rfl, .nil, Same.rfl' _, ⟨rfl, rfl⟩, .nil⟩
  | snoc es e ih =>
    rcases List.eq_nil_or_concat es' with rfl | ⟨es', e', rfl⟩
    · simp [happened] at he
    · simp only [happened, List.map_append, List.map_cons, List.map_nil, List.concat_eq_append] at he
      obtain ⟨h1, h2⟩ := List.append_inj' he rfl
      have h3 : e.1 = e'.1 := by simpa using h2
      obtain ⟨e, o⟩ := e
      obtain ⟨e', o'⟩ := e'
      simp only at h3
      subst h3
      have hr := ih es' h1
      have hx : ∀ (l : List (ServerEvent × Orders)) x, run diag (.new config) (l ++ [x]) =
          (run diag (.new config) l).bind (handleEvent diag · x) := by
        intro l x
        unfold run
        rw [List.foldlM_append]
        cases List.foldlM (handleEvent diag) (new config) l with
        | none => rfl
        | some y => simp
      rw [List.concat_eq_append, hx, hx]
      cases e1 : run diag (.new config) es with
      | none =>
        cases e2 : run diag (.new config) es' with
        | none => trivial
        | some _ => rw [e1, e2] at hr; exact hr.elim
      | some s =>
        cases e2 : run diag (.new config) es' with
        | none => rw [e1, e2] at hr; exact hr.elim
        | some t =>
          rw [e1, e2] at hr
          exact alike_event hr (Inv.run e1) (Inv.run e2) e

/-! ### what is left of a shuffle -/

private theorem filter_single {l : List Msg} {u : Uri} (h : (l.map publishes).Nodup) :
    (l.filter fun m => publishes m = some u).length ≤ 1 := by
  induction l with
  | nil => simp
  | cons m l ih =>
    rw [List.map_cons, List.nodup_cons] at h
    by_cases hm : publishes m = some u
    · have : l.filter (fun m => publishes m = some u) = [] := by
        rw [List.filter_eq_nil_iff]
        intro x hx e
        exact h.1 (by rw [hm, ← of_decide_eq_true e]; exact List.mem_map_of_mem hx)
      rw [List.filter_cons_of_pos (by simpa using hm), this]
      simp
    · rw [List.filter_cons_of_neg (by simpa using hm)]
      exact ih h.2

private theorem perm_single {l l' : List Msg} (h : l.Perm l') (hl : l.length ≤ 1) : l = l' := by
  match l, l', h with
  | [], l', h => exact (List.nil_perm.1 h).symm
  | [x], l', h => exact (List.perm_singleton.1 h.symm).symm
  | _ :: _ :: _, _, _ => simp at hl

/-- C102, what a client can see.  Between two sequences of messages that differ only in the order of publications sent
together: for every document, the publications for it are the same in the same order; and so are the other
messages. -/
theorem C102_per_document {a b : List Msg} (h : Shuffled a b) :
    (∀ u : Uri, (a.filter fun m => publishes m = some u) = b.filter fun m => publishes m = some u) ∧
    (a.filter fun m => publishes m = none) = (b.filter fun m => publishes m = none) ∧ a.Perm b := by
  induction h with
  | nil => exact ⟨fun _ => rfl, rfl, .refl _⟩
  | message m _ ih =>
    exact ⟨fun u => by rw [List.filter_append, List.filter_append, ih.1 u],
      by rw [List.filter_append, List.filter_append, ih.2.1], ih.2.2.append_right _⟩
  | publications _ hp hn hnone ih =>
    refine ⟨fun u => ?_, ?_, ih.2.2.append hp⟩
    · rw [List.filter_append, List.filter_append, ih.1 u]
      congr 1
      exact perm_single (hp.filter _) (filter_single hn)
    · rw [List.filter_append, List.filter_append, ih.2.1]
      congr 1
      rw [List.filter_eq_nil_iff.2 (fun x hx => by simpa using hnone x hx),
        List.filter_eq_nil_iff.2 (fun x hx => by simpa using hnone x (hp.mem_iff.2 hx))]

/-- The documents the client shows are the same. -/
theorem C102_shown {a b : List Msg} (h : Shuffled a b) (p : AbsPath) : shown p a = shown p b := by
  have key : ∀ l : List Msg, shown p l = shown p (l.filter fun m => publishes m = some (.file p)) := by
    intro l
    induction l using history_ind with
    | nil => rfl
    | snoc l m ih =>
      rw [List.filter_append, shown_snoc]
      cases m with
      | response => simp only [ih]; simp [publishes]
      | configurationRequest => simp only [ih]; simp [publishes]
      | publishDiagnostics u v d =>
        cases u with
        | other => simp only [ih]; simp [publishes]
        | file q =>
          simp only
          by_cases hq : q = p
          · subst hq
            rw [if_pos rfl, List.filter_cons_of_pos (by simp [publishes]), List.filter_nil, shown_snoc]
            simp
          · rw [if_neg hq, List.filter_cons_of_neg (by simpa [publishes] using hq), List.filter_nil, List.append_nil, ih]
  rw [key a, key b, (C102_per_document h).1]

/-! ### C102 -/

/-- C102.  Two runs of the server on the same events, whose hash tables are iterated in different orders: one panics
exactly if the other does, and the state they reach differs in nothing but pending tasks; the messages they have sent
are the same in the same order, except that publications for different documents sent in one turn may be exchanged. -/
theorem C102_hash_order {config : Config} {es es' : List (ServerEvent × Orders)} (h : happened es = happened es') :
    (run diagnosticsOf (.new config) es = none ↔ run diagnosticsOf (.new config) es' = none) ∧
    ∀ s s', run diagnosticsOf (.new config) es = some s → run diagnosticsOf (.new config) es' = some s' →
      Shuffled s.sent s'.sent ∧ s'.vfs = s.vfs ∧ s'.fileText = s.fileText ∧ s'.memDocs = s.memDocs ∧
      s'.config = s.config ∧ s'.loads = s.loads ∧ s'.incoming = s.incoming ∧ s'.outgoing = s.outgoing ∧
      s'.shutdownRequested = s.shutdownRequested ∧ s'.tasks.length = s.tasks.length ∧
      ∀ id, s'.diagnostics.diagnosticsFor id = s.diagnostics.diagnosticsFor id := by
  have hr := alike_run (diag := diagnosticsOf) (config := config) es es' h
  refine ⟨?_, ?_⟩
  · cases e1 : run diagnosticsOf (.new config) es with
    | none =>
      cases e2 : run diagnosticsOf (.new config) es' with
      | none => simp
      | some _ => rw [e1, e2] at hr; exact hr.elim
    | some s =>
      cases e2 : run diagnosticsOf (.new config) es' with
      | none => rw [e1, e2] at hr; exact hr.elim
      | some _ => simp
  · intro s s' e1 e2
    rw [e1, e2] at hr
    have hl : ∀ {a b : List Task}, Queues a b → b.length = a.length := by
      intro a b h
      induction h with
      | nil => rfl
      | response _ _ _ ih => simp [ih]
      | diagnostics _ _ _ ih => simp [ih]
    have hd : ∀ id, s'.diagnostics.diagnosticsFor id = s.diagnostics.diagnosticsFor id := fun id => by
      unfold DiagnosticCollection.diagnosticsFor; rw [hr.diagnostics.lookup]
    refine ⟨hr.sent, ?_, ?_, ?_, ?_, ?_, ?_, ?_, ?_, hl hr.tasks, hd⟩ <;> rw [hr.same]

/-- C102, what the client shows does not depend on the orders. -/
theorem C102_client {config : Config} {es es' : List (ServerEvent × Orders)} (h : happened es = happened es') {s s' : Server}
    (hs : run diagnosticsOf (.new config) es = some s) (hs' : run diagnosticsOf (.new config) es' = some s') :
    (∀ p, shown p s.sent = shown p s'.sent) ∧
    (∀ u : Uri, (s.sent.filter fun m => publishes m = some u) = s'.sent.filter fun m => publishes m = some u) ∧
    (s.sent.filter fun m => publishes m = none) = s'.sent.filter fun m => publishes m = none := by
  have := ((C102_hash_order h).2 s s' hs hs').1
  exact ⟨C102_shown this, (C102_per_document this).1, (C102_per_document this).2.1⟩

/-- Orders that iterate backwards. -/
def _root_.Verif.Orders.backwards : Orders :=
  ⟨List.reverse, List.reverse, fun l => l.reverse_perm, fun l => l.reverse_perm⟩

/-- Two documents opened and published together. -/
def twoDocuments : List ServerEvent :=
  [.didOpen (.file "/a.lua") 1 [], .didOpen (.file "/b.lua") 1 badText, .request (.int 7) .completion true, .task]

/-- Non-vacuity of C102, and the exception in it is needed: the two documents are published in one order or in the
other. -/
theorem C102_orders_visible :
    (run diagnosticsOf (.new .default) (twoDocuments.map (·, Orders.plain))).map (·.sent) =
      some [.response (.int 7) .ok, .publishDiagnostics (.file "/a.lua") (some 1) [],
        .publishDiagnostics (.file "/b.lua") (some 1) [badDiag]] ∧
    (run diagnosticsOf (.new .default) (twoDocuments.map (·, Orders.backwards))).map (·.sent) =
      some [.response (.int 7) .ok, .publishDiagnostics (.file "/b.lua") (some 1) [badDiag],
        .publishDiagnostics (.file "/a.lua") (some 1) []] := by
  rw [diagnosticsOf_tables badText_diagnostics noText_diagnostics]
  decide +kernel

end Server
end Verif
