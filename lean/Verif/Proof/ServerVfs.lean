import Verif.Proof.VfsProof
import Verif.Proof.DiagnosticsProof
import Verif.Model.Server

/-
The Vfs and the database during one event.
-/
namespace Verif
open Spec

namespace Vfs

/-- Well formed: every interned path has an entry, and paths are distinct. -/
structure WF (v : Vfs) : Prop where
  nodup : v.paths.Nodup
  len : v.data.length = v.paths.length

theorem WF.default : WF Vfs.default := ⟨by simp [Vfs.default], rfl⟩

theorem fileContents_eq (v : Vfs) (id : Nat) : v.fileContents id = (v.data[id]?).join := by
  unfold fileContents
  cases v.data[id]? with
  | none => rfl
  | some c => cases c <;> rfl

theorem fileId_wf {v : Vfs} (h : WF v) (p : AbsPath) :
    v.fileId p = some ((v.paths.idxOf? p).filter fun id => (v.fileContents id).isSome) := by
  unfold fileId internerGet
  cases hi : v.paths.idxOf? p with
  | none => rfl
  | some i =>
    have hlt : i < v.data.length := by
      rw [h.len]; exact (List.getElem?_eq_some_iff.1 (idxOf?_some hi)).1
    simp only [fileContents_eq, List.getElem?_eq_getElem hlt, Option.filter_some]
    cases v.data[i] <;> simp

theorem fileId_iff {v : Vfs} (h : WF v) (p : AbsPath) (id : Nat) :
    v.fileId p = some (some id) ↔ v.paths[id]? = some p ∧ (v.fileContents id).isSome := by
  rw [fileId_wf h]
  constructor
  · intro hh
    simp only [Option.some.injEq] at hh
    obtain ⟨h1, h2⟩ := Option.filter_eq_some_iff.1 hh
    exact ⟨idxOf?_some h1, h2⟩
  · rintro ⟨h1, h2⟩
    rw [idxOf?_of_get h.nodup h1]
    simp [Option.filter, h2]

theorem fileContents_none {v : Vfs} (h : WF v) {id : Nat} (hid : v.paths.length ≤ id) : v.fileContents id = none := by
  rw [fileContents_eq, List.getElem?_eq_none (by rw [h.len]; exact hid)]; rfl

/-- A write, in terms of the contents of ids. -/
structure Wrote (v w : Vfs) (p : AbsPath) (c : Option Bytes) (changed : Bool) (id : Nat) : Prop where
  wf : WF w
  paths : w.paths = v.paths ∨ w.paths = v.paths ++ [p]
  at_ : w.paths[id]? = some p
  contents : ∀ j, w.fileContents j = if j = id then c else v.fileContents j
  changed : changed = decide (v.fileContents id ≠ c)
  changes : w.changes = v.changes ++ (match changeOf (v.fileContents id) c with
    | none => []
    | some k => [⟨id, k⟩])

theorem alloc_wf {v : Vfs} (h : WF v) (p : AbsPath) {w : Vfs} {id : Nat} (ha : v.allocFileId p = some (w, id)) :
    WF w ∧ (w.paths = v.paths ∨ w.paths = v.paths ++ [p]) ∧ w.paths[id]? = some p ∧
      (∀ j, w.fileContents j = v.fileContents j) ∧ w.changes = v.changes := by
  unfold allocFileId intern at ha
  cases hi : v.paths.idxOf? p with
  | some i =>
    have hlt := (List.getElem?_eq_some_iff.1 (idxOf?_some hi)).1
    rw [hi] at ha
    simp only at ha
    split at ha
    · cases ha
    · rename_i paths id' heq
      split at heq
      · simp only [Option.some.injEq, Prod.mk.injEq] at heq
        obtain ⟨rfl, rfl⟩ := heq
        have h0 : max v.data.length (i + 1) - v.data.length = 0 := by rw [h.len]; omega
        rw [h0] at ha
        simp only [Option.some.injEq, Prod.mk.injEq, List.replicate_zero, List.append_nil] at ha
        obtain ⟨rfl, rfl⟩ := ha
        exact ⟨⟨h.nodup, h.len⟩, Or.inl rfl, idxOf?_some hi, fun _ => rfl, rfl⟩
      · cases heq
  | none =>
    have hp : p ∉ v.paths := fun hm => by
      obtain ⟨i, hi'⟩ := idxOf?_mem hm
      rw [hi] at hi'; cases hi'
    rw [hi] at ha
    simp only at ha
    split at ha
    · cases ha
    · rename_i paths id' heq
      split at heq
      · simp only [Option.some.injEq, Prod.mk.injEq] at heq
        obtain ⟨rfl, rfl⟩ := heq
        have h0 : max v.data.length (v.paths.length + 1) - v.data.length = 1 := by rw [h.len]; omega
        rw [h0] at ha
        simp only [Option.some.injEq, Prod.mk.injEq] at ha
        obtain ⟨rfl, rfl⟩ := ha
        refine ⟨⟨?_, by simp [h.len]⟩, Or.inr rfl, by simp, ?_, rfl⟩
        · rw [List.nodup_append]
          refine ⟨h.nodup, by simp, ?_⟩
          intro a hain b hb e
          simp at hb; subst hb; subst e; exact hp hain
        · intro j
          rw [fileContents_eq, fileContents_eq]
          simp only
          by_cases hj : j < v.data.length
          · rw [List.getElem?_append_left hj]
          · rw [List.getElem?_append_right (by omega), List.getElem?_eq_none (l := v.data) (by omega)]
            by_cases h0 : j - v.data.length = 0
            · rw [h0]; rfl
            · rw [List.getElem?_eq_none (by simp; omega)]
      · cases heq

theorem setTail_spec {v : Vfs} (h : WF v) {p : AbsPath} {id : Nat} (hid : v.paths[id]? = some p) (c : Option Bytes) :
    ∃ w b, setTail v id c = some (w, b) ∧ Wrote v w p c b id := by
  have hlt : id < v.data.length := by rw [h.len]; exact (List.getElem?_eq_some_iff.1 hid).1
  have hold : v.data[id]? = some (v.fileContents id) := by
    rw [fileContents_eq, List.getElem?_eq_getElem hlt]; rfl
  unfold setTail
  rw [hold]
  simp only
  have same : v.fileContents id = c → ∃ w b, some (v, false) = some (w, b) ∧ Wrote v w p c b id := by
    intro he
    refine ⟨v, false, rfl, h, Or.inl rfl, hid, ?_, by simp [he], by simp [changeOf, he]⟩
    intro j
    by_cases hj : j = id
    · subst hj; simp [he]
    · simp [hj]
  have diff : ∀ k, v.fileContents id ≠ c → changeOf (v.fileContents id) c = some k →
      ∃ w b, some ({ v with data := v.data.set id c, changes := v.changes ++ [⟨id, k⟩] }, true) = some (w, b) ∧
        Wrote v w p c b id := by
    intro k hne hk
    refine ⟨_, _, rfl, ⟨h.nodup, by simp [h.len]⟩, Or.inl rfl, hid, ?_, by simp [hne], by simp [hk]⟩
    intro j
    rw [fileContents_eq, fileContents_eq]
    simp only [List.getElem?_set]
    by_cases hj : j = id
    · subst hj; simp [hlt]
    · have hj' : ¬ id = j := fun e => hj e.symm
      simp [hj, hj']
  cases ho : v.fileContents id with
  | none =>
    cases c with
    | none => exact same ho
    | some n => exact diff .create (by simp [ho]) (by simp [changeOf, ho])
  | some o =>
    cases c with
    | none => exact diff .delete (by simp [ho]) (by simp [changeOf, ho])
    | some n =>
      simp only
      by_cases hon : o = n
      · rw [if_pos hon]; exact same (by rw [ho, hon])
      · rw [if_neg hon]; exact diff .modify (by simp [ho, hon]) (by simp [changeOf, ho, hon])

theorem set_wrote {v : Vfs} (h : WF v) {p : AbsPath} {c : Option Bytes} {w : Vfs} {b : Bool}
    (hs : v.setFileContents p c = some (w, b)) : ∃ id, Wrote v w p c b id := by
  rw [setFileContents_eq] at hs
  cases ha : v.allocFileId p with
  | none => rw [ha] at hs; cases hs
  | some r =>
    obtain ⟨v1, id⟩ := r
    rw [ha] at hs
    simp only at hs
    obtain ⟨h1, h2, h3, h4, h5⟩ := alloc_wf h p ha
    obtain ⟨w', b', h6, h7⟩ := setTail_spec h1 h3 c
    rw [hs] at h6
    simp only [Option.some.injEq, Prod.mk.injEq] at h6
    obtain ⟨rfl, rfl⟩ := h6
    refine ⟨id, h7.wf, ?_, h7.at_, fun j => by rw [h7.contents, h4], by rw [h7.changed, h4], by rw [h7.changes, h4, h5]⟩
    have : w.paths = v1.paths := by
      have hp := hs
      unfold setTail at hp
      split at hp
      · cases hp
      · split at hp <;> (try split at hp) <;> simp only [Option.some.injEq, Prod.mk.injEq] at hp <;> rw [← hp.1]
    rw [this]; exact h2

/-- When there is room for one more path, writes do not panic. -/
theorem set_some {v : Vfs} (h : WF v) (p : AbsPath) (c : Option Bytes)
    (hb : v.paths.length < 4294967295 ∨ (p ∈ v.paths ∧ v.paths.length ≤ 4294967295)) :
    ∃ w b, v.setFileContents p c = some (w, b) := by
  have ha : ∃ r, v.allocFileId p = some r := by
    unfold allocFileId intern
    cases hi : v.paths.idxOf? p with
    | some i =>
      have hlt := (List.getElem?_eq_some_iff.1 (idxOf?_some hi)).1
      have : i < 4294967295 := by omega
      simp [this]
    | none =>
      rcases hb with hb | ⟨hb, -⟩
      · simp [hb]
      · obtain ⟨i, hi'⟩ := idxOf?_mem hb
        rw [hi] at hi'; cases hi'
  obtain ⟨⟨v1, id⟩, ha⟩ := ha
  obtain ⟨h1, h2, h3, h4, h5⟩ := alloc_wf h p ha
  obtain ⟨w', b', h6, h7⟩ := setTail_spec h1 h3 c
  exact ⟨w', b', by rw [setFileContents_eq, ha]; exact h6⟩

end Vfs

namespace Server

/-- The database agrees with the Vfs on a file. -/
def SyncAt (s : Server) (id : Nat) : Prop :=
  match s.vfs.fileContents id with
  | some b => s.fileText id = some (b.toText.getD [])
  | none => s.fileText id = none ∨ s.fileText id = some []

/-- The kind of the last change of a file in a log says whether it exists. -/
def LastKind (vfs : Vfs) : Prop :=
  ∀ a c b, vfs.changes = a ++ c :: b → (∀ d ∈ b, d.fileId ≠ c.fileId) →
    (c.kind = .delete ↔ vfs.fileContents c.fileId = none)

/-- Between the first write of an event and `process_changes`. -/
structure Mid (s : Server) : Prop where
  wf : s.vfs.WF
  sync : ∀ id, (∀ c ∈ s.vfs.changes, c.fileId ≠ id) → SyncAt s id
  last : LastKind s.vfs

/-- The log asks for the contents of a file that is deleted by now. -/
def BadChange (vfs : Vfs) : Prop :=
  ∃ c ∈ vfs.changes, c.kind ≠ .delete ∧ vfs.fileContents c.fileId = none

theorem Mid.set {s : Server} (h : Mid s) {p c w b} (hs : s.vfs.setFileContents p c = some (w, b))
    {s' : Server} (hv : s'.vfs = w) (hf : s'.fileText = s.fileText) : Mid s' := by
  obtain ⟨id, hw⟩ := Vfs.set_wrote h.wf hs
  refine ⟨hv ▸ hw.wf, ?_, ?_⟩
  · intro j hj
    unfold SyncAt
    rw [hv, hf, hw.contents]
    by_cases hji : j = id
    · subst hji
      have heq : s.vfs.fileContents j = c := by
        apply Classical.byContradiction
        intro hne
        have : ∃ k, changeOf (s.vfs.fileContents j) c = some k := by
          unfold changeOf
          rw [if_neg hne]
          split <;> exact ⟨_, rfl⟩
        obtain ⟨k, hk⟩ := this
        have hch := hw.changes
        rw [hk] at hch
        exact hj ⟨j, k⟩ (by rw [hv, hch]; simp) rfl
      have := h.sync j (fun d hd => hj d (by rw [hv, hw.changes]; simp [hd]))
      unfold SyncAt at this
      rw [if_pos rfl, ← heq]
      exact this
    · rw [if_neg hji]
      exact h.sync j (fun d hd => hj d (by rw [hv, hw.changes]; simp [hd]))
  · rw [hv]
    intro x d y hxy hy
    have hch := hw.changes
    rw [hw.contents]
    cases hk : changeOf (s.vfs.fileContents id) c with
    | none =>
      rw [hk] at hch
      simp only [List.append_nil] at hch
      rw [hch] at hxy
      have heq : s.vfs.fileContents id = c := by
        apply Classical.byContradiction
        intro hne
        unfold changeOf at hk
        rw [if_neg hne] at hk
        split at hk <;> cases hk
      have := h.last x d y hxy hy
      by_cases hd : d.fileId = id
      · rw [if_pos hd, ← heq, ← hd]; exact this
      · rw [if_neg hd]; exact this
    | some k =>
      rw [hk] at hch
      simp only at hch
      rw [hch] at hxy
      have hkd : k = .delete ↔ c = none := by
        generalize s.vfs.fileContents id = old at hk
        unfold changeOf at hk
        split at hk
        · cases hk
        · rename_i hne
          cases old <;> cases c <;> simp_all <;> subst hk <;> simp
      rcases List.eq_nil_or_concat y with rfl | ⟨y', e, rfl⟩
      · obtain ⟨-, h2⟩ := List.append_inj' hxy rfl
        simp only [List.cons.injEq, and_true] at h2
        subst h2
        simp only [if_pos]
        exact hkd
      · rw [List.concat_eq_append] at hxy hy
        rw [show x ++ d :: (y' ++ [e]) = (x ++ d :: y') ++ [e] by simp] at hxy
        obtain ⟨h1, h2⟩ := List.append_inj' hxy rfl
        simp only [List.cons.injEq, and_true] at h2
        subst h2
        have hne : d.fileId ≠ id := fun he => hy ⟨id, k⟩ (by simp) he.symm
        rw [if_neg hne]
        exact h.last x d y' h1 (fun z hz => hy z (by simp [hz]))

theorem collectChanges_some {vfs : Vfs} : ∀ {l : List ChangedFile} {change},
    collectChanges vfs l = some change →
    change = l.map (fun f => (f.fileId,
      if f.kind ≠ .delete then (vfs.fileContents f.fileId).bind Bytes.toText else none)) ∧
    ∀ f ∈ l, f.kind ≠ .delete → vfs.fileContents f.fileId ≠ none := by
  intro l
  induction l with
  | nil => intro change h; simp [collectChanges] at h; subst h; simp
  | cons f l ih =>
    intro change h
    unfold collectChanges at h
    cases hl : collectChanges vfs l with
    | none =>
      rw [hl] at h
      simp only at h
      split at h
      · rename_i heq; cases heq
      · cases h
    | some rest =>
      obtain ⟨h1, h2⟩ := ih hl
      rw [hl] at h
      by_cases hk : f.kind = .delete
      · simp only [hk, ne_eq, not_true_eq_false, if_false, Option.some.injEq] at h
        subst h
        refine ⟨by simp [h1, hk], ?_⟩
        intro g hg hgk
        rcases List.mem_cons.1 hg with rfl | hg
        · exact absurd hk hgk
        · exact h2 g hg hgk
      · simp only [ne_eq, hk, not_false_eq_true, if_true] at h
        cases hc : vfs.fileContents f.fileId with
        | none => rw [hc] at h; simp at h
        | some b =>
          rw [hc] at h
          simp only [Option.map_some, Option.some.injEq] at h
          subst h
          refine ⟨by simp [h1, hk, hc], ?_⟩
          intro g hg hgk
          rcases List.mem_cons.1 hg with rfl | hg
          · simp [hc]
          · exact h2 g hg hgk

theorem collectChanges_total {vfs : Vfs} : ∀ {l : List ChangedFile},
    (∀ f ∈ l, f.kind ≠ .delete → vfs.fileContents f.fileId ≠ none) → ∃ change, collectChanges vfs l = some change := by
  intro l
  induction l with
  | nil => intro _; exact ⟨[], rfl⟩
  | cons f l ih =>
    intro h
    obtain ⟨rest, hr⟩ := ih fun g hg => h g (by simp [hg])
    unfold collectChanges
    rw [hr]
    by_cases hk : f.kind = .delete
    · simp [hk]
    · cases hc : vfs.fileContents f.fileId with
      | none => exact absurd hc (h f (by simp) hk)
      | some b => simp [hk]

theorem applyToDb_none (change : List (Nat × Option Text)) (db : Nat → Option Text) (id : Nat)
    (h : ∀ c ∈ change, c.1 ≠ id) : applyToDb db change id = db id := by
  induction change generalizing db with
  | nil => rfl
  | cons c cs ih =>
    show applyToDb _ cs id = _
    rw [ih _ fun d hd => h d (by simp [hd])]
    exact if_neg (fun e => h c (by simp) e.symm)

theorem applyToDb_last (a b : List (Nat × Option Text)) (c : Nat × Option Text) (db : Nat → Option Text)
    (h : ∀ d ∈ b, d.1 ≠ c.1) : applyToDb db (a ++ c :: b) c.1 = some (c.2.getD []) := by
  unfold applyToDb
  rw [List.foldl_append]
  show applyToDb _ b c.1 = _
  rw [applyToDb_none b _ c.1 h]; exact if_pos rfl

/-- The last occurrence in a list of an element with a property. -/
theorem exists_last {α : Type} (P : α → Prop) [DecidablePred P] : ∀ l : List α, (∃ x ∈ l, P x) →
    ∃ a x b, l = a ++ x :: b ∧ P x ∧ ∀ y ∈ b, ¬ P y := by
  intro l
  induction l with
  | nil => rintro ⟨x, hx, -⟩; cases hx
  | cons y l ih =>
    intro h
    by_cases hl : ∃ x ∈ l, P x
    · obtain ⟨a, x, b, h1, h2, h3⟩ := ih hl
      exact ⟨y :: a, x, b, by simp [h1], h2, h3⟩
    · obtain ⟨x, hx, hp⟩ := h
      rcases List.mem_cons.1 hx with rfl | hx
      · exact ⟨[], x, l, rfl, hp, fun z hz hpz => hl ⟨z, hz, hpz⟩⟩
      · exact absurd ⟨x, hx, hp⟩ hl

theorem processChanges_eq (s : Server) : processChanges s =
    if s.vfs.changes = [] then some ({ s with vfs := { s.vfs with changes := [] } }, false)
    else match collectChanges { s.vfs with changes := [] } s.vfs.changes with
      | none => none
      | some change =>
        some ({ s with vfs := { s.vfs with changes := [] }, fileText := applyToDb s.fileText change }, true) := by
  rcases s with ⟨_, _, _, _, _, _, _, _, ⟨p, d, ch⟩, _, _, _, _⟩
  cases ch <;> rfl

/-- `process_changes`, exactly. -/
theorem processChanges_spec {s : Server} (h : Mid s) {s' : Server} {b : Bool}
    (hp : processChanges s = some (s', b)) :
    b = !s.vfs.changes.isEmpty ∧ ¬ BadChange s.vfs ∧
    (∃ db, s' = { s with vfs := { s.vfs with changes := [] }, fileText := db }) ∧ (∀ id, SyncAt s' id) := by
  rw [processChanges_eq] at hp
  by_cases he : s.vfs.changes = []
  · rw [if_pos he] at hp
    simp only [Option.some.injEq, Prod.mk.injEq] at hp
    obtain ⟨rfl, rfl⟩ := hp
    have he' := he
    refine ⟨by simp [he], ?_, ⟨s.fileText, rfl⟩, ?_⟩
    · rintro ⟨c, hc, -⟩; rw [he'] at hc; cases hc
    · intro id; exact h.sync id (by rw [he']; simp)
  · rw [if_neg he] at hp
    cases hc : collectChanges { s.vfs with changes := [] } s.vfs.changes with
    | none => rw [hc] at hp; cases hp
    | some change =>
      rw [hc] at hp
      simp only [Option.some.injEq, Prod.mk.injEq] at hp
      obtain ⟨rfl, rfl⟩ := hp
      obtain ⟨h1, h2⟩ := collectChanges_some hc
      have hfc : ∀ j, ({ s.vfs with changes := [] } : Vfs).fileContents j = s.vfs.fileContents j := fun _ => rfl
      refine ⟨by cases hx : s.vfs.changes <;> simp_all, ?_, ⟨_, rfl⟩, ?_⟩
      · rintro ⟨c, hc, hk, hn⟩
        exact h2 c hc hk hn
      · intro id
        unfold SyncAt
        simp only [hfc]
        by_cases hid : ∃ c ∈ s.vfs.changes, c.fileId = id
        · obtain ⟨x, c, y, hxy, rfl, hy⟩ := exists_last (fun c : ChangedFile => c.fileId = id) _ hid
          have hlast := h.last x c y hxy hy
          have hdb : applyToDb s.fileText change c.fileId =
              some ((if c.kind ≠ .delete then (s.vfs.fileContents c.fileId).bind Bytes.toText else none).getD []) := by
            rw [h1, hxy, List.map_append, List.map_cons]
            refine applyToDb_last _ _ (_, _) _ ?_
            intro d hd
            obtain ⟨z, hz, rfl⟩ := List.mem_map.1 hd
            exact hy z hz
          rw [hdb]
          cases hcc : s.vfs.fileContents c.fileId with
          | none => rw [hcc] at hlast; simp [hlast]
          | some b =>
            have : c.kind ≠ .delete := fun e => by rw [hlast.1 e] at hcc; cases hcc
            simp [this]
        · have hdb : applyToDb s.fileText change id = s.fileText id := by
            refine applyToDb_none _ _ _ ?_
            intro d hd e
            rw [h1] at hd
            obtain ⟨z, hz, rfl⟩ := List.mem_map.1 hd
            exact hid ⟨z, hz, e⟩
          rw [hdb]
          exact h.sync id fun c hc e => hid ⟨c, hc, e⟩

theorem processChanges_total {s : Server} (h : ¬ BadChange s.vfs) : ∃ r, processChanges s = some r := by
  rw [processChanges_eq]
  split
  · exact ⟨_, rfl⟩
  · obtain ⟨change, hc⟩ := collectChanges_total (vfs := { s.vfs with changes := [] }) (l := s.vfs.changes) (by
      intro f hf hk hn
      exact h ⟨f, hf, hk, hn⟩)
    rw [hc]
    exact ⟨_, rfl⟩

theorem processChanges_panics {s : Server} (h : BadChange s.vfs) : processChanges s = none := by
  obtain ⟨c, hc, hk, hn⟩ := h
  rw [processChanges_eq]
  rw [if_neg (by intro e; rw [e] at hc; cases hc)]
  cases hcc : collectChanges { s.vfs with changes := [] } s.vfs.changes with
  | none => rfl
  | some change => exact absurd hn ((collectChanges_some hcc).2 c hc hk)

end Server
end Verif
