import Verif.Spec.LuaFiles
import Verif.Spec.Client
import Verif.Props.Paths

/-
C50: the file loader reports progress and files faithfully.
-/
namespace Verif
namespace Loader
open Spec PathSpec Paths

private theorem push_abs {p : Text} (h : Paths.isAbsolute p = true) {n : Text} (_hn : IsName n) :
    Paths.isAbsolute (push p n) = true := by
  obtain ⟨r, h1, h2, _⟩ := C61_join h n
  unfold absJoin absAssert at h1
  split at h1
  · assumption
  · simp at h1

private theorem name_rel {n : Text} (hn : IsName n) : Paths.isAbsolute n = false := by
  cases n with
  | nil => rfl
  | cons c cs =>
    have := hn.2.2.2
    simp only [List.mem_cons, not_or] at this
    simp [Paths.isAbsolute]; exact fun e => this.1 e.symm

/-- extending an absolute path adds a segment at the end -/
private theorem push_segments {p : Text} (h : Paths.isAbsolute p = true) {n : Text} (hn : IsName n) :
    (segments (push p n)).filter (· ≠ []) = (segments p).filter (· ≠ []) ++ [n] ∧
    (segments (push p n)).getLast? = some n := by
  have hseg : segments n = [n] := by
    rw [segments_splitFront, splitFront_none hn.2.2.2]
  have hne : p ≠ [] := by obtain ⟨q, rfl⟩ := abs_cons h; simp
  unfold push
  rw [name_rel hn]
  simp only [Bool.false_eq_true, if_false]
  split
  · rw [segments_append, hseg]; simp [hn.1]
  · rename_i hc
    have hl : p.getLast? = some '/' := by
      apply Classical.byContradiction
      intro e
      exact hc ⟨hne, e⟩
    obtain ⟨ys, rfl⟩ := List.getLast?_eq_some_iff.1 hl
    have h0 : segments (ys ++ ['/']) = segments ys ++ [[]] := by
      have := segments_append ys []
      simpa [segments] using this
    have h1 : ys ++ ['/'] ++ n = ys ++ '/' :: n := by simp
    rw [h0, h1, segments_append, hseg]
    simp [hn.1]

private theorem push_fileName {p : Text} (h : Paths.isAbsolute p = true) {n : Text} (hn : IsName n) :
    fileName (push p n) = some n := by
  have habs := push_abs h hn
  obtain ⟨q, hq⟩ := abs_cons habs
  have h2 := (push_segments h hn).2
  unfold fileName components
  rw [if_pos habs, bodyComponents_eq]
  rw [hq] at h2 ⊢
  have h3 : (segments ('/' :: q)) = [] :: segments q := by simp [segments]
  rw [h3] at h2
  simp only [List.drop_one, List.tail_cons]
  obtain ⟨ys, hys⟩ := List.getLast?_eq_some_iff.1 h2
  cases ys with
  | nil => simp at hys; exact absurd hys.2 (segments_ne q)
  | cons y ys =>
    have : segments q = ys ++ [n] := by simpa using (List.cons.inj hys).2
    rw [this]
    simp [parseSingle_name hn, List.getLast?_cons]

private theorem extend_abs : ∀ (names : List Text) (root : Text), Paths.isAbsolute root = true →
    (∀ n ∈ names, IsName n) → Paths.isAbsolute (extend root names) = true := by
  intro names
  induction names with
  | nil => intro root h _; exact h
  | cons n ns ih =>
    intro root h hn
    exact ih (push root n) (push_abs h (hn n (by simp))) (fun m hm => hn m (by simp [hm]))

private theorem extend_segments : ∀ (names : List Text) (root : Text), Paths.isAbsolute root = true →
    (∀ n ∈ names, IsName n) →
    (segments (extend root names)).filter (· ≠ []) = (segments root).filter (· ≠ []) ++ names := by
  intro names
  induction names with
  | nil => intro root h _; simp [extend]
  | cons n ns ih =>
    intro root h hn
    have := ih (push root n) (push_abs h (hn n (by simp))) (fun m hm => hn m (by simp [hm]))
    rw [(push_segments h (hn n (by simp))).1] at this
    simpa [extend] using this

/-- The names on the way to a node are proper names. -/
private theorem leads_names {d n names} (hl : Leads d names n) (hw : WellFormed d) : ∀ m ∈ names, IsName m := by
  induction hl with
  | here => simp
  | down he _ ih =>
    cases hw with
    | dir _ _ h2 h3 =>
      intro m hm
      rcases List.mem_cons.1 hm with rfl | hm
      · exact h2 _ he
      · exact ih (h3 _ he) m hm

mutual
private theorem mem_walk : ∀ (node : Node) (path p : Text) (n : Node),
    (p, n) ∈ walk path node ↔ ∃ names, Leads node names n ∧ n ≠ .error ∧ p = extend path names
  | .error, path, p, n => by
    simp only [walk, List.not_mem_nil, false_iff]
    rintro ⟨names, hl, hne, _⟩
    cases hl
    exact hne rfl
  | .special, path, p, n => by
    simp only [walk, List.mem_singleton, Prod.mk.injEq]
    constructor
    · rintro ⟨rfl, rfl⟩; exact ⟨[], .here _, by simp, rfl⟩
    · rintro ⟨names, hl, _, rfl⟩; cases hl; exact ⟨rfl, rfl⟩
  | .file c, path, p, n => by
    simp only [walk, List.mem_singleton, Prod.mk.injEq]
    constructor
    · rintro ⟨rfl, rfl⟩; exact ⟨[], .here _, by simp, rfl⟩
    · rintro ⟨names, hl, _, rfl⟩; cases hl; exact ⟨rfl, rfl⟩
  | .dir entries, path, p, n => by
    simp only [walk, List.mem_cons, Prod.mk.injEq, mem_walkL entries path p n]
    constructor
    · rintro (⟨rfl, rfl⟩ | ⟨name, child, names, he, hl, hne, rfl⟩)
      · exact ⟨[], .here _, by simp, rfl⟩
      · exact ⟨name :: names, .down he hl, hne, rfl⟩
    · rintro ⟨names, hl, hne, rfl⟩
      cases hl with
      | here => exact .inl ⟨rfl, rfl⟩
      | down he hl => exact .inr ⟨_, _, _, he, hl, hne, rfl⟩
private theorem mem_walkL : ∀ (entries : List (Text × Node)) (path p : Text) (n : Node),
    (p, n) ∈ walkL path entries ↔ ∃ name child names, (name, child) ∈ entries ∧ Leads child names n ∧ n ≠ .error ∧
      p = extend path (name :: names)
  | [], path, p, n => by simp [walkL]
  | (name, child) :: entries, path, p, n => by
    simp only [walkL, List.mem_append, mem_walk child (push path name) p n, mem_walkL entries path p n]
    constructor
    · rintro (⟨names, hl, hne, rfl⟩ | ⟨name', child', names, he, hl, hne, rfl⟩)
      · exact ⟨name, child, names, by simp, hl, hne, rfl⟩
      · exact ⟨name', child', names, by simp [he], hl, hne, rfl⟩
    · rintro ⟨name', child', names, he, hl, hne, rfl⟩
      rcases List.mem_cons.1 he with e | he
      · cases e; exact .inl ⟨names, hl, hne, rfl⟩
      · exact .inr ⟨name', child', names, he, hl, hne, rfl⟩
end

/-- every path is walked once -/
private theorem walk_nodup {d : Node} (hw : WellFormed d) : ∀ path, Paths.isAbsolute path = true →
    ((walk path d).map (·.1)).Nodup := by
  induction hw with
  | file c => intro path _; simp [walk]
  | special => intro path _; simp [walk]
  | error => intro path _; simp [walk]
  | dir entries h1 h2 h3 ih =>
    intro path habs
    simp only [walk, List.map_cons]
    have filt : ∀ (es : List (Text × Node)), (∀ e ∈ es, e ∈ entries) → ∀ p ∈ (walkL path es).map (·.1),
        ∃ name names, name ∈ es.map (·.1) ∧
          (segments p).filter (· ≠ []) = (segments path).filter (· ≠ []) ++ name :: names := by
      intro es hes p hp
      obtain ⟨⟨p', n⟩, hmem, rfl⟩ := List.mem_map.1 hp
      obtain ⟨name, child, names, he, hl, _, rfl⟩ := (mem_walkL es path p' n).1 hmem
      refine ⟨name, names, List.mem_map.2 ⟨_, he, rfl⟩, ?_⟩
      refine extend_segments (name :: names) path habs ?_
      intro m hm
      rcases List.mem_cons.1 hm with rfl | hm
      · exact h2 _ (hes _ he)
      · exact leads_names hl (h3 _ (hes _ he)) m hm
    refine List.nodup_cons.2 ⟨?_, ?_⟩
    · intro hp
      obtain ⟨name, names, _, e⟩ := filt entries (fun e he => he) path hp
      have := congrArg List.length e
      simp at this
    · suffices H : ∀ es : List (Text × Node), (∀ e ∈ es, e ∈ entries) → (es.map (·.1)).Nodup →
          ((walkL path es).map (·.1)).Nodup from H entries (fun e he => he) h1
      intro es
      induction es with
      | nil => intro _ _; simp [walkL]
      | cons e es ihe =>
        obtain ⟨name, child⟩ := e
        intro hes hnd
        simp only [List.map_cons, List.nodup_cons] at hnd
        simp only [walkL, List.map_append]
        have hname := h2 _ (hes (name, child) (by simp))
        refine List.nodup_append.2 ⟨ih _ (hes (name, child) (by simp)) _ (push_abs habs hname),
          ihe (fun x hx => hes x (by simp [hx])) hnd.2, ?_⟩
        intro a ha b hb hab
        subst hab
        obtain ⟨name', names', hmem', e'⟩ := filt es (fun x hx => hes x (by simp [hx])) a hb
        obtain ⟨name'', names'', hmem'', e''⟩ := filt [(name, child)] (fun x hx => hes x (by simp at hx; simp [hx])) a
          (by simpa [walkL] using ha)
        rw [e'] at e''
        have := List.append_cancel_left e''
        simp only [List.cons.injEq] at this
        simp only [List.map_cons, List.map_nil, List.mem_singleton] at hmem''
        exact hnd.1 (by rw [← hmem'', ← this.1]; exact hmem')

private theorem extension_lua {p name : Text} (h : fileName p = some name) :
    extension p = some "lua".toList ↔ LuaName name := by
  unfold extension
  rw [h]
  simp only
  generalize hn : name.reverse = r
  have hname : name = r.reverse := by rw [← hn]; simp
  have hr := List.takeWhile_append_dropWhile (p := (· ≠ '.')) (l := r)
  have hlen : name.length = r.length := by rw [hname]; simp
  constructor
  · intro he
    split at he
    · simp at he
    · rename_i hc
      simp only [not_or] at hc
      simp only [Option.some.injEq] at he
      have ha : r.takeWhile (fun x => decide (x ≠ '.')) = "lua".toList.reverse := by rw [← he]; simp
      cases hd : r.dropWhile (fun x => decide (x ≠ '.')) with
      | nil =>
        rw [hd, List.append_nil] at hr
        exact absurd (by rw [hr, hlen]) hc.1
      | cons c cs =>
        have hc' : c = '.' := by
          have := List.head?_dropWhile_not (p := fun x => decide (x ≠ '.')) (l := r)
          rw [hd] at this
          simpa using this
        subst hc'
        rw [hd] at hc hr
        refine ⟨cs.reverse, by simpa using hc.2, ?_⟩
        rw [hname, ← hr, ha]
        simp
  · rintro ⟨stem, hs, rfl⟩
    have : r = "lua".toList.reverse ++ '.' :: stem.reverse := by
      rw [← hn]; simp
    have h1 : r.takeWhile (fun x => decide (x ≠ '.')) = "lua".toList.reverse := by
      rw [this]; rfl
    have h2 : r.dropWhile (fun x => decide (x ≠ '.')) = '.' :: stem.reverse := by
      rw [this]; rfl
    rw [h1, h2]
    rw [if_neg]
    · simp
    · simp [hs]

private theorem walk_abs {root : Text} (h : Paths.isAbsolute root = true) {disk : Node} (hw : WellFormed disk) :
    ∀ e ∈ walk root disk, Paths.isAbsolute e.1 = true := by
  rintro ⟨p, n⟩ he
  obtain ⟨names, hl, _, rfl⟩ := (mem_walk disk root p n).1 he
  exact extend_abs names root h (leads_names hl hw)

/-- what `loadOne` gives for a path that is absolute -/
private def one (e : Text × Node) : Option (AbsPath × Option Bytes) :=
  match e.2 with
  | .file contents => if (extension e.1).getD [] ≠ "lua".toList then none else some (String.ofList e.1, contents)
  | _ => none

private theorem loadOne_abs {e : Text × Node} (h : Paths.isAbsolute e.1 = true) : loadOne e.1 e.2 = some (one e) := by
  unfold loadOne one absAssert
  rw [if_pos h]
  rcases e with ⟨p, n⟩
  cases n <;> simp
  split <;> rfl

private theorem mapM_one : ∀ es : List (Text × Node), (∀ e ∈ es, Paths.isAbsolute e.1 = true) →
    (es.mapM fun e => loadOne e.1 e.2) = some (es.map one) := by
  intro es
  induction es with
  | nil => intro _; rfl
  | cons e es ih =>
    intro h
    rw [List.mapM_cons, loadOne_abs (h e (by simp)), ih (fun x hx => h x (by simp [hx]))]
    rfl

private theorem loadEntry_eq {root : Text} (h : Paths.isAbsolute root = true) {disk : Node} (hw : WellFormed disk) :
    loadEntry root disk = some ((walk root disk).filterMap one) := by
  unfold loadEntry
  rw [mapM_one _ (walk_abs h hw)]
  simp [List.filterMap_map]

/-- **C50** Loading a directory yields exactly the Lua files below it, each once and with its contents (nothing if it
cannot be read), and does not panic. -/
theorem C50_files {root : Text} (h : Paths.isAbsolute root = true) {entries : List (Text × Node)}
    (hw : WellFormed (.dir entries)) :
    ∃ files, loadEntry root (.dir entries) = some files ∧ (files.map (·.1)).Nodup ∧
      ∀ p c, (p, c) ∈ files ↔ ∃ names name, Leads (.dir entries) (names ++ [name]) (.file c) ∧ LuaName name ∧
        p = String.ofList (extend root (names ++ [name])) := by
  refine ⟨_, loadEntry_eq h hw, ?_, ?_⟩
  · have hnd := walk_nodup hw root h
    generalize walk root (.dir entries) = es at hnd
    induction es with
    | nil => simp
    | cons e es ih =>
      simp only [List.map_cons, List.nodup_cons] at hnd
      rw [List.filterMap_cons]
      cases ho : one e with
      | none => exact ih hnd.2
      | some f =>
        simp only [List.map_cons, List.nodup_cons]
        refine ⟨?_, ih hnd.2⟩
        intro hf
        obtain ⟨f', hf', e'⟩ := List.mem_map.1 hf
        obtain ⟨x, hx, hox⟩ := List.mem_filterMap.1 hf'
        have key : ∀ (x : Text × Node) f, one x = some f → f.1 = String.ofList x.1 := by
          intro x f hx
          unfold one at hx
          split at hx
          · split at hx
            · simp at hx
            · simp at hx; rw [← hx]
          · simp at hx
        rw [key e f ho, key x f' hox] at e'
        have e2 : x.1 = e.1 := by simpa using congrArg String.toList e'
        exact hnd.1 (by rw [← e2]; exact List.mem_map.2 ⟨x, hx, rfl⟩)
  · intro p c
    rw [List.mem_filterMap]
    constructor
    · rintro ⟨⟨q, n⟩, hmem, ho⟩
      obtain ⟨names, hl, _, rfl⟩ := (mem_walk _ root q n).1 hmem
      unfold one at ho
      cases n with
      | file c' =>
        simp only at ho
        split at ho
        · simp at ho
        · rename_i hext
          simp only [Option.some.injEq, Prod.mk.injEq] at ho
          obtain ⟨rfl, rfl⟩ := ho
          rcases List.eq_nil_or_concat names with rfl | ⟨ns, nm, rfl⟩
          · cases hl
          · rw [List.concat_eq_append] at hl hext ⊢
            refine ⟨ns, nm, hl, ?_, rfl⟩
            have hns := leads_names hl hw
            have hf : fileName (extend root (ns ++ [nm])) = some nm := by
              unfold extend
              rw [List.foldl_append]
              exact push_fileName (extend_abs ns root h (fun m hm => hns m (by simp [hm]))) (hns nm (by simp))
            rw [← extension_lua hf]
            cases he : extension (extend root (ns ++ [nm])) with
            | none => rw [he] at hext; simp at hext
            | some x => rw [he] at hext; simpa using hext
      | dir _ => simp at ho
      | special => simp at ho
      | error => simp at ho
    · rintro ⟨ns, nm, hl, hlua, rfl⟩
      refine ⟨(extend root (ns ++ [nm]), .file c), (mem_walk _ root _ _).2 ⟨_, hl, by simp, rfl⟩, ?_⟩
      have hns := leads_names hl hw
      have hf : fileName (extend root (ns ++ [nm])) = some nm := by
        unfold extend
        rw [List.foldl_append]
        exact push_fileName (extend_abs ns root h (fun m hm => hns m (by simp [hm]))) (hns nm (by simp))
      unfold one
      simp only
      rw [(extension_lua hf).2 hlua]
      simp

private theorem loadEntries_spec (n v : Nat) : ∀ (load : List (Text × Node)) (i : Nat),
    (∀ e ∈ load, Paths.isAbsolute e.1 = true ∧ WellFormed e.2) →
    ∃ msgs, loadEntries n v i load = some msgs ∧ msgs.length = 2 * load.length ∧
      ∀ (k : Nat) (e : Text × Node), load[k]? = some e → ∃ files, loadEntry e.1 e.2 = some files ∧
        msgs[2 * k]? = some (.loaded files) ∧ msgs[2 * k + 1]? = some (.progress n (i + k + 1) v) := by
  intro load
  induction load with
  | nil => intro i _; exact ⟨[], rfl, rfl, by simp⟩
  | cons e load ih =>
    intro i h
    obtain ⟨msgs, h1, h2, h3⟩ := ih (i + 1) (fun x hx => h x (by simp [hx]))
    obtain ⟨ha, hw⟩ := h e (by simp)
    have he := loadEntry_eq ha hw
    rcases e with ⟨root, disk⟩
    simp only at he
    refine ⟨.loaded ((walk root disk).filterMap one) :: .progress n (i + 1) v :: msgs, ?_, ?_, ?_⟩
    · simp only [loadEntries, he, h1]
    · simp [h2]; omega
    · intro k e' hk
      cases k with
      | zero =>
        simp at hk
        subst hk
        exact ⟨_, he, by simp, by simp⟩
      | succ k =>
        simp at hk
        obtain ⟨files, f1, f2, f3⟩ := h3 k e' hk
        refine ⟨files, f1, ?_, ?_⟩
        · rw [show 2 * (k + 1) = 2 * k + 2 by omega]; simpa using f2
        · rw [show 2 * (k + 1) + 1 = (2 * k + 1) + 2 by omega]
          simp only [List.getElem?_cons_succ]
          rw [f3]; congr 2; omega

/-- **C50** For a configuration with `n` entries the loader sends `2 n + 1` messages: that nothing is done yet, then for
every entry its files followed by how many entries are done, always out of `n` and for the version of the
configuration. -/
theorem C50_progress (version : Nat) (load : List (Text × Node))
    (h : ∀ e ∈ load, Paths.isAbsolute e.1 = true ∧ WellFormed e.2) :
    ∃ msgs, handle (.config version load) = some msgs ∧ msgs.length = 2 * load.length + 1 ∧
      msgs[0]? = some (.progress load.length 0 version) ∧
      ∀ (k : Nat) (e : Text × Node), load[k]? = some e → ∃ files, loadEntry e.1 e.2 = some files ∧
        msgs[2 * k + 1]? = some (.loaded files) ∧
        msgs[2 * k + 2]? = some (.progress load.length (k + 1) version) := by
  obtain ⟨msgs, h1, h2, h3⟩ := loadEntries_spec load.length version load 0 h
  refine ⟨.progress load.length 0 version :: msgs, by simp [handle, h1], by simp [h2], rfl, ?_⟩
  intro k e hk
  obtain ⟨files, f1, f2, f3⟩ := h3 k e hk
  exact ⟨files, f1, by simpa using f2, by simpa using f3⟩

/-- **C50** The loader handles any sequence of configurations and invalidations of absolute paths without
panicking, one after the other: the messages for an earlier one come before those for a later one. -/
theorem C50_run (inbox : List Message) (h : ∀ m ∈ inbox, match m with
      | .config _ load => ∀ e ∈ load, Paths.isAbsolute e.1 = true ∧ WellFormed e.2
      | .invalidate path _ => Paths.isAbsolute path = true) :
    ∃ answers : List (List LoaderMsg), run inbox = some answers.flatten ∧ answers.length = inbox.length ∧
      ∀ (i : Nat) (m : Message), inbox[i]? = some m → ∃ a, answers[i]? = some a ∧ handle m = some a := by
  induction inbox with
  | nil => exact ⟨[], rfl, rfl, by simp⟩
  | cons m inbox ih =>
    obtain ⟨answers, h1, h2, h3⟩ := ih (fun x hx => h x (by simp [hx]))
    have hm : ∃ a, handle m = some a := by
      have := h m (by simp)
      cases m with
      | config v load => obtain ⟨a, ha, _⟩ := C50_progress v load this; exact ⟨a, ha⟩
      | invalidate p d => exact ⟨_, rfl⟩
    obtain ⟨a, ha⟩ := hm
    refine ⟨a :: answers, ?_, by simp [h2], ?_⟩
    · unfold run at h1 ⊢
      rw [List.mapM_cons, ha]
      cases hx : inbox.mapM handle with
      | none => rw [hx] at h1; simp at h1
      | some r =>
        rw [hx] at h1
        simp at h1
        simp [h1]
    · intro i x hx
      cases i with
      | zero => simp at hx; subst hx; exact ⟨a, rfl, ha⟩
      | succ i => simpa using h3 i x (by simpa using hx)

/-- **C50** An invalidated file is reported with what can be read of it now. -/
theorem C50_invalidate (path : Text) (contents : Option Bytes) :
    handle (.invalidate path (.file contents)) = some [.loaded [(String.ofList path, contents)]] ∧
    handle (.invalidate path .error) = some [.loaded [(String.ofList path, none)]] := ⟨rfl, rfl⟩

theorem afterWrites_agree {disk : AbsPath → Option Bytes} {p : AbsPath} :
    ∀ (ws : List (AbsPath × Option Bytes)) (f : AbsPath → Option Bytes), (∀ w ∈ ws, w.2 = disk w.1) →
    afterWrites f ws p = if p ∈ ws.map (·.1) then disk p else f p := by
  intro ws
  induction ws with
  | nil => intro f _; simp [afterWrites]
  | cons w ws ih =>
    intro f h
    have := ih (fun _ => if w.1 = p then w.2 else f p) (fun x hx => h x (by simp [hx]))
    unfold afterWrites at this ⊢
    rw [List.foldl_cons, this]
    by_cases e : w.1 = p
    · subst e; simp [h w (by simp)]
    · simp only [List.map_cons, List.mem_cons, Ne.symm e, false_or, e, if_false]

/-- While the disk does not change, what the loader sends is something the server handles (see `C43`): it does not
give a file contents and take them away in one batch. -/
theorem C50_admissible (past : List ServerEvent) (first : LoaderMsg) (rest : List LoaderMsg)
    (disk : AbsPath → Option Bytes) (h : ∀ w ∈ writes (first :: rest), w.2 = disk w.1) :
    Admissible past (.loader first rest) := by
  intro p _ hc
  obtain ⟨before, b, after, hw, _⟩ := hc
  rw [afterWrites_agree _ _ h]
  have hmem : (p, some b) ∈ writes (first :: rest) := by rw [hw]; simp
  rw [if_pos (List.mem_map.2 ⟨_, hmem, rfl⟩)]
  rw [← h _ hmem]
  simp

/-- A directory with a Lua file, a file of another kind, a hidden file without a stem, an unreadable Lua file in
a subdirectory, and something that cannot be accessed. -/
def sampleDisk : Node :=
  .dir [("a.lua".toList, .file (some (.utf8 "x()".toList))), ("b.txt".toList, .file (some (.utf8 []))),
    (".lua".toList, .file (some (.utf8 []))), ("d.lua".toList, .dir [("e.lua".toList, .file none)]),
    ("f.lua".toList, .error)]

example : Paths.isAbsolute "/lib/".toList = true ∧ WellFormed sampleDisk ∧
    loadEntry "/lib/".toList sampleDisk = some [("/lib/a.lua", some (.utf8 "x()".toList)), ("/lib/d.lua/e.lua", none)] := by
  have hw : WellFormed sampleDisk := by
    have key : ∀ n : Text, (n == [] || n == ['.'] || n == ['.', '.'] || n.contains '/') = false → IsName n := by
      intro n hn
      simp only [Bool.or_eq_false_iff, beq_eq_false_iff_ne, List.contains_eq_mem, decide_eq_false_iff_not] at hn
      exact ⟨hn.1.1.1, hn.1.1.2, hn.1.2, hn.2⟩
    refine .dir _ (by decide) ?_ ?_
    · simp only [List.mem_cons, List.not_mem_nil, or_false, forall_eq_or_imp, forall_eq]
      refine ⟨?_, ?_, ?_, ?_, ?_⟩ <;> exact key _ (by decide)
    · simp only [List.mem_cons, List.not_mem_nil, or_false, forall_eq_or_imp, forall_eq]
      refine ⟨.file _, .file _, .file _, .dir _ (by decide) ?_ ?_, .error⟩
      · simp only [List.mem_cons, List.not_mem_nil, or_false, forall_eq]
        exact key _ (by decide)
      · simp only [List.mem_cons, List.not_mem_nil, or_false, forall_eq]
        exact .file _
  refine ⟨by decide, hw, ?_⟩
  rw [loadEntry_eq (by decide) hw]
  decide +kernel

end Loader
end Verif
