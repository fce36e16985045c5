import Verif.Proof.MarkerOps

/-
The events recorded by the marker API describe the forest of `Spec/Markers.lean`.
-/
namespace Verif.Markers
open Spec

/-- What an event says about the forest. -/
inductive Tag where
  | start (m : Nat) (k : SyntaxKind)
  | finish (f : Nat)
  | errStart (m : Nat)
  | other (c : SinkCall)

def Tag.id : Tag → Option Nat
  | .start m _ => some m
  | .finish f => some f
  | .errStart m => some m
  | .other _ => none

def Tag.calls : Tag → List SinkCall
  | .start _ k => if k = .tombstone then [] else [.startNode k]
  | .finish _ => [.finishNode]
  | .errStart _ => [.startErrorNode]
  | .other c => [c]

def tag : Ent → Tag
  | (p, .start k _) => .start p k
  | (p, .finish) => .finish p
  | (p, .startError) => .errStart p
  | (_, .finishError e) => .other (.finishErrorNode e)
  | (_, .token) => .other .token
  | (_, .error e) => .other (.error e)

theorem tag_calls (x : Ent) : (tag x).calls = callOf x.2 := by
  obtain ⟨p, e⟩ := x
  cases e <;> rfl

theorem tag_id {x : Ent} {m : Nat} (h : (tag x).id = some m) : x.1 = m := by
  obtain ⟨p, e⟩ := x
  cases e <;> simp_all [tag, Tag.id]

mutual
/-- The events a piece needs, in order. -/
def flat : Piece → List Tag
  | .tok _ => [.other .token]
  | .err e => [.other (.error e)]
  | .mark m _ => [.start m .tombstone]
  | .errMark m => [.errStart m]
  | .errNode m cs e => .errStart m :: (flatL cs ++ [.other (.finishErrorNode e)])
  | .node m f _ k cs => .start m k :: (flatL cs ++ [.finish f])
def flatL : List Piece → List Tag
  | [] => []
  | p :: ps => flat p ++ flatL ps
end

@[simp] theorem flatL_append (a b : List Piece) : flatL (a ++ b) = flatL a ++ flatL b := by
  induction a with
  | nil => simp [flatL]
  | cons x xs ih => simp [flatL, ih]

mutual
def liveIds : Piece → List Nat
  | .errNode _ cs _ => liveIdsL cs
  | .node m _ l _ cs => (if l then [m] else []) ++ liveIdsL cs
  | _ => []
def liveIdsL : List Piece → List Nat
  | [] => []
  | p :: ps => liveIds p ++ liveIdsL ps
end

@[simp] theorem liveIdsL_append (a b : List Piece) :
    liveIdsL (a ++ b) = liveIdsL a ++ liveIdsL b := by
  induction a with
  | nil => simp [liveIdsL]
  | cons x xs ih => simp [liveIdsL, ih]

mutual
/-- Completed nodes have a real kind and completed children. -/
def ok : Piece → Prop
  | .errNode _ cs _ => closed cs ∧ okL cs
  | .node _ _ _ k cs => k ≠ .tombstone ∧ closed cs ∧ okL cs
  | _ => True
def okL : List Piece → Prop
  | [] => True
  | p :: ps => ok p ∧ okL ps
end

@[simp] theorem okL_append (a b : List Piece) : okL (a ++ b) ↔ okL a ∧ okL b := by
  induction a with
  | nil => simp [okL]
  | cons x xs ih => simp [okL, ih, and_assoc]

theorem closed_append (a b : List Piece) : closed (a ++ b) ↔ closed a ∧ closed b := by
  induction a with
  | nil => simp [closed]
  | cons x xs ih => cases x <;> simp [closed, ih]

mutual
theorem flat_calls : (p : Piece) → ok p → closed [p] →
    (flat p).flatMap Tag.calls = PTree.callsL p.trees
  | .tok _, _, _ => by simp [flat, Tag.calls, Piece.trees, PTree.callsL, PTree.calls]
  | .err _, _, _ => by simp [flat, Tag.calls, Piece.trees, PTree.callsL, PTree.calls]
  | .mark .., _, h => by simp [closed] at h
  | .errMark _, _, h => by simp [closed] at h
  | .errNode m cs e, h, _ => by
    simp only [ok] at h
    simp [flat, Tag.calls, Piece.trees, PTree.callsL, PTree.calls, flatL_calls cs h.2 h.1]
  | .node m f l k cs, h, _ => by
    simp only [ok] at h
    simp [flat, Tag.calls, Piece.trees, PTree.callsL, PTree.calls, flatL_calls cs h.2.2 h.2.1, h.1]
theorem flatL_calls : (ps : List Piece) → okL ps → closed ps →
    (flatL ps).flatMap Tag.calls = PTree.callsL (treesL ps)
  | [], _, _ => by simp [flatL, treesL, PTree.callsL]
  | p :: ps, h, hc => by
    have h1 : closed ([p] ++ ps) := hc
    rw [closed_append] at h1
    simp only [okL] at h
    simp [flatL, treesL, flat_calls p h.1 h1.1, flatL_calls ps h.2 h1.2]
end

/-- The events say `ts`, in that order. -/
structure Tags (evs : List Event) (ts : List Tag) : Prop where
  wf : WF evs
  nodup : ((logical evs).map Prod.fst).Nodup
  rep : ∃ D : List Nat, ((logical evs).filter (fun x => decide (x.1 ∉ D))).map tag = ts ∧
    ∀ d ∈ D, evs[d]? = some Event.tombstone

/-- The events describe the forest. -/
structure Describes (evs : List Event) (f : Forest) : Prop where
  used : f.used = evs.length
  tags : Tags evs (flatL f.pieces)
  live : ∀ m ∈ liveIdsL f.pieces, link evs m = none
  ok : okL f.pieces
  fresh : ∀ m, Piece.mark m true ∈ f.pieces → ¬ Targeted evs m

theorem Describes.process {evs : List Event} {f : Forest} (h : Describes evs f)
    (hc : closed f.pieces) : processEvents evs = .ok (PTree.callsL (treesL f.pieces)) := by
  obtain ⟨D, hr, hD⟩ := h.tags.rep
  rw [process_logical h.tags.wf, ← flatL_calls _ h.ok hc, ← hr]
  congr 1
  have key : ∀ l : List Ent, (∀ x ∈ l, x ∈ logical evs) →
      l.flatMap (fun e => callOf e.2) =
        ((l.filter (fun x => decide (x.1 ∉ D))).map tag).flatMap Tag.calls := by
    intro l
    induction l with
    | nil => intro _; rfl
    | cons x xs ih =>
      intro hm
      rw [List.flatMap_cons, ih (fun y hy => hm y (by simp [hy]))]
      by_cases hx : x.1 ∈ D
      · have h1 := hD _ hx
        obtain ⟨p, e⟩ := x
        have : callOf e = [] := by
          rcases mem_logical h.tags.wf (hm _ List.mem_cons_self) with ⟨hs, h2⟩ | ⟨k, fp, rfl, h2⟩
          · rw [h1] at h2; cases h2; simp [isStart, Event.tombstone] at hs
          · rw [h1] at h2; cases h2; simp [callOf]
        simp [hx, this]
      · simp [hx, tag_calls]
  exact key _ (fun _ h => h)

section
variable {evs : List Event} {ts : List Tag}

theorem Tags.mem (h : Tags evs ts) {t : Tag} (ht : t ∈ ts) :
    ∃ x ∈ logical evs, tag x = t := by
  obtain ⟨D, hr, _⟩ := h.rep
  rw [← hr] at ht
  simp only [List.mem_map, List.mem_filter] at ht
  obtain ⟨x, hx, rfl⟩ := ht
  exact ⟨x, hx.1, rfl⟩

theorem Tags.start_at (h : Tags evs ts) {m : Nat} {k : SyntaxKind}
    (ht : Tag.start m k ∈ ts) : ∃ fp, evs[m]? = some (.start k fp) := by
  obtain ⟨⟨p, e⟩, hx, hxt⟩ := h.mem ht
  rcases mem_logical h.wf hx with ⟨hs, h2⟩ | ⟨k', fp, rfl, h2⟩
  · cases e <;> simp_all [tag, isStart]
  · simp [tag] at hxt
    obtain ⟨rfl, rfl⟩ := hxt
    exact ⟨fp, h2⟩

theorem Tags.finish_at (h : Tags evs ts) {m : Nat}
    (ht : Tag.finish m ∈ ts) : evs[m]? = some .finish := by
  obtain ⟨⟨p, e⟩, hx, hxt⟩ := h.mem ht
  rcases mem_logical h.wf hx with ⟨hs, h2⟩ | ⟨k', fp, rfl, h2⟩
  · cases e <;> simp_all [tag, isStart]
  · simp [tag] at hxt

theorem Tags.err_at (h : Tags evs ts) {m : Nat}
    (ht : Tag.errStart m ∈ ts) : evs[m]? = some .startError := by
  obtain ⟨⟨p, e⟩, hx, hxt⟩ := h.mem ht
  rcases mem_logical h.wf hx with ⟨hs, h2⟩ | ⟨k', fp, rfl, h2⟩
  · cases e <;> simp_all [tag, isStart]
  · simp [tag] at hxt

/-- No two events of the forest have the same index. -/
theorem Tags.ids (h : Tags evs ts) : ((ts).filterMap Tag.id).Nodup := by
  obtain ⟨D, hr, _⟩ := h.rep
  rw [← hr, List.filterMap_map]
  have key : ∀ l : List Ent, (l.filterMap (Tag.id ∘ tag)).Sublist (l.map Prod.fst) := by
    intro l
    induction l with
    | nil => simp
    | cons x xs ih =>
      cases e : (tag x).id with
      | none =>
        have : (Tag.id ∘ tag) x = none := e
        rw [List.filterMap_cons_none this, List.map_cons]
        exact ih.cons _
      | some m =>
        have h1 : (Tag.id ∘ tag) x = some m := e
        rw [List.filterMap_cons_some h1, List.map_cons, tag_id e]
        exact ih.cons_cons _
  refine List.Nodup.sublist (key _) ?_
  exact List.Nodup.sublist (List.filter_sublist.map _) h.nodup

theorem unique_id {A B : List Tag} {t : Tag} {m : Nat} (ht : t.id = some m)
    (h : ((A ++ t :: B).filterMap Tag.id).Nodup) :
    (∀ x ∈ A, x.id ≠ some m) ∧ ∀ x ∈ B, x.id ≠ some m := by
  rw [List.filterMap_append, List.filterMap_cons_some ht, List.nodup_append] at h
  obtain ⟨_, h2, h3⟩ := h
  rw [List.nodup_cons] at h2
  constructor
  · intro x hx e
    exact h3 m (List.mem_filterMap.2 ⟨x, hx, e⟩) m (by simp) rfl
  · intro x hx e
    exact h2.1 (List.mem_filterMap.2 ⟨x, hx, e⟩)

end

/-! ### The changes, on tags -/

def setTag (m : Nat) (k : SyntaxKind) : Tag → Tag
  | .start p k0 => if p = m then .start m k else .start p k0
  | t => t

theorem setTag_of_ne {m : Nat} {k : SyntaxKind} {t : Tag} (h : t.id ≠ some m) : setTag m k t = t := by
  cases t with
  | start p k0 =>
    have : p ≠ m := by simpa [Tag.id] using h
    simp [setTag, this]
  | _ => rfl

theorem map_setTag {m : Nat} {k : SyntaxKind} {l : List Tag} (h : ∀ x ∈ l, x.id ≠ some m) :
    l.map (setTag m k) = l := by
  conv => rhs; rw [← List.map_id l]
  apply List.map_congr_left
  intro x hx
  rw [setTag_of_ne (h x hx)]; rfl

def insertTag (c n : Nat) (t : Tag) : List Tag :=
  match t with
  | .start p k => if p = c then [.start n .tombstone, .start p k] else [.start p k]
  | t => [t]

theorem insertTag_of_ne {c n : Nat} {t : Tag} (h : t.id ≠ some c) : insertTag c n t = [t] := by
  cases t with
  | start p k0 =>
    have : p ≠ c := by simpa [Tag.id] using h
    simp [insertTag, this]
  | _ => rfl

theorem flatMap_insertTag {c n : Nat} {l : List Tag} (h : ∀ x ∈ l, x.id ≠ some c) :
    l.flatMap (insertTag c n) = l := by
  induction l with
  | nil => rfl
  | cons x xs ih =>
    rw [List.flatMap_cons, insertTag_of_ne (h x (by simp)), ih (fun y hy => h y (by simp [hy]))]
    rfl

theorem filter_id {m : Nat} {l : List Tag} (h : ∀ x ∈ l, x.id ≠ some m) :
    l.filter (fun t => decide (t.id ≠ some m)) = l := by
  rw [List.filter_eq_self]
  intro x hx
  simpa using h x hx

theorem setKind_fst (m : Nat) (k : SyntaxKind) (x : Ent) : (setKind m k x).1 = x.1 := by
  unfold setKind; split
  · rename_i h; exact h.symm
  · rfl

theorem filter_setKind (D : List Nat) (m : Nat) (k : SyntaxKind) (l : List Ent) :
    (l.map (setKind m k)).filter (fun x => decide (x.1 ∉ D)) =
      (l.filter (fun x => decide (x.1 ∉ D))).map (setKind m k) := by
  rw [List.filter_map]
  congr 1
  apply List.filter_congr
  intro x _
  simp [setKind_fst]

theorem tag_setKind {m : Nat} {k : SyntaxKind} {x : Ent} (h : x.1 = m → ∃ k, tag x = .start m k) :
    tag (setKind m k x) = setTag m k (tag x) := by
  unfold setKind
  split
  · rename_i hx
    obtain ⟨k', hk⟩ := h hx
    rw [hk]; simp [tag, setTag]
  · rename_i hx
    rw [setTag_of_ne]
    exact fun e => hx (tag_id e)

theorem filter_dead {D : List Nat} {x : Nat} {l : List Ent}
    (h : ∀ e ∈ l, e.1 = x → (tag e).id = some x) :
    (l.filter (fun e => decide (e.1 ∉ x :: D))).map tag =
      ((l.filter (fun e => decide (e.1 ∉ D))).map tag).filter (fun t => decide (t.id ≠ some x)) := by
  induction l with
  | nil => rfl
  | cons e es ih =>
    have ih := ih (fun y hy => h y (by simp [hy]))
    by_cases hD : e.1 ∈ D
    · simp only [List.filter_cons, hD, not_true_eq_false, decide_false, List.mem_cons, or_true]
      simpa using ih
    · by_cases hx : e.1 = x
      · have := h e (by simp) hx
        rw [List.filter_cons_of_neg (by simp [hx]), List.filter_cons_of_pos (by simp [hD]),
          List.map_cons, List.filter_cons_of_neg (by simp [this]), ih]
      · have hne : (tag e).id ≠ some x := fun c => hx (tag_id c)
        rw [List.filter_cons_of_pos (by simp [hx, hD]), List.filter_cons_of_pos (by simp [hD]),
          List.map_cons, List.map_cons, List.filter_cons_of_pos (by simp [hne]), ih]

theorem filter_insert {D : List Nat} {c n : Nat} {l : List Ent} (hn : n ∉ D) (hc : c ∉ D)
    (h : ∀ e ∈ l, e.1 = c → ∃ k, tag e = .start c k) :
    ((l.flatMap (insertBefore c n)).filter (fun e => decide (e.1 ∉ D))).map tag =
      ((l.filter (fun e => decide (e.1 ∉ D))).map tag).flatMap (insertTag c n) := by
  induction l with
  | nil => rfl
  | cons e es ih =>
    have ih := ih (fun y hy => h y (by simp [hy]))
    rw [List.flatMap_cons, List.filter_append, List.map_append, ih]
    by_cases hx : e.1 = c
    · obtain ⟨k, hk⟩ := h e (by simp) hx
      rw [List.filter_cons_of_pos (by simp [hx, hc]), List.map_cons, List.flatMap_cons]
      congr 1
      simp [insertBefore, hx, hn, hc, hk, insertTag]
      rfl
    · have hne : (tag e).id ≠ some c := fun c => hx (tag_id c)
      by_cases hD : e.1 ∈ D
      · rw [List.filter_cons_of_neg (by simp [hD])]
        simp [insertBefore, hx, hD]
      · rw [List.filter_cons_of_pos (by simp [hD]), List.map_cons, List.flatMap_cons,
          insertTag_of_ne hne]
        simp [insertBefore, hx, hD]

section
variable {evs : List Event}

theorem Tags.append {ts : List Tag} (h : Tags evs ts) {e : Event} (he : linkFree e) :
    Tags (evs ++ [e]) (ts ++ [tag (evs.length, e)]) where
  wf := h.wf.append he
  nodup := by
    rw [logical_append h.wf he, List.map_append, List.nodup_append]
    refine ⟨h.nodup, by simp, ?_⟩
    intro a ha b hb
    simp only [List.mem_map] at ha
    obtain ⟨x, hx, rfl⟩ := ha
    simp at hb
    have := mem_logical_lt h.wf hx
    omega
  rep := by
    obtain ⟨D, hr, hD⟩ := h.rep
    have hlt : ∀ d ∈ D, d < evs.length := fun d hd => (List.getElem?_eq_some_iff.1 (hD d hd)).1
    refine ⟨D, ?_, fun d hd => by rw [List.getElem?_append_left (hlt d hd), hD d hd]⟩
    have : evs.length ∉ D := fun c => absurd (hlt _ c) (by omega)
    rw [logical_append h.wf he, List.filter_append, List.map_append, hr]
    simp [this]

theorem Tags.alive {A B : List Tag} {t : Tag} {m : Nat} {D : List Nat} (ht : t.id = some m)
    (hr : ((logical evs).filter (fun x => decide (x.1 ∉ D))).map tag = A ++ t :: B) : m ∉ D := by
  have : t ∈ ((logical evs).filter (fun x => decide (x.1 ∉ D))).map tag := by rw [hr]; simp
  simp only [List.mem_map, List.mem_filter, decide_eq_true_eq] at this
  obtain ⟨x, ⟨_, h2⟩, rfl⟩ := this
  rwa [tag_id ht] at h2

theorem tag_of_start (w : WF evs) {m : Nat} {k : SyntaxKind} {fp : Option Nat}
    (hm : evs[m]? = some (.start k fp)) : ∀ x ∈ logical evs, x.1 = m → tag x = .start m k := by
  rintro ⟨p, e⟩ hx rfl
  rcases mem_logical w hx with ⟨hs, h2⟩ | ⟨k', fp', rfl, h2⟩
  · rw [hm] at h2; cases h2; simp [isStart] at hs
  · rw [hm] at h2; cases h2; rfl

theorem Tags.setKind {A B : List Tag} {m : Nat} {k k0 : SyntaxKind} {fp : Option Nat}
    (h : Tags evs (A ++ .start m k0 :: B)) (hm : evs[m]? = some (.start k0 fp))
    (hk : k ≠ .tombstone ∨ fp = none) :
    Tags (evs.set m (.start k fp)) (A ++ .start m k :: B) where
  wf := h.wf.setKind hm hk
  nodup := by
    rw [logical_setKind h.wf hm hk, List.map_map]
    have : Prod.fst ∘ Markers.setKind m k = Prod.fst := funext (setKind_fst m k)
    rw [this]; exact h.nodup
  rep := by
    obtain ⟨D, hr, hD⟩ := h.rep
    have hal := Tags.alive (t := .start m k0) rfl hr
    refine ⟨D, ?_, ?_⟩
    · rw [logical_setKind h.wf hm hk, filter_setKind, List.map_map]
      have hc : ((logical evs).filter (fun x => decide (x.1 ∉ D))).map (tag ∘ Markers.setKind m k) =
          (((logical evs).filter (fun x => decide (x.1 ∉ D))).map tag).map (setTag m k) := by
        rw [List.map_map]
        apply List.map_congr_left
        intro x hx
        exact tag_setKind fun e => ⟨k0, tag_of_start h.wf hm x (List.mem_filter.1 hx).1 e⟩
      obtain ⟨h1, h2⟩ := unique_id (t := .start m k0) rfl h.ids
      rw [hc, hr, List.map_append, List.map_cons, map_setTag h1, map_setTag h2]
      simp [setTag]
    · intro d hd
      rw [get_set hm, if_neg (fun (e : d = m) => hal (e ▸ hd)), hD d hd]

theorem Tags.kill {A B : List Tag} {m : Nat} {k : SyntaxKind}
    (h : Tags evs (A ++ .start m k :: B)) (hm : evs[m]? = some Event.tombstone) :
    Tags evs (A ++ B) where
  wf := h.wf
  nodup := h.nodup
  rep := by
    obtain ⟨D, hr, hD⟩ := h.rep
    refine ⟨m :: D, ?_, ?_⟩
    · rw [filter_dead, hr]
      · obtain ⟨h1, h2⟩ := unique_id (t := .start m k) rfl h.ids
        rw [List.filter_append, List.filter_cons_of_neg (by simp [Tag.id]), filter_id h1,
          filter_id h2]
      · intro x hx e
        rw [tag_of_start h.wf hm x hx e]; rfl
    · intro d hd
      rcases List.mem_cons.1 hd with rfl | hd
      · exact hm
      · exact hD d hd

theorem Tags.killFinish {A B : List Tag} {f : Nat}
    (h : Tags evs (A ++ .finish f :: B)) : Tags (evs.set f Event.tombstone) (A ++ B) := by
  have hf : evs[f]? = some .finish := h.finish_at (by simp)
  exact {
    wf := h.wf.setFinish hf
    nodup := by
      rw [logical_setFinish h.wf hf, List.map_map]
      have : Prod.fst ∘ Markers.setKind f .tombstone = Prod.fst := funext (setKind_fst f _)
      rw [this]; exact h.nodup
    rep := by
      obtain ⟨D, hr, hD⟩ := h.rep
      have hal := Tags.alive (t := .finish f) rfl hr
      refine ⟨f :: D, ?_, ?_⟩
      · have hc : ((logical evs).map (Markers.setKind f .tombstone)).filter
            (fun x => decide (x.1 ∉ f :: D)) =
            (logical evs).filter (fun x => decide (x.1 ∉ f :: D)) := by
          rw [filter_setKind]
          conv => rhs; rw [← List.map_id ((logical evs).filter _)]
          apply List.map_congr_left
          intro x hx
          have : x.1 ≠ f := by
            have := (List.mem_filter.1 hx).2
            simp at this; exact this.1
          simp [Markers.setKind, this]
        rw [logical_setFinish h.wf hf, hc, filter_dead, hr]
        · obtain ⟨h1, h2⟩ := unique_id (t := .finish f) rfl h.ids
          rw [List.filter_append, List.filter_cons_of_neg (by simp [Tag.id]), filter_id h1,
            filter_id h2]
        · rintro ⟨p, e⟩ hx rfl
          rcases mem_logical h.wf hx with ⟨hs, h2⟩ | ⟨k', fp', rfl, h2⟩
          · rw [hf] at h2; cases h2; rfl
          · rw [hf] at h2; cases h2
      · intro d hd
        rw [get_set hf]
        rcases List.mem_cons.1 hd with rfl | hd
        · simp
        · rw [if_neg (fun (e : d = f) => hal (e ▸ hd)), hD d hd] }

theorem Tags.pop {A B : List Tag} (h : Tags (evs ++ [Event.tombstone]) (A ++ .start evs.length .tombstone :: B))
    (ht : ¬ Targeted (evs ++ [Event.tombstone]) evs.length) : Tags evs (A ++ B) := by
  have he : linkFree Event.tombstone := trivial
  have w := WF.pop he h.wf ht
  have hl := logical_append w he
  exact {
    wf := w
    nodup := by
      have := h.nodup
      rw [hl, List.map_append, List.nodup_append] at this
      exact this.1
    rep := by
      obtain ⟨D, hr, hD⟩ := h.rep
      have hal := Tags.alive (t := .start evs.length .tombstone) rfl hr
      refine ⟨D, ?_, ?_⟩
      · obtain ⟨h1, h2⟩ := unique_id (t := .start evs.length .tombstone) rfl h.ids
        rw [hl, List.filter_append, List.map_append] at hr
        have hfil := congrArg (List.filter (fun t => decide (t.id ≠ some evs.length))) hr
        rw [List.filter_append, List.filter_append, filter_id h1,
          List.filter_cons_of_neg (a := Tag.start evs.length .tombstone) (by simp [Tag.id]),
          filter_id h2, filter_id] at hfil
        · rw [← hfil]
          simp [hal, tag, Event.tombstone, Tag.id]
        · intro x hx e
          simp only [List.mem_map, List.mem_filter] at hx
          obtain ⟨y, hy, rfl⟩ := hx
          have := mem_logical_lt w hy.1
          rw [tag_id e] at this; omega
      · intro d hd
        have := hD d hd
        have hne : d ≠ evs.length := fun e => hal (e ▸ hd)
        have hlt := (List.getElem?_eq_some_iff.1 this).1
        simp at hlt
        rwa [List.getElem?_append_left (by omega)] at this }

theorem Tags.precede {A B : List Tag} {c : Nat} {k : SyntaxKind}
    (h : Tags evs (A ++ .start c k :: B)) (hc : evs[c]? = some (.start k none))
    (hk : k ≠ .tombstone) :
    Tags ((evs ++ [Event.tombstone]).set c (.start k (some (evs.length - c))))
      (A ++ .start evs.length .tombstone :: .start c k :: B) where
  wf := h.wf.precede hc hk
  nodup := by
    rw [logical_precede h.wf hc hk]
    have key : ∀ l : List Ent, (l.map Prod.fst).Nodup → (∀ x ∈ l, x.1 < evs.length) →
        ((l.flatMap (insertBefore c evs.length)).map Prod.fst).Nodup := by
      intro l
      induction l with
      | nil => intro _ _; simp
      | cons x xs ih =>
        intro h1 h2
        rw [List.map_cons, List.nodup_cons] at h1
        have ih := ih h1.2 (fun y hy => h2 y (by simp [hy]))
        have hsub : ∀ y ∈ (xs.flatMap (insertBefore c evs.length)).map Prod.fst,
            y ∈ xs.map Prod.fst ∨ (y = evs.length ∧ c ∈ xs.map Prod.fst) := by
          intro y hy
          simp only [List.mem_map, List.mem_flatMap] at hy
          obtain ⟨z, ⟨u, hu, hz⟩, rfl⟩ := hy
          unfold insertBefore at hz
          split at hz
          · rename_i huc
            simp at hz
            rcases hz with rfl | rfl
            · exact .inr ⟨rfl, List.mem_map.2 ⟨u, hu, huc⟩⟩
            · exact .inl (List.mem_map.2 ⟨z, hu, rfl⟩)
          · simp at hz; subst hz
            exact .inl (List.mem_map.2 ⟨z, hu, rfl⟩)
        have hx := h2 x (by simp)
        rw [List.flatMap_cons, List.map_append]
        by_cases hxc : x.1 = c
        · have e : (insertBefore c evs.length x).map Prod.fst = [evs.length, c] := by
            simp [insertBefore, hxc]
          rw [e]
          have hcx : c ∉ xs.map Prod.fst := hxc ▸ h1.1
          have hn : ∀ y ∈ (xs.flatMap (insertBefore c evs.length)).map Prod.fst,
              y ∈ xs.map Prod.fst := fun y hy => (hsub y hy).resolve_right (fun hh => hcx hh.2)
          rw [List.cons_append, List.singleton_append, List.nodup_cons, List.nodup_cons]
          refine ⟨?_, fun hh => hcx (hn _ hh), ih⟩
          intro hh
          rcases List.mem_cons.1 hh with hh | hh
          · omega
          · obtain ⟨z, hz, he⟩ := List.mem_map.1 (hn _ hh)
            have := h2 z (by simp [hz]); omega
        · have e : (insertBefore c evs.length x).map Prod.fst = [x.1] := by
            simp [insertBefore, hxc]
          rw [e, List.singleton_append, List.nodup_cons]
          refine ⟨fun hh => ?_, ih⟩
          rcases hsub _ hh with hh | hh
          · exact h1.1 hh
          · omega
    exact key _ h.nodup (fun x hx => mem_logical_lt h.wf hx)
  rep := by
    obtain ⟨D, hr, hD⟩ := h.rep
    have hal := Tags.alive (t := .start c k) rfl hr
    have hlt : ∀ d ∈ D, d < evs.length := fun d hd => (List.getElem?_eq_some_iff.1 (hD d hd)).1
    refine ⟨D, ?_, ?_⟩
    · rw [logical_precede h.wf hc hk, filter_insert (fun c => absurd (hlt _ c) (by omega)) hal, hr]
      · obtain ⟨h1, h2⟩ := unique_id (t := .start c k) rfl h.ids
        rw [List.flatMap_append, List.flatMap_cons, flatMap_insertTag h1, flatMap_insertTag h2]
        simp [insertTag]
      · exact fun x hx e => ⟨k, tag_of_start h.wf hc x hx e⟩
    · intro d hd
      rw [get_precede hc, if_neg (fun (e : d = c) => hal (e ▸ hd)), List.getElem?_append_left (hlt d hd),
        hD d hd]

end

/-! ### Every call -/

mutual
theorem live_flat : (p : Piece) → ∀ x ∈ liveIds p, ∃ t ∈ flat p, t.id = some x
  | .tok _, x, h => by simp [liveIds] at h
  | .err _, x, h => by simp [liveIds] at h
  | .mark .., x, h => by simp [liveIds] at h
  | .errMark _, x, h => by simp [liveIds] at h
  | .errNode m cs e, x, h => by
    obtain ⟨t, h1, h2⟩ := live_flatL cs x (by simpa [liveIds] using h)
    exact ⟨t, by simp [flat, h1], h2⟩
  | .node m f l k cs, x, h => by
    simp only [liveIds, List.mem_append] at h
    rcases h with h | h
    · have : x = m := by split at h <;> simp_all
      exact ⟨.start m k, by simp [flat], by simp [Tag.id, this]⟩
    · obtain ⟨t, h1, h2⟩ := live_flatL cs x h
      exact ⟨t, by simp [flat, h1], h2⟩
theorem live_flatL : (ps : List Piece) → ∀ x ∈ liveIdsL ps, ∃ t ∈ flatL ps, t.id = some x
  | [], x, h => by simp [liveIdsL] at h
  | p :: ps, x, h => by
    simp only [liveIdsL, List.mem_append] at h
    rcases h with h | h
    · obtain ⟨t, h1, h2⟩ := live_flat p x h
      exact ⟨t, by simp [flatL, h1], h2⟩
    · obtain ⟨t, h1, h2⟩ := live_flatL ps x h
      exact ⟨t, by simp [flatL, h1], h2⟩
end

theorem mark_flatL {m : Nat} {b : Bool} (ps : List Piece) (h : Piece.mark m b ∈ ps) :
    Tag.start m .tombstone ∈ flatL ps := by
  obtain ⟨a, b, rfl⟩ := List.append_of_mem h
  simp [flatL, flat]

theorem closed_no_mark {m : Nat} {b : Bool} {ps : List Piece} (h : closed ps) :
    Piece.mark m b ∉ ps := by
  intro hm
  obtain ⟨a, c, rfl⟩ := List.append_of_mem hm
  rw [closed_append] at h
  simp [closed] at h


theorem Describes.add {evs : List Event} {toks toks' : List SyntaxKind} {n : Nat} {ps : List Piece}
    (h : Describes evs ⟨toks, n, ps⟩) {e : Event} (he : linkFree e) {q : Piece}
    (hq : flat q = [tag (evs.length, e)]) (hl : liveIds q = []) (hok : Markers.ok q) :
    Describes (evs ++ [e]) ⟨toks', n + 1, ps ++ [q]⟩ where
  used := by have := h.used; simp at this; simp [this]
  tags := by
    have := h.tags.append he
    simpa [flatL, hq] using this
  live m hm := by
    rw [link_append _ _ he]
    exact h.live m (by simpa [liveIdsL, hl] using hm)
  ok := by
    have := h.ok
    simp [okL, hok] at this ⊢; exact this
  fresh m hm := by
    rw [targeted_congr (link_append evs e he)]
    rcases List.mem_append.1 hm with hm | hm
    · exact h.fresh m hm
    · simp at hm
      subst hm
      rintro ⟨q, hq'⟩
      have h1 := h.tags.wf.lt hq'
      have : m = evs.length := by
        rw [flat] at hq
        cases e <;> simp_all [tag]
      omega

theorem step {β : Type} {op : Op β} {f g : Forest} {b : β} (d : Does op f b g) {evs : List Event}
    (h : Describes evs f) :
    ∃ evs', op.run ⟨f.toks, evs⟩ = .ok (b, ⟨g.toks, evs'⟩) ∧ Describes evs' g := by
  cases d with
  | nth n => exact ⟨evs, rfl, h⟩
  | advance k toks n ps hk =>
    refine ⟨evs ++ [.token], ?_, h.add (e := .token) (q := .tok k) trivial rfl rfl trivial⟩
    simp [Op.run, lookahead, hk]
  | error e toks n ps => exact ⟨_, rfl, h.add (e := .error e) trivial rfl rfl trivial⟩
  | start toks n ps =>
    have hn : n = evs.length := h.used
    exact ⟨evs ++ [Event.tombstone], by simp [Op.run, hn],
      h.add (e := Event.tombstone) trivial (by rw [hn]; rfl) rfl trivial⟩
  | startError toks n ps =>
    have hn : n = evs.length := h.used
    exact ⟨evs ++ [.startError], by simp [Op.run, hn],
      h.add (e := .startError) (q := .errMark n) trivial (by rw [hn]; rfl) rfl trivial⟩
  | complete m fr k toks n pre cs hc hk =>
    have hn : n = evs.length := h.used
    have ht := h.tags
    simp only [flatL_append, flatL, flat, List.singleton_append] at ht
    obtain ⟨fp, hm⟩ := ht.start_at (m := m) (k := .tombstone) (by simp)
    have hlm : link evs m = none := by
      cases e : link evs m with
      | none => rfl
      | some q => exact absurd (by simp [kindAt, hm]) (ht.wf.kd m q e)
    have hfp : fp = none := by
      cases fp with
      | none => rfl
      | some x => simp [link, hm] at hlm
    subst hfp
    have hlk := link_setKind (k := k) hm
    refine ⟨evs.set m (.start k none) ++ [.finish], by simp [Op.run, hm, hn], ?_⟩
    have h1 := (ht.setKind (k := k) hm (.inl hk)).append (e := .finish) trivial
    refine ⟨by simp [hn], ?_, ?_, ?_, ?_⟩
    · simpa [flatL, flat, tag, hn] using h1
    · intro x hx
      rw [link_append _ _ (by exact trivial), hlk]
      simp only [liveIdsL_append, liveIdsL, liveIds, List.mem_append] at hx
      rcases hx with hx | ((hx | hx) | hx)
      · exact h.live x (by simp [liveIdsL_append, hx])
      · simp at hx; subst hx; exact hlm
      · exact h.live x (by simp [liveIdsL_append, liveIdsL, hx])
      · simp at hx
    · have := h.ok
      simp only [okL_append, okL, Markers.ok] at this ⊢
      exact ⟨this.1, ⟨hk, hc, this.2.2⟩, trivial⟩
    · intro x hx
      rw [targeted_congr (link_append _ _ (by exact trivial)), targeted_congr hlk]
      simp at hx
      exact h.fresh x (by simp [hx])
  | completeError m e toks n pre cs hc =>
    have hn : n = evs.length := h.used
    have ht := h.tags
    simp only [flatL_append, flatL, flat, List.singleton_append] at ht
    have hm := ht.err_at (m := m) (by simp)
    refine ⟨evs ++ [.finishError e], by simp [Op.run, hm], ?_⟩
    have h1 := ht.append (e := .finishError e) trivial
    refine ⟨by simp [hn], ?_, ?_, ?_, ?_⟩
    · simpa [flatL, flat, tag] using h1
    · intro x hx
      rw [link_append _ _ (by exact trivial)]
      simp only [liveIdsL_append, liveIdsL, liveIds, List.mem_append] at hx
      rcases hx with hx | (hx | hx)
      · exact h.live x (by simp [liveIdsL_append, hx])
      · exact h.live x (by simp [liveIdsL_append, liveIdsL, hx])
      · simp at hx
    · have := h.ok
      simp only [okL_append, okL, Markers.ok] at this ⊢
      exact ⟨this.1, ⟨hc, this.2.2⟩, trivial⟩
    · intro x hx
      rw [targeted_congr (link_append _ _ (by exact trivial))]
      simp at hx
      exact h.fresh x (by simp [hx])
  | abandon m fr toks n pre cs hne =>
    have hn : n = evs.length := h.used
    have ht := h.tags
    simp only [flatL_append, flatL, flat, List.singleton_append] at ht
    obtain ⟨fp, hm⟩ := ht.start_at (m := m) (k := .tombstone) (by simp)
    have hlm : link evs m = none := by
      cases e : link evs m with
      | none => rfl
      | some q => exact absurd (by simp [kindAt, hm]) (ht.wf.kd m q e)
    have hfp : fp = none := by
      cases fp with
      | none => rfl
      | some x => simp [link, hm] at hlm
    subst hfp
    have hlt := (List.getElem?_eq_some_iff.1 hm).1
    refine ⟨evs, ?_, ?_⟩
    · have h1 : evs.length ≠ 0 := by omega
      have h2 : m ≠ evs.length - 1 := by omega
      have h3 : evs ≠ [] := by rintro rfl; simp at hlt
      simp [Op.run, h2, h3]
    · refine ⟨hn, ?_, ?_, ?_, ?_⟩
      · have := ht.kill hm
        simpa using this
      · intro x hx
        exact h.live x (by simpa [liveIdsL, liveIds] using hx)
      · have := h.ok
        simp only [okL_append, okL] at this ⊢
        exact ⟨this.1, this.2.2⟩
      · intro x hx
        refine h.fresh x ?_
        simp at hx ⊢
        rcases hx with hx | hx
        · exact .inl hx
        · exact .inr (.inr hx)
  | abandonLast m toks pre cs =>
    have hn : m + 1 = evs.length := h.used
    have ht := h.tags
    simp only [flatL_append, flatL, flat, List.singleton_append] at ht
    obtain ⟨fp, hm⟩ := ht.start_at (m := m) (k := .tombstone) (by simp)
    have hlm : link evs m = none := by
      cases e : link evs m with
      | none => rfl
      | some q => exact absurd (by simp [kindAt, hm]) (ht.wf.kd m q e)
    have hfp : fp = none := by
      cases fp with
      | none => rfl
      | some x => simp [link, hm] at hlm
    subst hfp
    have hft := h.fresh m (by simp)
    obtain ⟨init, rfl⟩ : ∃ init, evs = init ++ [Event.tombstone] := by
      rcases List.eq_nil_or_concat evs with rfl | ⟨init, x, rfl⟩
      · simp at hn
      · refine ⟨init, ?_⟩
        simp at hn
        subst hn
        simp at hm
        rw [hm, List.concat_eq_append]; rfl
    simp at hn
    subst hn
    refine ⟨init, ?_, ?_⟩
    · simp [Op.run, Event.tombstone]
    · have hlk := link_append init Event.tombstone trivial
      refine ⟨rfl, ?_, ?_, ?_, ?_⟩
      · have := ht.pop hft
        simpa using this
      · intro x hx
        rw [← hlk]
        exact h.live x (by simpa [liveIdsL, liveIds] using hx)
      · have := h.ok
        simp only [okL_append, okL] at this ⊢
        exact ⟨this.1, this.2.2⟩
      · intro x hx
        rw [← targeted_congr hlk]
        refine h.fresh x ?_
        simp at hx ⊢
        rcases hx with hx | hx
        · exact .inl hx
        · exact .inr (.inr hx)
  | precede m fin fin' kd k toks n pre cs post =>
    have hn : n = evs.length := h.used
    have ht := h.tags
    simp only [flatL_append, flatL, flat, List.cons_append] at ht
    obtain ⟨fp, hm⟩ := ht.start_at (m := m) (k := k) (by simp)
    have hlm : link evs m = none := h.live m (by simp [liveIdsL, liveIds])
    have hfp : fp = none := by
      cases fp with
      | none => rfl
      | some x => simp [link, hm] at hlm
    subst hfp
    have hlt := (List.getElem?_eq_some_iff.1 hm).1
    have hok := h.ok
    simp only [okL_append, okL, Markers.ok] at hok
    have hk : k ≠ .tombstone := hok.2.1.1
    have hids := ht.ids
    have hun := unique_id (t := .start m k) rfl hids
    have hm' : (evs ++ [Event.tombstone])[m]? = some (.start k none) := by
      rw [List.getElem?_append_left hlt, hm]
    refine ⟨(evs ++ [Event.tombstone]).set m (.start k (some (evs.length - m))), ?_, ?_⟩
    · simp only [Op.run, hm', hn]
    · have h1 := ht.precede hm hk
      refine ⟨by simp [hn], ?_, ?_, ?_, ?_⟩
      · simpa [flatL, flat, hn] using h1
      · intro x hx
        have hx1 : x ∈ liveIdsL pre ∨ x ∈ liveIdsL cs ∨ x ∈ liveIdsL post := by
          simpa [liveIdsL, liveIds] using hx
        have hold := h.live x (by
          rcases hx1 with hx | hx | hx <;> simp [liveIdsL, liveIds, hx])
        rw [link_precede hm, if_neg, hold]
        rintro rfl
        -- two pieces with the same marker
        have inFlat : ∀ l : List Piece, x ∈ liveIdsL l → ∃ t ∈ flatL l, t.id = some x :=
          fun l hl => live_flatL l x hl
        rcases hx1 with hx | hx | hx
        · obtain ⟨t, ht1, ht2⟩ := inFlat _ hx
          exact hun.1 t ht1 ht2
        · obtain ⟨t, ht1, ht2⟩ := inFlat _ hx
          exact hun.2 t (by simp [ht1]) ht2
        · obtain ⟨t, ht1, ht2⟩ := inFlat _ hx
          exact hun.2 t (by simp [ht1]) ht2
      · simp only [okL_append, okL, Markers.ok]
        exact ⟨hok.1, trivial, hok.2.1, hok.2.2⟩
      · intro x hx
        have hx1 : Piece.mark x true ∈ pre ∨ Piece.mark x true ∈ post := by simpa using hx
        rw [targeted_precede hm]
        rintro (rfl | hT)
        · have : Tag.start evs.length .tombstone ∈ flatL pre ∨
              Tag.start evs.length .tombstone ∈ flatL post :=
            hx1.imp (mark_flatL _) (mark_flatL _)
          obtain ⟨fp, h2⟩ := ht.start_at (m := evs.length) (k := .tombstone) (by
            rcases this with h | h <;> simp [h])
          have := (List.getElem?_eq_some_iff.1 h2).1
          omega
        · exact h.fresh x (by rcases hx1 with h | h <;> simp [h]) hT
  | undoCompletion m fin kd k toks n pre cs post =>
    have hn : n = evs.length := h.used
    have ht := h.tags
    simp only [flatL_append, flatL, flat, List.cons_append] at ht
    obtain ⟨fp, hm⟩ := ht.start_at (m := m) (k := k) (by simp)
    have hlm : link evs m = none := h.live m (by simp [liveIdsL, liveIds])
    have hfp : fp = none := by
      cases fp with
      | none => rfl
      | some x => simp [link, hm] at hlm
    subst hfp
    have hok := h.ok
    simp only [okL_append, okL, Markers.ok] at hok
    have h1 := ht.setKind (k := .tombstone) hm (.inr rfl)
    have h1' : Tags (evs.set m (.start .tombstone none))
        ((flatL pre ++ .start m .tombstone :: flatL cs) ++ .finish fin :: flatL post) := by
      simpa using h1
    have hf : (evs.set m (.start .tombstone none))[fin]? = some .finish := h1'.finish_at (by simp)
    have h2 := h1'.killFinish
    have hlk : ∀ q, link ((evs.set m (.start .tombstone none)).set fin Event.tombstone) q =
        link evs q := fun q => (link_setFinish hf q).trans (link_setKind hm q)
    refine ⟨(evs.set m (.start .tombstone none)).set fin Event.tombstone, ?_, ?_⟩
    · simp only [Op.run, hm, hf]
    · refine ⟨by simp [hn], ?_, ?_, ?_, ?_⟩
      · simpa [flatL, flat] using h2
      · intro x hx
        rw [hlk]
        apply h.live x
        simp only [liveIdsL_append, liveIdsL, liveIds, List.mem_append] at hx ⊢
        rcases hx with hx | hx | hx | hx
        · exact .inl hx
        · simp at hx
        · exact .inr (.inl (.inr hx))
        · exact .inr (.inr hx)
      · simp only [okL_append, okL, Markers.ok]
        exact ⟨hok.1, trivial, hok.2.1.2.2, hok.2.2⟩
      · intro x hx
        rw [targeted_congr hlk]
        have hx1 : Piece.mark x true ∈ pre ∨ Piece.mark x true ∈ cs ∨ Piece.mark x true ∈ post := by
          simpa using hx
        rcases hx1 with hx | hx | hx
        · exact h.fresh x (by simp [hx])
        · exact absurd hx (closed_no_mark hok.2.1.2.1)
        · exact h.fresh x (by simp [hx])
  | changeKind m fin kd k k' toks n pre cs post hk =>
    have hn : n = evs.length := h.used
    have ht := h.tags
    simp only [flatL_append, flatL, flat, List.cons_append] at ht
    obtain ⟨fp, hm⟩ := ht.start_at (m := m) (k := k) (by simp)
    have hlm : link evs m = none := h.live m (by simp [liveIdsL, liveIds])
    have hfp : fp = none := by
      cases fp with
      | none => rfl
      | some x => simp [link, hm] at hlm
    subst hfp
    have hok := h.ok
    simp only [okL_append, okL, Markers.ok] at hok
    have h1 := ht.setKind (k := k') hm (.inl hk)
    have hlk := link_setKind (k := k') hm
    refine ⟨evs.set m (.start k' none), by simp [Op.run, hm], ?_⟩
    refine ⟨by simp [hn], ?_, ?_, ?_, ?_⟩
    · simpa [flatL, flat] using h1
    · intro x hx
      rw [hlk]
      exact h.live x (by simpa [liveIdsL, liveIds] using hx)
    · simp only [okL_append, okL, Markers.ok]
      exact ⟨hok.1, ⟨hk, hok.2.1.2⟩, hok.2.2⟩
    · intro x hx
      rw [targeted_congr hlk]
      exact h.fresh x (by simpa using hx)

theorem run_describes {α : Type} {p : Api α} {f g : Forest} {a : α} (b : Builds p f a g)
    {evs : List Event} (h : Describes evs f) :
    ∃ evs', p.run ⟨f.toks, evs⟩ = .ok (a, ⟨g.toks, evs'⟩) ∧ Describes evs' g := by
  induction b generalizing evs with
  | pure a f => exact ⟨evs, rfl, h⟩
  | call d r ih =>
    obtain ⟨evs1, h1, h2⟩ := step d h
    obtain ⟨evs2, h3, h4⟩ := ih h2
    exact ⟨evs2, by simp [Api.run, h1, h3], h4⟩

theorem describes_nil (toks : List SyntaxKind) : Describes [] ⟨toks, 0, []⟩ where
  used := rfl
  tags := {
    wf := ⟨by simp [link], by simp [link], by simp [link]⟩
    nodup := by simp [logical]
    rep := ⟨[], by simp [logical, flatL], by simp⟩ }
  live := by simp [liveIdsL]
  ok := trivial
  fresh := by simp

end Verif.Markers
