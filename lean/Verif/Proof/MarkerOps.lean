import Verif.Proof.Markers

/-
How each call of the marker API changes the logical order of the events.
-/
namespace Verif.Markers

theorem mem_chain_lt {evs : List Event} (w : WF evs) (p : Nat) (hp : p < evs.length) :
    ∀ x ∈ chain evs p, x < evs.length := by
  intro x hx
  rcases chain_pred w p x hx with rfl | ⟨y, _, hl⟩
  · exact hp
  · exact (w.lt hl).2

theorem chain_congr {evs evs' : List Event} (w : WF evs) (w' : WF evs')
    (h : ∀ q, link evs' q = link evs q) (p : Nat) : chain evs' p = chain evs p := by
  induction p using chain_ind w with
  | none p hp => rw [chain_none hp, chain_none ((h p).trans hp)]
  | some p q hp ih => rw [chain_some w hp, chain_some w' ((h p).trans hp), ih]

theorem targeted_congr {evs evs' : List Event} (h : ∀ q, link evs' q = link evs q) (p : Nat) :
    Targeted evs' p ↔ Targeted evs p := by simp [Targeted, h]

theorem link_lt {evs : List Event} {q p : Nat} (h : link evs q = some p) : q < evs.length := by
  unfold link at h
  cases e : evs[q]? with
  | none => rw [e] at h; simp at h
  | some x => exact (List.getElem?_eq_some_iff.1 e).1

theorem entries_start {evs : List Event} {i : Nat} {k : SyntaxKind} {fp : Option Nat}
    (h : evs[i]? = some (.start k fp)) (ht : ¬ Targeted evs i) :
    entries evs i = (chain evs i).reverse.map fun p => (p, .start (kindAt evs p) none) := by
  unfold entries; rw [h]; simp [ht]

theorem entries_targeted {evs : List Event} {i : Nat} {k : SyntaxKind} {fp : Option Nat}
    (h : evs[i]? = some (.start k fp)) (ht : Targeted evs i) : entries evs i = [] := by
  unfold entries; rw [h]; simp [ht]

theorem entries_plain {evs : List Event} {i : Nat} {e : Event} (h : evs[i]? = some e)
    (hs : isStart e = false) : entries evs i = [(i, e)] := by
  unfold entries; rw [h]; cases e <;> simp_all [isStart]

/-- The form every entry has. -/
theorem mem_logical {evs : List Event} (w : WF evs) {p : Nat} {e : Event}
    (h : (p, e) ∈ logical evs) :
    (isStart e = false ∧ evs[p]? = some e) ∨ ∃ k fp, e = .start k none ∧ evs[p]? = some (.start k fp) := by
  simp only [logical, List.mem_flatMap, List.mem_range] at h
  obtain ⟨i, hi, h⟩ := h
  have hev : evs[i]? = some evs[i] := List.getElem?_eq_getElem hi
  by_cases hs : isStart evs[i] = true
  · cases he : evs[i] with
    | start k fp =>
      rw [he] at hev
      by_cases ht : Targeted evs i
      · rw [entries_targeted hev ht] at h; simp at h
      · rw [entries_start hev ht] at h
        simp only [List.mem_map, List.mem_reverse, Prod.mk.injEq] at h
        obtain ⟨x, hx, rfl, rfl⟩ := h
        right
        rcases chain_pred w i x hx with rfl | ⟨y, _, hl⟩
        · exact ⟨k, fp, by simp [kindAt, hev], hev⟩
        · obtain ⟨_, k', fp', h'⟩ := w.tgt y x hl
          exact ⟨k', fp', by simp [kindAt, h'], h'⟩
    | _ => rw [he] at hs; simp [isStart] at hs
  · have hs : isStart evs[i] = false := by simpa using hs
    rw [entries_plain hev hs] at h
    simp only [List.mem_singleton, Prod.mk.injEq] at h
    obtain ⟨rfl, rfl⟩ := h
    exact .inl ⟨hs, hev⟩

theorem mem_logical_lt {evs : List Event} (w : WF evs) {x : Ent} (h : x ∈ logical evs) :
    x.1 < evs.length := by
  obtain ⟨p, e⟩ := x
  rcases mem_logical w h with ⟨_, h⟩ | ⟨k, fp, _, h⟩ <;>
    exact (List.getElem?_eq_some_iff.1 h).1

/-! ### A new event at the end -/

def linkFree : Event → Prop
  | .start _ (some _) => False
  | _ => True

theorem link_append (evs : List Event) (e : Event) (he : linkFree e) (q : Nat) :
    link (evs ++ [e]) q = link evs q := by
  unfold link
  by_cases h : q < evs.length
  · rw [List.getElem?_append_left h]
  · have h1 : evs[q]? = none := by simp; omega
    rw [h1]
    by_cases h2 : q = evs.length
    · subst h2
      simp only [List.getElem?_concat_length]
      cases e with
      | start k fp => cases fp <;> simp_all [linkFree]
      | _ => simp
    · have : (evs ++ [e])[q]? = none := by simp; omega
      rw [this]

theorem kindAt_append (evs : List Event) (e : Event) {p : Nat} (h : p < evs.length) :
    kindAt (evs ++ [e]) p = kindAt evs p := by
  unfold kindAt; rw [List.getElem?_append_left h]

theorem WF.append {evs : List Event} (w : WF evs) {e : Event} (he : linkFree e) :
    WF (evs ++ [e]) where
  tgt q p h := by
    rw [link_append _ _ he] at h
    obtain ⟨h1, k, fp, h2⟩ := w.tgt q p h
    exact ⟨h1, k, fp, by rw [List.getElem?_append_left (w.lt h).2, h2]⟩
  inj q q' p h h' := by
    rw [link_append _ _ he] at h h'
    exact w.inj q q' p h h'
  kd q p h := by
    rw [link_append _ _ he] at h
    rw [kindAt_append _ _ (link_lt h)]
    exact w.kd q p h

theorem entries_append {evs : List Event} (w : WF evs) {e : Event} (he : linkFree e) {i : Nat}
    (hi : i < evs.length) : entries (evs ++ [e]) i = entries evs i := by
  have hev : evs[i]? = some evs[i] := List.getElem?_eq_getElem hi
  have hev' : (evs ++ [e])[i]? = some evs[i] := by rw [List.getElem?_append_left hi, hev]
  have ht := targeted_congr (link_append evs e he) i
  by_cases hs : isStart evs[i] = false
  · rw [entries_plain hev hs, entries_plain hev' hs]
  · cases hx : evs[i] with
    | start k fp =>
      rw [hx] at hev hev'
      by_cases hT : Targeted evs i
      · rw [entries_targeted hev hT, entries_targeted hev' (ht.2 hT)]
      · rw [entries_start hev hT, entries_start hev' (fun h => hT (ht.1 h)),
          chain_congr w (w.append he) (link_append evs e he)]
        apply List.map_congr_left
        intro p hp
        rw [kindAt_append]
        exact mem_chain_lt w i hi p (by simpa using hp)
    | _ => rw [hx] at hs; simp [isStart] at hs

theorem logical_append {evs : List Event} (w : WF evs) {e : Event} (he : linkFree e) :
    logical (evs ++ [e]) = logical evs ++ [(evs.length, e)] := by
  unfold logical
  rw [List.length_append, List.length_singleton, List.range_succ, List.flatMap_append]
  congr 1
  · simp only [List.flatMap_def]
    congr 1
    apply List.map_congr_left
    intro i hi
    exact entries_append w he (by simpa using hi)
  · have hev : (evs ++ [e])[evs.length]? = some e := by simp
    rw [List.flatMap_singleton]
    by_cases hs : isStart e = false
    · exact entries_plain hev hs
    · cases e with
      | start k fp =>
        have hT : ¬ Targeted (evs ++ [.start k fp]) evs.length := by
          rw [targeted_congr (link_append evs _ he)]
          rintro ⟨q, hq⟩
          have := (w.lt hq).2; omega
        rw [entries_start hev hT]
        cases fp with
        | some d => simp [linkFree] at he
        | none =>
          have hl : link (evs ++ [.start k none]) evs.length = none := by
            simp [link]
          rw [chain_none hl]
          simp [kindAt]
      | _ => simp [isStart] at hs

/-- Taking away the last event. -/
theorem WF.pop {evs : List Event} {e : Event} (he : linkFree e) (w : WF (evs ++ [e]))
    (ht : ¬ Targeted (evs ++ [e]) evs.length) : WF evs where
  tgt q p h := by
    have h' := h
    rw [← link_append _ _ he] at h'
    obtain ⟨h1, k, fp, h2⟩ := w.tgt q p h'
    have h3 := (w.lt h').2
    have h4 : p ≠ evs.length := fun e => ht ⟨q, e ▸ h'⟩
    simp at h3
    exact ⟨h1, k, fp, by rw [List.getElem?_append_left (by omega)] at h2; exact h2⟩
  inj q q' p h h' := by
    rw [← link_append _ _ he] at h h'
    exact w.inj q q' p h h'
  kd q p h := by
    have h' := h
    rw [← link_append _ _ he] at h'
    rw [← kindAt_append _ e (link_lt h)]
    exact w.kd q p h'

/-! ### Another kind for a recorded start -/

def setKind (m : Nat) (k : SyntaxKind) (x : Ent) : Ent :=
  if x.1 = m then (m, .start k none) else x

theorem get_set {evs : List Event} {m : Nat} {e : Event} {x : Event} (h : evs[m]? = some x)
    (q : Nat) : (evs.set m e)[q]? = if q = m then some e else evs[q]? := by
  have := (List.getElem?_eq_some_iff.1 h).1
  rw [List.getElem?_set]
  by_cases hq : m = q
  · subst hq; simp [this]
  · have : ¬ q = m := fun e => hq e.symm
    simp [hq, this]

theorem link_setKind {evs : List Event} {m : Nat} {k k0 : SyntaxKind} {fp : Option Nat}
    (h : evs[m]? = some (.start k0 fp)) (q : Nat) :
    link (evs.set m (.start k fp)) q = link evs q := by
  unfold link
  rw [get_set h]
  by_cases hq : q = m
  · subst hq; rw [if_pos rfl, h]; cases fp <;> rfl
  · rw [if_neg hq]

theorem kindAt_setKind {evs : List Event} {m : Nat} {k k0 : SyntaxKind} {fp : Option Nat}
    (h : evs[m]? = some (.start k0 fp)) (q : Nat) :
    kindAt (evs.set m (.start k fp)) q = if q = m then k else kindAt evs q := by
  unfold kindAt
  rw [get_set h]
  by_cases hq : q = m
  · subst hq; simp
  · simp [hq]

theorem WF.setKind {evs : List Event} (w : WF evs) {m : Nat} {k k0 : SyntaxKind} {fp : Option Nat}
    (h : evs[m]? = some (.start k0 fp)) (hk : k ≠ .tombstone ∨ fp = none) :
    WF (evs.set m (.start k fp)) where
  tgt q p hl := by
    rw [link_setKind h] at hl
    obtain ⟨h1, k', fp', h2⟩ := w.tgt q p hl
    rw [get_set h]
    refine ⟨h1, ?_⟩
    by_cases hp : p = m
    · rw [if_pos hp]; exact ⟨_, _, rfl⟩
    · rw [if_neg hp]; exact ⟨_, _, h2⟩
  inj q q' p hl hl' := by
    rw [link_setKind h] at hl hl'
    exact w.inj q q' p hl hl'
  kd q p hl := by
    rw [link_setKind h] at hl
    rw [kindAt_setKind h]
    by_cases hq : q = m
    · rw [if_pos hq]
      rcases hk with hk | hk
      · exact hk
      · subst hq hk; simp [link, h] at hl
    · rw [if_neg hq]; exact w.kd q p hl

theorem logical_setKind {evs : List Event} (w : WF evs) {m : Nat} {k k0 : SyntaxKind}
    {fp : Option Nat} (h : evs[m]? = some (.start k0 fp)) (hk : k ≠ .tombstone ∨ fp = none) :
    logical (evs.set m (.start k fp)) = (logical evs).map (setKind m k) := by
  unfold logical
  rw [List.length_set, List.map_flatMap]
  simp only [List.flatMap_def]
  congr 1
  apply List.map_congr_left
  intro i hi
  have hi : i < evs.length := by simpa using hi
  have hev : evs[i]? = some evs[i] := List.getElem?_eq_getElem hi
  have ht := targeted_congr (link_setKind (k := k) h) i
  by_cases hs : isStart evs[i] = false
  · have him : i ≠ m := by
      rintro rfl; rw [h] at hev
      simp only [Option.some.injEq] at hev
      rw [← hev] at hs; simp [isStart] at hs
    have hev' : (evs.set m (.start k fp))[i]? = some evs[i] := by rw [get_set h, if_neg him, hev]
    rw [entries_plain hev hs, entries_plain hev' hs]
    simp [Markers.setKind, him]
  · cases hx : evs[i] with
    | start ki fpi =>
      rw [hx] at hev
      have hev' : ∃ k' fp', (evs.set m (.start k fp))[i]? = some (.start k' fp') := by
        rw [get_set h]
        by_cases him : i = m
        · rw [if_pos him]; exact ⟨_, _, rfl⟩
        · rw [if_neg him]; exact ⟨_, _, hev⟩
      obtain ⟨k', fp', hev'⟩ := hev'
      by_cases hT : Targeted evs i
      · rw [entries_targeted hev hT, entries_targeted hev' (ht.2 hT)]; rfl
      · rw [entries_start hev hT, entries_start hev' (fun h => hT (ht.1 h)),
          chain_congr w (w.setKind h hk) (link_setKind h), List.map_map]
        apply List.map_congr_left
        intro p _
        simp only [Function.comp, Markers.setKind, kindAt_setKind h]
        by_cases hp : p = m
        · simp [hp]
        · simp [hp]
    | _ => rw [hx] at hs; simp [isStart] at hs

/-! ### A finish replaced by a tombstone -/

theorem link_setFinish {evs : List Event} {f : Nat} (h : evs[f]? = some .finish) (q : Nat) :
    link (evs.set f Event.tombstone) q = link evs q := by
  unfold link
  rw [get_set h]
  by_cases hq : q = f
  · subst hq; rw [if_pos rfl, h]; rfl
  · rw [if_neg hq]

theorem kindAt_setFinish {evs : List Event} {f : Nat} (h : evs[f]? = some .finish) (q : Nat) :
    kindAt (evs.set f Event.tombstone) q = kindAt evs q := by
  unfold kindAt
  rw [get_set h]
  by_cases hq : q = f
  · subst hq; rw [if_pos rfl, h]; rfl
  · rw [if_neg hq]

theorem WF.setFinish {evs : List Event} (w : WF evs) {f : Nat} (h : evs[f]? = some .finish) :
    WF (evs.set f Event.tombstone) where
  tgt q p hl := by
    rw [link_setFinish h] at hl
    obtain ⟨h1, k', fp', h2⟩ := w.tgt q p hl
    rw [get_set h]
    refine ⟨h1, ?_⟩
    by_cases hp : p = f
    · rw [if_pos hp]; exact ⟨_, _, rfl⟩
    · rw [if_neg hp]; exact ⟨_, _, h2⟩
  inj q q' p hl hl' := by
    rw [link_setFinish h] at hl hl'
    exact w.inj q q' p hl hl'
  kd q p hl := by
    rw [link_setFinish h] at hl
    rw [kindAt_setFinish h]
    exact w.kd q p hl

theorem logical_setFinish {evs : List Event} (w : WF evs) {f : Nat} (h : evs[f]? = some .finish) :
    logical (evs.set f Event.tombstone) = (logical evs).map (setKind f .tombstone) := by
  have hnt : ¬ Targeted evs f := by
    rintro ⟨q, hq⟩
    obtain ⟨_, k, fp, h2⟩ := w.tgt q f hq
    rw [h] at h2; cases h2
  have hlf : link evs f = none := by simp [link, h]
  unfold logical
  rw [List.length_set, List.map_flatMap]
  simp only [List.flatMap_def]
  congr 1
  apply List.map_congr_left
  intro i hi
  have hi : i < evs.length := by simpa using hi
  have hev : evs[i]? = some evs[i] := List.getElem?_eq_getElem hi
  have ht := targeted_congr (link_setFinish h) i
  by_cases hif : i = f
  · subst hif
    have hev' : (evs.set i Event.tombstone)[i]? = some (.start .tombstone none) := by
      rw [get_set h, if_pos rfl]; rfl
    rw [entries_plain h rfl, entries_start hev' (fun h => hnt (ht.1 h)),
      chain_congr w (w.setFinish h) (link_setFinish h), chain_none hlf]
    have hk : kindAt evs i = .tombstone := by simp [kindAt, h]
    simp [Markers.setKind, kindAt_setFinish h, hk]
  · have hev' : (evs.set f Event.tombstone)[i]? = some evs[i] := by rw [get_set h, if_neg hif, hev]
    by_cases hs : isStart evs[i] = false
    · rw [entries_plain hev hs, entries_plain hev' hs]
      simp [Markers.setKind, hif]
    · cases hx : evs[i] with
      | start ki fpi =>
        rw [hx] at hev hev'
        by_cases hT : Targeted evs i
        · rw [entries_targeted hev hT, entries_targeted hev' (ht.2 hT)]; rfl
        · rw [entries_start hev hT, entries_start hev' (fun h => hT (ht.1 h)),
            chain_congr w (w.setFinish h) (link_setFinish h), List.map_map]
          apply List.map_congr_left
          intro p _
          simp only [Function.comp, Markers.setKind, kindAt_setFinish h]
          by_cases hp : p = f
          · simp [hp, kindAt, h]
          · simp [hp]
      | _ => rw [hx] at hs; simp [isStart] at hs

/-! ### A link to a new start at the end -/

def insertBefore (c n : Nat) (x : Ent) : List Ent :=
  if x.1 = c then [(n, Event.tombstone), x] else [x]

section Precede
variable {evs : List Event} {c : Nat} {k : SyntaxKind}

theorem get_precede (h : evs[c]? = some (.start k none)) (q : Nat) :
    ((evs ++ [Event.tombstone]).set c (.start k (some (evs.length - c))))[q]? =
      if q = c then some (.start k (some (evs.length - c))) else (evs ++ [Event.tombstone])[q]? := by
  have hc := (List.getElem?_eq_some_iff.1 h).1
  exact get_set (x := .start k none) (by rw [List.getElem?_append_left hc, h]) q

theorem link_precede (h : evs[c]? = some (.start k none)) (q : Nat) :
    link ((evs ++ [Event.tombstone]).set c (.start k (some (evs.length - c)))) q =
      if q = c then some evs.length else link evs q := by
  have hc := (List.getElem?_eq_some_iff.1 h).1
  have hl := link_append evs Event.tombstone trivial q
  unfold link at hl ⊢
  rw [get_precede h]
  by_cases hq : q = c
  · subst hq; simp; omega
  · rw [if_neg hq, if_neg hq]; exact hl

theorem kindAt_precede (h : evs[c]? = some (.start k none)) {q : Nat} (hq : q < evs.length) :
    kindAt ((evs ++ [Event.tombstone]).set c (.start k (some (evs.length - c)))) q = kindAt evs q := by
  unfold kindAt
  rw [get_precede h]
  by_cases hqc : q = c
  · subst hqc; rw [if_pos rfl, h]
  · rw [if_neg hqc, List.getElem?_append_left hq]

theorem WF.precede (w : WF evs) (h : evs[c]? = some (.start k none)) (hk : k ≠ .tombstone) :
    WF ((evs ++ [Event.tombstone]).set c (.start k (some (evs.length - c)))) where
  tgt q p hl := by
    have hc := (List.getElem?_eq_some_iff.1 h).1
    rw [link_precede h] at hl
    rw [get_precede h]
    by_cases hq : q = c
    · rw [if_pos hq] at hl
      cases hl
      refine ⟨by omega, ?_⟩
      rw [if_neg (by omega)]
      exact ⟨.tombstone, none, by simp [Event.tombstone]⟩
    · rw [if_neg hq] at hl
      obtain ⟨h1, k', fp', h2⟩ := w.tgt q p hl
      refine ⟨h1, ?_⟩
      by_cases hp : p = c
      · rw [if_pos hp]; exact ⟨_, _, rfl⟩
      · rw [if_neg hp, List.getElem?_append_left (w.lt hl).2]; exact ⟨_, _, h2⟩
  inj q q' p hl hl' := by
    rw [link_precede h] at hl hl'
    split at hl <;> split at hl'
    · rename_i a b; exact a.trans b.symm
    · cases hl; have := (w.lt hl').2; omega
    · cases hl'; have := (w.lt hl).2; omega
    · exact w.inj q q' p hl hl'
  kd q p hl := by
    have hc := (List.getElem?_eq_some_iff.1 h).1
    rw [link_precede h] at hl
    by_cases hq : q = c
    · subst hq
      rw [kindAt_precede h hc]
      simpa [kindAt, h] using hk
    · rw [if_neg hq] at hl
      rw [kindAt_precede h (link_lt hl)]
      exact w.kd q p hl

theorem targeted_precede (h : evs[c]? = some (.start k none)) (p : Nat) :
    Targeted ((evs ++ [Event.tombstone]).set c (.start k (some (evs.length - c)))) p ↔
      p = evs.length ∨ Targeted evs p := by
  constructor
  · rintro ⟨q, hq⟩
    rw [link_precede h] at hq
    split at hq
    · cases hq; exact .inl rfl
    · exact .inr ⟨q, hq⟩
  · rintro (rfl | ⟨q, hq⟩)
    · exact ⟨c, by rw [link_precede h, if_pos rfl]⟩
    · refine ⟨q, ?_⟩
      rw [link_precede h, if_neg, hq]
      rintro rfl
      simp [link, h] at hq

theorem chain_precede (w : WF evs) (h : evs[c]? = some (.start k none)) (hk : k ≠ .tombstone)
    (p : Nat) (hp : p < evs.length) :
    (chain ((evs ++ [Event.tombstone]).set c (.start k (some (evs.length - c)))) p).reverse.map
        (fun q => ((q, .start (kindAt ((evs ++ [Event.tombstone]).set c
          (.start k (some (evs.length - c)))) q) none) : Ent)) =
      ((chain evs p).reverse.map (fun q => ((q, .start (kindAt evs q) none) : Ent))).flatMap
        (insertBefore c evs.length) := by
  have w' := w.precede h hk
  have hlc : link evs c = none := by simp [link, h]
  induction p using chain_ind w with
  | none p hl =>
    rw [chain_none hl]
    by_cases hpc : p = c
    · subst hpc
      have hl1 : link ((evs ++ [Event.tombstone]).set p (.start k (some (evs.length - p)))) p =
          some evs.length := by rw [link_precede h, if_pos rfl]
      have hl2 : link ((evs ++ [Event.tombstone]).set p (.start k (some (evs.length - p))))
          evs.length = none := by
        rw [link_precede h, if_neg (by omega)]
        cases e : link evs evs.length with
        | none => rfl
        | some x => have := link_lt e; omega
      rw [chain_some w' hl1, chain_none hl2]
      have hkn : kindAt ((evs ++ [Event.tombstone]).set p (.start k (some (evs.length - p))))
          evs.length = .tombstone := by
        unfold kindAt
        rw [get_precede h, if_neg (by omega)]
        simp [Event.tombstone]
      simp [insertBefore, hkn, kindAt_precede h hp]
      rfl
    · have hl1 : link ((evs ++ [Event.tombstone]).set c (.start k (some (evs.length - c)))) p =
          none := by rw [link_precede h, if_neg hpc, hl]
      rw [chain_none hl1]
      simp [insertBefore, hpc, kindAt_precede h hp]
  | some p q hl ih =>
    have hpc : p ≠ c := by rintro rfl; rw [hlc] at hl; cases hl
    have hl1 : link ((evs ++ [Event.tombstone]).set c (.start k (some (evs.length - c)))) p =
          some q := by rw [link_precede h, if_neg hpc, hl]
    rw [chain_some w' hl1, chain_some w hl]
    simp only [List.reverse_cons, List.map_append, List.flatMap_append]
    rw [ih (w.lt hl).2]
    simp [insertBefore, hpc, kindAt_precede h hp]

theorem logical_precede (w : WF evs) (h : evs[c]? = some (.start k none)) (hk : k ≠ .tombstone) :
    logical ((evs ++ [Event.tombstone]).set c (.start k (some (evs.length - c)))) =
      (logical evs).flatMap (insertBefore c evs.length) := by
  have hc := (List.getElem?_eq_some_iff.1 h).1
  unfold logical
  rw [List.length_set, List.length_append, List.length_singleton, List.range_succ,
    List.flatMap_append, List.flatMap_singleton]
  have hlast : entries ((evs ++ [Event.tombstone]).set c (.start k (some (evs.length - c))))
      evs.length = [] := by
    apply entries_targeted (k := .tombstone) (fp := none)
    · rw [get_precede h, if_neg (by omega)]; simp [Event.tombstone]
    · rw [targeted_precede h]; exact .inl rfl
  rw [hlast, List.append_nil, List.flatMap_assoc]
  simp only [List.flatMap_def (l := List.range evs.length)]
  congr 1
  apply List.map_congr_left
  intro i hi
  have hi : i < evs.length := by simpa using hi
  have hev : evs[i]? = some evs[i] := List.getElem?_eq_getElem hi
  have ht := targeted_precede h i
  by_cases hs : isStart evs[i] = false
  · have hic : i ≠ c := by
      rintro rfl
      rw [h] at hev
      simp only [Option.some.injEq] at hev
      rw [← hev] at hs; simp [isStart] at hs
    have hev' : ((evs ++ [Event.tombstone]).set c (.start k (some (evs.length - c))))[i]? =
        some evs[i] := by
      rw [get_precede h, if_neg hic, List.getElem?_append_left hi, hev]
    rw [entries_plain hev hs, entries_plain hev' hs]
    simp [insertBefore, hic]
  · cases hx : evs[i] with
    | start ki fpi =>
      rw [hx] at hev
      have hev' : ∃ k' fp', ((evs ++ [Event.tombstone]).set c
          (.start k (some (evs.length - c))))[i]? = some (.start k' fp') := by
        rw [get_precede h]
        by_cases hic : i = c
        · rw [if_pos hic]; exact ⟨_, _, rfl⟩
        · rw [if_neg hic, List.getElem?_append_left hi]; exact ⟨_, _, hev⟩
      obtain ⟨k', fp', hev'⟩ := hev'
      by_cases hT : Targeted evs i
      · rw [entries_targeted hev hT, entries_targeted hev' (ht.2 (.inr hT))]; rfl
      · rw [entries_start hev hT, entries_start hev' (fun h => (ht.1 h).elim (by omega) hT)]
        exact chain_precede w h hk i hi
    | _ => rw [hx] at hs; simp [isStart] at hs

end Precede

end Verif.Markers
