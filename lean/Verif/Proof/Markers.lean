import Verif.Spec.Markers

/-
The order in which `process` reports recorded events: every chain of forward links is reported at the
place of its first event, outermost node first.  `logical` is that order; `process_logical` proves that
`processEvents` follows it.
-/
namespace Verif.Markers

/-- Where the forward link of event `q` points. -/
def link (evs : List Event) (q : Nat) : Option Nat :=
  match evs[q]? with
  | some (.start _ (some d)) => some (q + d)
  | _ => none

def kindAt (evs : List Event) (p : Nat) : SyntaxKind :=
  match evs[p]? with
  | some (.start k _) => k
  | _ => .tombstone

/-- The events on the chain of links starting at `p`. -/
def chain (evs : List Event) (p : Nat) : List Nat :=
  p :: match link evs p with
    | some q => if p < q ∧ q < evs.length then chain evs q else []
    | none => []
termination_by evs.length - p

def Targeted (evs : List Event) (p : Nat) : Prop := ∃ q, link evs q = some p

def isStart : Event → Bool
  | .start .. => true
  | _ => false

structure WF (evs : List Event) : Prop where
  tgt : ∀ q p, link evs q = some p → q < p ∧ ∃ k fp, evs[p]? = some (.start k fp)
  inj : ∀ q q' p, link evs q = some p → link evs q' = some p → q = q'
  kd : ∀ q p, link evs q = some p → kindAt evs q ≠ .tombstone

theorem WF.lt {evs : List Event} (h : WF evs) {q p : Nat} (hl : link evs q = some p) :
    q < p ∧ p < evs.length := by
  obtain ⟨h1, k, fp, h2⟩ := h.tgt q p hl
  exact ⟨h1, (List.getElem?_eq_some_iff.1 h2).1⟩

theorem chain_none {evs : List Event} {p : Nat} (h : link evs p = none) : chain evs p = [p] := by
  rw [chain, h]

theorem chain_some {evs : List Event} (w : WF evs) {p q : Nat} (h : link evs p = some q) :
    chain evs p = p :: chain evs q := by
  rw [chain, h]; simp [w.lt h]

/-- Induction along the chains. -/
theorem chain_ind {evs : List Event} (w : WF evs) {P : Nat → Prop}
    (none : ∀ p, link evs p = none → P p)
    (some : ∀ p q, link evs p = some q → P q → P p) : ∀ p, P p := by
  have key : ∀ n p, evs.length - p ≤ n → P p := by
    intro n
    induction n with
    | zero =>
      intro p hp
      cases e : link evs p with
      | none => exact none p e
      | some q => have := w.lt e; omega
    | succ n ih =>
      intro p hp
      cases e : link evs p with
      | none => exact none p e
      | some q => have := w.lt e; exact some p q e (ih q (by omega))
  exact fun p => key _ p (Nat.le_refl _)

theorem mem_chain_le {evs : List Event} (w : WF evs) (p : Nat) : ∀ x ∈ chain evs p, p ≤ x := by
  induction p using chain_ind w with
  | none p h => rw [chain_none h]; simp
  | some p q h ih =>
    rw [chain_some w h]
    intro x hx
    rcases List.mem_cons.1 hx with rfl | hx
    · exact Nat.le_refl _
    · have := ih x hx; have := w.lt h; omega

theorem self_mem_chain (evs : List Event) (p : Nat) : p ∈ chain evs p := by
  rw [chain]; simp

theorem chain_pred {evs : List Event} (w : WF evs) (p : Nat) :
    ∀ x ∈ chain evs p, x = p ∨ ∃ y ∈ chain evs p, link evs y = some x := by
  induction p using chain_ind w with
  | none p h => rw [chain_none h]; simp
  | some p q h ih =>
    rw [chain_some w h]
    intro x hx
    rcases List.mem_cons.1 hx with rfl | hx
    · exact .inl rfl
    · right
      rcases ih x hx with rfl | ⟨y, hy, hl⟩
      · exact ⟨p, by simp, h⟩
      · exact ⟨y, by simp [hy], hl⟩

theorem chain_succ {evs : List Event} (w : WF evs) (p : Nat) :
    ∀ x ∈ chain evs p, ∀ y, link evs x = some y → y ∈ chain evs p := by
  induction p using chain_ind w with
  | none p h =>
    rw [chain_none h]
    intro x hx y hy
    simp at hx; subst hx; simp [h] at hy
  | some p q h ih =>
    rw [chain_some w h]
    intro x hx y hy
    rcases List.mem_cons.1 hx with rfl | hx
    · rw [h] at hy; cases hy; simp [self_mem_chain]
    · simp [ih x hx y hy]

/-- A recorded event with its index. -/
abbrev Ent := Nat × Event

/-- An event, or — at its first event — the chain of starts of nodes begun here, outermost first. -/
noncomputable def entries (evs : List Event) (i : Nat) : List Ent :=
  match evs[i]? with
  | some (.start ..) =>
    open Classical in
    if Targeted evs i then []
    else (chain evs i).reverse.map fun p => (p, .start (kindAt evs p) none)
  | some e => [(i, e)]
  | none => []

noncomputable def logical (evs : List Event) : List Ent :=
  (List.range evs.length).flatMap (entries evs)

def callOf : Event → List SinkCall
  | .start k _ => if k = .tombstone then [] else [.startNode k]
  | .finish => [.finishNode]
  | .startError => [.startErrorNode]
  | .finishError e => [.finishErrorNode e]
  | .token => [.token]
  | .error e => [.error e]

/-! ### `processEvents` follows the logical order -/

open Classical in
/-- The events with those in `V` replaced by tombstones. -/
noncomputable def erase (V : Nat → Prop) (evs : List Event) : List Event :=
  evs.mapIdx fun j e => if V j then Event.tombstone else e

theorem erase_get (V : Nat → Prop) (evs : List Event) (j : Nat) :
    (erase V evs)[j]? = evs[j]?.map fun e =>
      open Classical in if V j then Event.tombstone else e := by
  simp [erase]

@[simp] theorem erase_length (V : Nat → Prop) (evs : List Event) :
    (erase V evs).length = evs.length := by simp [erase]

theorem erase_set (V : Nat → Prop) (evs : List Event) (i q : Nat) (h : i < q) :
    ((erase V evs).drop (i + 1)).set (q - i - 1) Event.tombstone =
      (erase (fun j => V j ∨ j = q) evs).drop (i + 1) := by
  apply List.ext_getElem?
  intro j
  rw [List.getElem?_set]
  simp only [List.getElem?_drop, List.length_drop, erase_length, erase_get]
  by_cases hj : q - i - 1 = j
  · subst hj
    have e : i + 1 + (q - i - 1) = q := by omega
    rw [e]
    simp only [if_true]
    by_cases hq : q < evs.length
    · have : q - i - 1 < evs.length - (i + 1) := by omega
      simp [this, hq]
    · have : ¬ q - i - 1 < evs.length - (i + 1) := by omega
      simp [this, hq]
  · have : ¬ i + 1 + j = q := by omega
    rw [if_neg hj]
    by_cases hv : V (i + 1 + j)
    · simp [hv]
    · simp [hv, this]

theorem erase_congr {V W : Nat → Prop} (evs : List Event) (h : ∀ j, V j ↔ W j) :
    erase V evs = erase W evs := by
  have : V = W := funext fun j => propext (h j)
  rw [this]

theorem walk {evs : List Event} (w : WF evs) (i : Nat) (p : Nat) :
    ∀ (V : Nat → Prop) (N : Nat) (acc : List SyntaxKind), i ≤ p →
      (∀ x ∈ chain evs p, x ≠ p → ¬ V x) → evs.length - p ≤ N →
      walkParents N (p - i) ((link evs p).map (· - p)) ((erase V evs).drop (i + 1)) acc =
        .ok (acc ++ ((chain evs p).tail.map (kindAt evs)).filter (· ≠ .tombstone),
          (erase (fun j => V j ∨ j ∈ (chain evs p).tail) evs).drop (i + 1)) := by
  induction p using chain_ind w with
  | none p h =>
    intro V N acc _ _ _
    rw [chain_none h, h]
    have : erase (fun j => V j ∨ j ∈ ([p] : List Nat).tail) evs = erase V evs :=
      erase_congr _ (by simp)
    rw [this]
    cases N <;> simp [walkParents]
  | some p q h ih =>
    intro V N acc hip hV hN
    have hlt := w.lt h
    obtain ⟨hpq, k, fp, hq⟩ := w.tgt p q h
    cases N with
    | zero => omega
    | succ N =>
      rw [h, chain_some w h]
      simp only [Option.map_some, walkParents, List.tail_cons]
      have e1 : p - i + (q - p) = q - i := by omega
      rw [e1, if_neg (by omega)]
      have hnV : ¬ V q := hV q (by rw [chain_some w h]; simp [self_mem_chain]) (by omega)
      have hget : ((erase V evs).drop (i + 1))[q - i - 1]? = some (.start k fp) := by
        rw [List.getElem?_drop, show i + 1 + (q - i - 1) = q by omega, erase_get, hq]
        simp [hnV]
      rw [hget]
      simp only
      rw [erase_set V evs i q (by omega)]
      have hfp : fp = (link evs q).map (· - q) := by
        simp only [link, hq]
        cases fp with
        | none => rfl
        | some d => simp
      rw [hfp]
      have hk : kindAt evs q = k := by simp [kindAt, hq]
      rw [ih (fun j => V j ∨ j = q) N _ (by omega) ?_ (by omega)]
      · have hc : chain evs q = q :: (chain evs q).tail := by rw [chain]; rfl
        have : erase (fun j => (V j ∨ j = q) ∨ j ∈ (chain evs q).tail) evs =
            erase (fun j => V j ∨ j ∈ chain evs q) evs :=
          erase_congr _ (by intro j; rw [hc]; simp [or_assoc])
        rw [this]
        congr 2
        rw [hc, List.map_cons, hk]
        by_cases hkt : k = .tombstone
        · simp [hkt]
        · simp [hkt]
      · intro x hx hne
        have h1 := hV x (by rw [chain_some w h]; simp [hx])
          (by have := mem_chain_le w q x hx; omega)
        simp [h1, hne]

theorem callOf_kinds (evs : List Event) (l : List Nat) :
    (l.map fun p => (p, Event.start (kindAt evs p) none)).flatMap (fun e => callOf e.2) =
      ((l.map (kindAt evs)).filter (· ≠ .tombstone)).map .startNode := by
  induction l with
  | nil => rfl
  | cons x xs ih =>
    rw [List.map_cons, List.flatMap_cons, ih]
    by_cases h : kindAt evs x = .tombstone <;> simp [h, callOf]

theorem process_from {evs : List Event} (w : WF evs) : ∀ (n i : Nat) (V : Nat → Prop),
    evs.length - i = n → i ≤ evs.length →
    (∀ p, i ≤ p → (V p ↔ ∃ q, link evs q = some p ∧ (q < i ∨ V q))) →
    processEvents ((erase V evs).drop i) =
      .ok (((List.range' i n).flatMap (entries evs)).flatMap fun e => callOf e.2) := by
  intro n
  induction n with
  | zero =>
    intro i V hn hi _
    have : (erase V evs).drop i = [] := by
      apply List.drop_eq_nil_of_le; simp; omega
    rw [this]; rw [processEvents]; simp
  | succ n ih =>
    intro i V hn hi hV
    have hlt : i < evs.length := by omega
    have hd : (erase V evs).drop i =
        (erase V evs)[i]'(by simpa using hlt) :: (erase V evs).drop (i + 1) :=
      List.drop_eq_getElem_cons (by simpa using hlt)
    have hget : (erase V evs)[i]? = evs[i]?.map fun e =>
      open Classical in if V i then Event.tombstone else e := erase_get V evs i
    have hVi : V i ↔ Targeted evs i := by
      rw [hV i (Nat.le_refl _)]
      constructor
      · rintro ⟨q, h, _⟩; exact ⟨q, h⟩
      · rintro ⟨q, h⟩; exact ⟨q, h, .inl (w.lt h).1⟩
    -- `V` also works from `i + 1` on if event `i` starts no chain
    have keep : (V i ∨ link evs i = none) →
        processEvents ((erase V evs).drop (i + 1)) =
          .ok (((List.range' (i + 1) n).flatMap (entries evs)).flatMap fun e => callOf e.2) := by
      intro hc
      apply ih (i + 1) V (by omega) (by omega)
      intro p hp
      rw [hV p (by omega)]
      constructor
      · rintro ⟨q, h, h1⟩
        exact ⟨q, h, h1.imp (by omega) id⟩
      · rintro ⟨q, h, h1⟩
        refine ⟨q, h, ?_⟩
        rcases h1 with h1 | h1
        · by_cases hqi : q = i
          · subst hqi
            rcases hc with hc | hc
            · exact .inr hc
            · simp [hc] at h
          · exact .inl (by omega)
        · exact .inr h1
    rw [List.getElem?_eq_getElem hlt, List.getElem?_eq_getElem (by simpa using hlt)] at hget
    simp only [Option.map_some, Option.some.injEq] at hget
    rw [hd, hget]
    rw [List.range'_succ, List.flatMap_cons, List.flatMap_append]
    have hev : evs[i]? = some evs[i] := List.getElem?_eq_getElem hlt
    -- events that are no starts
    have plain : ∀ (c : SinkCall) (e : Event), evs[i] = e → isStart e = false →
        callOf e = [c] →
        (∀ rest, processEvents (e :: rest) = (processEvents rest).map (c :: ·)) →
        processEvents ((open Classical in if V i then Event.tombstone else evs[i]) ::
          (erase V evs).drop (i + 1)) =
        .ok ((entries evs i).flatMap (fun e => callOf e.2) ++
          ((List.range' (i + 1) n).flatMap (entries evs)).flatMap fun e => callOf e.2) := by
      intro c e he hs hcall hp
      have hnt : ¬ Targeted evs i := by
        rintro ⟨q, hq⟩
        obtain ⟨_, k, fp, h2⟩ := w.tgt q i hq
        rw [hev, he] at h2
        cases h2
        simp [isStart] at hs
      have hl : link evs i = none := by
        unfold link; rw [hev, he]
        cases e <;> simp_all [isStart]
      rw [if_neg (by rw [hVi]; exact hnt), he, hp, keep (.inr hl)]
      have : entries evs i = [(i, e)] := by
        unfold entries; rw [hev, he]
        cases e <;> simp_all [isStart]
      rw [this]
      simp [Except.map, hcall]
    cases he : evs[i] with
    | token => rw [← he]; exact plain .token .token he rfl rfl (fun rest => by rw [processEvents])
    | finish => rw [← he]; exact plain .finishNode .finish he rfl rfl (fun rest => by rw [processEvents])
    | error e => rw [← he]; exact plain (.error e) (.error e) he rfl rfl (fun rest => by rw [processEvents])
    | startError =>
      rw [← he]; exact plain .startErrorNode .startError he rfl rfl (fun rest => by rw [processEvents])
    | finishError e =>
      rw [← he]; exact plain (.finishErrorNode e) (.finishError e) he rfl rfl (fun rest => by rw [processEvents])
    | start k fp =>
      have hk : kindAt evs i = k := by simp [kindAt, hev, he]
      by_cases hT : Targeted evs i
      · rw [if_pos (hVi.2 hT)]
        have : entries evs i = [] := by
          unfold entries; rw [hev, he]; simp [hT]
        rw [this, Event.tombstone, processEvents]
        simp [keep (.inl (hVi.2 hT))]
      · rw [if_neg (by rw [hVi]; exact hT)]
        have hent : entries evs i =
            (chain evs i).reverse.map fun p => (p, .start (kindAt evs p) none) := by
          unfold entries; rw [hev, he]; simp [hT]
        rw [hent, callOf_kinds]
        have hcc : chain evs i = i :: (chain evs i).tail := by rw [chain]; rfl
        by_cases hkt : k = .tombstone
        · have hl : link evs i = none := by
            cases hl : link evs i with
            | none => rfl
            | some q => exact absurd (hk.trans hkt) (w.kd i q hl)
          rw [processEvents, if_pos hkt, keep (.inr hl), chain_none hl]
          simp [hk, hkt]
        · rw [processEvents, if_neg hkt]
          have hfp : fp = (link evs i).map (· - i) := by
            simp only [link, hev, he]
            cases fp with
            | none => rfl
            | some d => simp
          -- elements of the chain are still in place
          have hfree : ∀ x ∈ chain evs i, ¬ V x := by
            intro x
            have hb : ∀ m x, x ≤ m → x ∈ chain evs i → ¬ V x := by
              intro m
              induction m with
              | zero =>
                intro x hx hm
                have := mem_chain_le w i x hm
                have : x = i := by omega
                subst this; rw [hVi]; exact hT
              | succ m ihm =>
                intro x hx hm hVx
                rcases chain_pred w i x hm with rfl | ⟨y, hy, hl⟩
                · exact hT (hVi.1 hVx)
                · obtain ⟨q, h1, h2⟩ := (hV x (mem_chain_le w i x hm)).1 hVx
                  have := w.inj q y x h1 hl
                  subst this
                  have hle := mem_chain_le w i q hy
                  rcases h2 with h2 | h2
                  · omega
                  · exact ihm q (by have := (w.lt hl).1; omega) hy h2
            exact hb x x (Nat.le_refl _)
          have hw := walk w i i V ((erase V evs).drop (i + 1)).length.succ [k] (Nat.le_refl _)
            (fun x hx _ => hfree x hx) (by simp; omega)
          rw [Nat.sub_self, ← hfp] at hw
          split
          · rename_i e h1
            simp only [Nat.succ_eq_add_one] at hw
            rw [hw] at h1; cases h1
          · rename_i kinds rest' h1
            simp only [Nat.succ_eq_add_one] at hw
            rw [hw] at h1
            simp only [Except.ok.injEq, Prod.mk.injEq] at h1
            obtain ⟨rfl, rfl⟩ := h1
            have hrest := ih (i + 1) (fun j => V j ∨ j ∈ (chain evs i).tail) (by omega) (by omega) (by
              intro p hp
              constructor
              · rintro (h | h)
                · obtain ⟨q, h1, h2⟩ := (hV p (by omega)).1 h
                  exact ⟨q, h1, h2.imp (by omega) .inl⟩
                · have hm : p ∈ chain evs i := by rw [hcc]; simp [h]
                  rcases chain_pred w i p hm with h0 | ⟨y, hy, hl⟩
                  · omega
                  · refine ⟨y, hl, ?_⟩
                    rw [hcc] at hy
                    rcases List.mem_cons.1 hy with rfl | hy
                    · exact .inl (by omega)
                    · exact .inr (.inr hy)
              · rintro ⟨q, h1, h2⟩
                have inTail : q ∈ chain evs i → p ∈ (chain evs i).tail := by
                  intro hq
                  have := chain_succ w i q hq p h1
                  rw [hcc] at this
                  rcases List.mem_cons.1 this with h0 | h0
                  · omega
                  · exact h0
                rcases h2 with h2 | h2 | h2
                · by_cases hqi : q = i
                  · subst hqi; exact .inr (inTail (self_mem_chain _ _))
                  · exact .inl ((hV p (by omega)).2 ⟨q, h1, .inl (by omega)⟩)
                · exact .inl ((hV p (by omega)).2 ⟨q, h1, .inr h2⟩)
                · exact .inr (inTail (by rw [hcc]; simp [h2])))
            rw [hrest]
            simp only
            congr 1
            have : (chain evs i).map (kindAt evs) = k :: (chain evs i).tail.map (kindAt evs) := by
              rw [hcc, List.map_cons, hk]; rfl
            rw [List.map_reverse (f := kindAt evs), this, List.filter_reverse]
            simp [hkt]

/-- `processEvents` reports the events in the logical order. -/
theorem process_logical {evs : List Event} (w : WF evs) :
    processEvents evs = .ok ((logical evs).flatMap fun e => callOf e.2) := by
  have h := process_from w evs.length 0 (fun _ => False) (by omega) (by omega) (by
    intro p _; simp)
  have he : erase (fun _ => False) evs = evs := by
    apply List.ext_getElem?; intro j; rw [erase_get]; simp
  rw [he, List.drop_zero] at h
  rw [h, logical, List.range_eq_range']

end Verif.Markers
