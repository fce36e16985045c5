import Verif.Proof.CompletionLog
import Verif.Proof.TreeContext
import Verif.Proof.ValidationProof
import Verif.Proof.WalkProof

/-
Nodes and errors of a tree in terms of the completed pieces.
-/
namespace Verif
open PTree

/-- the tokens left after `i` tokens that are not white space or comments -/
def dropReal : Nat → List Lx → List Lx
  | 0, ls => ls
  | i + 1, ls => (afterTriv (dropReal i ls)).tail

/-- the same, without the white space and comments in front unless `f` -/
def atL (lexs : List Lx) (i : Nat) (f : Bool) : List Lx :=
  if f then dropReal i lexs else afterTriv (dropReal i lexs)

theorem afterTriv_atL (lexs i f) : afterTriv (atL lexs i f) = atL lexs i false := by
  unfold atL
  cases f <;> simp [(afterTriv_idem _).1]

theorem atL_succ (lexs i f) : (afterTriv (atL lexs i f)).tail = atL lexs (i + 1) true := by
  rw [afterTriv_atL]; simp [atL, dropReal]

mutual
theorem place_atL (n : Nat) (lexs : List Lx) (t : PTree) (i : Nat) (f : Bool) :
    (place n t (atL lexs i f)).rest = atL lexs (i + (yield t).length) (fr f t) := by
  cases t with
  | tok k =>
    have : (place n (.tok k) (atL lexs i f)).rest = (afterTriv (atL lexs i f)).tail := by
      simp only [place]
      cases afterTriv (atL lexs i f) <;> rfl
    rw [this, atL_succ]
    simp [yield, fr]
  | err e => simp [place, yield, fr]
  | errNode cs e => simp only [place, afterTriv_atL, placeL_atL n lexs cs i false, yield, fr]
  | node k cs => simp only [place, afterTriv_atL, placeL_atL n lexs cs i false, yield, fr]
theorem placeL_atL (n : Nat) (lexs : List Lx) (ts : List PTree) (i : Nat) (f : Bool) :
    (placeL n ts (atL lexs i f)).rest = atL lexs (i + (yieldL ts).length) (frL f ts) := by
  cases ts with
  | nil => simp [placeL, yieldL, frL]
  | cons t ts =>
    simp only [placeL, place_atL n lexs t i f, placeL_atL n lexs ts _ _, yieldL, frL, List.length_append, Nat.add_assoc]
end

/-! ### errors -/

def errOf (n : Nat) (lexs : List Lx) (d : Done) : Option SyntaxError :=
  match d.tree with
  | .err e => some ⟨e.display, Range.empty (n - wlen (atL lexs d.start d.fresh))⟩
  | .errNode cs e => some ⟨e.display, ⟨n - wlen (atL lexs d.start false), n - wlen (atL lexs d.stop (frL false cs))⟩⟩
  | _ => none

mutual
theorem place_errOf (n : Nat) (lexs : List Lx) (t : PTree) (i : Nat) (f : Bool) :
    (place n t (atL lexs i f)).errs = (log i f t).filterMap (errOf n lexs) := by
  cases t with
  | tok k =>
    simp only [place]
    cases afterTriv (atL lexs i f) <;> simp [log, errOf]
  | err e => simp [place, log, errOf]
  | errNode cs e =>
    simp only [place, afterTriv_atL, placeL_errOf n lexs cs i false, log, List.filterMap_append, placeL_atL]
    simp [errOf]
  | node k cs =>
    simp only [place, afterTriv_atL, placeL_errOf n lexs cs i false, log, List.filterMap_append]
    simp [errOf]
theorem placeL_errOf (n : Nat) (lexs : List Lx) (ts : List PTree) (i : Nat) (f : Bool) :
    (placeL n ts (atL lexs i f)).errs = (logL i f ts).filterMap (errOf n lexs) := by
  cases ts with
  | nil => simp [placeL, logL]
  | cons t ts =>
    simp only [placeL, place_errOf n lexs t i f, place_atL, placeL_errOf n lexs ts _ _, logL, List.filterMap_append]
end

/-! ### nodes -/

mutual
/-- the nodes of a tree with their offsets -/
def Green.nodesAt (off : Nat) : Green → List (Nat × Green)
  | .token _ _ => []
  | .node k cs => Green.nodesAtL off cs ++ [(off, .node k cs)]
def Green.nodesAtL (off : Nat) : List Green → List (Nat × Green)
  | [] => []
  | g :: gs => Green.nodesAt off g ++ Green.nodesAtL (off + wlen g.leaves) gs
end

theorem nodesAtL_append (off : Nat) (a b : List Green) :
    Green.nodesAtL off (a ++ b) = Green.nodesAtL off a ++ Green.nodesAtL (off + wlen (Green.leavesL a)) b := by
  induction a generalizing off with
  | nil => simp [Green.nodesAtL, Green.leavesL]
  | cons g gs ih => simp [Green.nodesAtL, Green.leavesL, ih, Nat.add_assoc]

theorem nodesAtL_leaves (off : Nat) (ls : List Lx) : Green.nodesAtL off (ls.map leaf) = [] := by
  induction ls generalizing off with
  | nil => rfl
  | cons l ls ih => simp [Green.nodesAtL, Green.nodesAt, leaf, ih]

theorem nodesAtL_lead (off : Nat) (ls : List Lx) : Green.nodesAtL off (lead ls) = [] := nodesAtL_leaves _ _

def nodeOf' (n : Nat) (lexs : List Lx) (d : Done) : Option (Nat × Green) :=
  match d.tree with
  | .node k cs => some (wlen lexs - wlen (atL lexs d.start false), .node k (placeL n cs (atL lexs d.start false)).greens)
  | .errNode cs _ =>
    some (wlen lexs - wlen (atL lexs d.start false), .node .error (placeL n cs (atL lexs d.start false)).greens)
  | _ => none

theorem suffix_dropReal (i : Nat) (ls : List Lx) : dropReal i ls <:+ ls := by
  induction i with
  | zero => exact List.suffix_refl _
  | succ i ih => exact (List.tail_suffix _).trans ((suffix_afterTriv _).trans ih)

theorem suffix_atL (lexs i f) : atL lexs i f <:+ lexs := by
  unfold atL
  split
  · exact suffix_dropReal _ _
  · exact (suffix_afterTriv _).trans (suffix_dropReal _ _)

theorem wlen_suffix {a b : List Lx} (h : a <:+ b) : wlen a ≤ wlen b := by
  obtain ⟨p, rfl⟩ := h; simp

theorem lead_wlen (ls : List Lx) : wlen (Green.leavesL (lead ls)) + wlen (afterTriv ls) = wlen ls := by
  have := congrArg wlen (lead_leaves ls)
  simpa using this

mutual
theorem place_nodes (n : Nat) (lexs : List Lx) (t : PTree) (i : Nat) (f : Bool) :
    Green.nodesAtL (wlen lexs - wlen (atL lexs i f)) (place n t (atL lexs i f)).greens =
      (log i f t).filterMap (nodeOf' n lexs) := by
  have hs := wlen_suffix (suffix_atL lexs i f)
  have hl := lead_wlen (atL lexs i f)
  rw [afterTriv_atL] at hl
  have ho : wlen lexs - wlen (atL lexs i f) + wlen (Green.leavesL (lead (atL lexs i f))) =
      wlen lexs - wlen (atL lexs i false) := by omega
  cases t with
  | tok k =>
    simp only [place]
    cases afterTriv (atL lexs i f) with
    | nil => simp [nodesAtL_lead, log, nodeOf']
    | cons l r => simp [nodesAtL_append, nodesAtL_lead, log, nodeOf', Green.nodesAtL, leaf, Green.nodesAt]
  | err e => simp [place, log, nodeOf', Green.nodesAtL]
  | errNode cs e =>
    have ih := placeL_nodes n lexs cs i false
    simp only [place, afterTriv_atL, nodesAtL_append, nodesAtL_lead, ho, log, List.filterMap_append, List.nil_append,
      Green.nodesAtL, Green.nodesAt, ih, List.append_nil]
    simp [nodeOf']
  | node k cs =>
    have ih := placeL_nodes n lexs cs i false
    simp only [place, afterTriv_atL, nodesAtL_append, nodesAtL_lead, ho, log, List.filterMap_append, List.nil_append,
      Green.nodesAtL, Green.nodesAt, ih, List.append_nil]
    simp [nodeOf']
theorem placeL_nodes (n : Nat) (lexs : List Lx) (ts : List PTree) (i : Nat) (f : Bool) :
    Green.nodesAtL (wlen lexs - wlen (atL lexs i f)) (placeL n ts (atL lexs i f)).greens =
      (logL i f ts).filterMap (nodeOf' n lexs) := by
  cases ts with
  | nil => simp [placeL, logL, Green.nodesAtL]
  | cons t ts =>
    have hs := wlen_suffix (suffix_atL lexs i f)
    have h1 := place_nodes n lexs t i f
    have h2 := placeL_nodes n lexs ts (i + (yield t).length) (fr f t)
    have h3 := congrArg wlen (place_leaves n t (atL lexs i f))
    rw [place_atL] at h3
    simp only [wlen_append] at h3
    have ho : wlen lexs - wlen (atL lexs i f) + wlen (Green.leavesL (place n t (atL lexs i f)).greens) =
      wlen lexs - wlen (atL lexs (i + (yield t).length) (fr f t)) := by omega
    simp only [placeL, place_atL, nodesAtL_append, ho, h1, h2, logL, List.filterMap_append]
end

/-! ### two texts with the same tokens in front -/

theorem realKinds_append (a b : List Lx) : realKinds (a ++ b) = realKinds a ++ realKinds b := by simp [realKinds]

theorem realKinds_tail {ls l r} (h : afterTriv ls = l :: r) : (realKinds ls).length = (realKinds r).length + 1 := by
  rw [← realKinds_afterTriv, h]
  simp [realKinds, afterTriv_head h]

theorem afterTriv_append {x : List Lx} (m : List Lx) (h : 0 < (realKinds x).length) :
    afterTriv (x ++ m) = afterTriv x ++ m := by
  induction x with
  | nil => simp [realKinds] at h
  | cons l ls ih =>
    by_cases ht : isTriv l = true
    · have := ih (by simpa [realKinds, ht] using h)
      simpa [afterTriv, ht] using this
    · simp [afterTriv, ht]

theorem lead_front {x : List Lx} (m : List Lx) (h : 0 < (realKinds x).length) : lead (x ++ m) = lead x := by
  induction x with
  | nil => simp [realKinds] at h
  | cons l ls ih =>
    by_cases ht : isTriv l = true
    · have := ih (by simpa [realKinds, ht] using h)
      simpa [lead, ht] using this
    · simp [lead, ht]

theorem dropReal_count (i : Nat) (ls : List Lx) : (realKinds (dropReal i ls)).length = (realKinds ls).length - i := by
  induction i with
  | zero => rfl
  | succ i ih =>
    simp only [dropReal]
    cases h : afterTriv (dropReal i ls) with
    | nil =>
      have := congrArg realKinds h
      rw [realKinds_afterTriv] at this
      rw [this] at ih
      simp [realKinds] at ih ⊢
      omega
    | cons l r =>
      have := realKinds_tail h
      simp; omega

theorem dropReal_append (m : List Lx) : ∀ {i : Nat} {ls : List Lx}, i ≤ (realKinds ls).length →
    dropReal i (ls ++ m) = dropReal i ls ++ m
  | 0, _, _ => rfl
  | i + 1, ls, h => by
    have hc := dropReal_count i ls
    simp only [dropReal]
    rw [dropReal_append m (by omega), afterTriv_append m (by omega)]
    cases h' : afterTriv (dropReal i ls) with
    | nil =>
      have := congrArg realKinds h'
      rw [realKinds_afterTriv] at this
      rw [this] at hc
      simp [realKinds] at hc
      simp [realKinds] at h
      omega
    | cons l r => simp

theorem atL_append {ls : List Lx} (m : List Lx) {i : Nat} (f : Bool) (h : i < (realKinds ls).length) :
    atL (ls ++ m) i f = atL ls i f ++ m := by
  have hc := dropReal_count i ls
  unfold atL
  rw [dropReal_append m (by omega), afterTriv_append m (by omega)]
  split <;> rfl

theorem atL_count (ls : List Lx) (i : Nat) (f : Bool) : (realKinds (atL ls i f)).length = (realKinds ls).length - i := by
  unfold atL
  split
  · exact dropReal_count _ _
  · rw [realKinds_afterTriv]; exact dropReal_count _ _

mutual
theorem place_append (n n' : Nat) (m : List Lx) (t : PTree) (x : List Lx) (h : (yield t).length < (realKinds x).length) :
    (place n t (x ++ m)).greens = (place n' t x).greens ∧ (place n t (x ++ m)).rest = (place n' t x).rest ++ m ∧
      (realKinds (place n' t x).rest).length + (yield t).length = (realKinds x).length := by
  have h0 : 0 < (realKinds x).length := by omega
  have hk : (realKinds (afterTriv x)).length = (realKinds x).length := by rw [realKinds_afterTriv]
  cases t with
  | tok k =>
    simp only [place, afterTriv_append m h0, lead_front m h0]
    cases e : afterTriv x with
    | nil =>
      rw [e] at hk
      rw [← hk] at h0
      exact absurd h0 (by simp [realKinds])
    | cons l r =>
      have := realKinds_tail e
      simp [yield]; omega
  | err e => simp [place, yield]
  | errNode cs e =>
    obtain ⟨a, b, c⟩ := placeL_append n n' m cs (afterTriv x) (by rw [hk]; simpa [yield] using h)
    simp only [place, afterTriv_append m h0, lead_front m h0, a, b, true_and]
    rw [hk] at c
    simpa [yield] using c
  | node k cs =>
    obtain ⟨a, b, c⟩ := placeL_append n n' m cs (afterTriv x) (by rw [hk]; simpa [yield] using h)
    simp only [place, afterTriv_append m h0, lead_front m h0, a, b, true_and]
    rw [hk] at c
    simpa [yield] using c
theorem placeL_append (n n' : Nat) (m : List Lx) (ts : List PTree) (x : List Lx)
    (h : (yieldL ts).length < (realKinds x).length) :
    (placeL n ts (x ++ m)).greens = (placeL n' ts x).greens ∧ (placeL n ts (x ++ m)).rest = (placeL n' ts x).rest ++ m ∧
      (realKinds (placeL n' ts x).rest).length + (yieldL ts).length = (realKinds x).length := by
  cases ts with
  | nil => simp [placeL, yieldL]
  | cons t ts =>
    simp only [yieldL, List.length_append] at h
    obtain ⟨a, b, c⟩ := place_append n n' m t x (by omega)
    obtain ⟨a', b', c'⟩ := placeL_append n n' m ts (place n' t x).rest (by omega)
    simp only [placeL, a, b, a', b', yieldL, List.length_append]
    exact ⟨trivial, trivial, by omega⟩
end

mutual
theorem log_shape (i : Nat) (f : Bool) (t : PTree) : ∀ d ∈ log i f t, i ≤ d.start ∧
    d.stop = d.start + (yield d.tree).length := by
  cases t with
  | tok k => simp [log, yield]
  | err e => simp [log, yield]
  | errNode cs e =>
    intro d hd
    simp only [log, List.mem_append, List.mem_singleton] at hd
    rcases hd with hd | rfl
    · exact logL_shape i false cs d hd
    · simp [yield]
  | node k cs =>
    intro d hd
    simp only [log, List.mem_append, List.mem_singleton] at hd
    rcases hd with hd | rfl
    · exact logL_shape i false cs d hd
    · simp [yield]
theorem logL_shape (i : Nat) (f : Bool) (ts : List PTree) : ∀ d ∈ logL i f ts, i ≤ d.start ∧
    d.stop = d.start + (yield d.tree).length := by
  cases ts with
  | nil => simp [logL]
  | cons t ts =>
    intro d hd
    simp only [logL, List.mem_append] at hd
    rcases hd with hd | hd
    · exact log_shape i f t d hd
    · obtain ⟨a, b⟩ := logL_shape _ _ ts d hd
      exact ⟨by omega, b⟩
end

theorem offset_append {lc : List Lx} (m : List Lx) {i : Nat} (f : Bool) (h : i < (realKinds lc).length) :
    wlen (lc ++ m) - wlen (atL (lc ++ m) i f) = wlen lc - wlen (atL lc i f) := by
  rw [atL_append m f h]
  simp
  omega

theorem errOf_append {lc : List Lx} (m : List Lx) {d : Done} (h : d.stop < (realKinds lc).length)
    (hd : d.start ≤ d.stop) : errOf (wlen (lc ++ m)) (lc ++ m) d = errOf (wlen lc) lc d := by
  unfold errOf
  split
  · rw [offset_append m _ (by omega)]
  · rw [offset_append m _ (by omega), offset_append m _ h]
  · rfl

theorem nodeOf_append {lc : List Lx} (n n' : Nat) (m : List Lx) {d : Done} (h : d.stop < (realKinds lc).length)
    (hd : d.stop = d.start + (yield d.tree).length) : nodeOf' n (lc ++ m) d = nodeOf' n' lc d := by
  unfold nodeOf'
  split
  · rename_i k cs e
    rw [e] at hd
    have hc := atL_count lc d.start false
    simp only [yield] at hd
    rw [offset_append m _ (by omega), atL_append m _ (by omega), (placeL_append n n' m cs _ (by omega)).1]
  · rename_i cs k e
    rw [e] at hd
    have hc := atL_count lc d.start false
    simp only [yield] at hd
    rw [offset_append m _ (by omega), atL_append m _ (by omega), (placeL_append n n' m cs _ (by omega)).1]
  · rfl

/-! ### where pieces end -/

/-- The pieces that end before a token are the ones that end where it starts or earlier. -/
theorem offset_le {la lb : List Lx} {x : Lx} (hx : isTriv x = false) (hw : 0 < x.2.len) (i : Nat) (f : Bool)
    (hi : i ≤ (realKinds (la ++ x :: lb)).length) :
    wlen (la ++ x :: lb) - wlen (atL (la ++ x :: lb) i f) ≤ wlen la ↔ i ≤ (realKinds la).length := by
  have hcx : realKinds (x :: lb) = x.1 :: realKinds lb := by simp [realKinds, hx]
  constructor
  · intro h
    refine Classical.byContradiction fun hn => ?_
    have hc := atL_count (la ++ x :: lb) i f
    have hsub : atL (la ++ x :: lb) i f <:+ lb := by
      have h1 := suffix_atL (la ++ x :: lb) i f
      have h2 : lb <:+ la ++ x :: lb := ⟨la ++ [x], by simp⟩
      rcases List.suffix_or_suffix_of_suffix h1 h2 with h3 | ⟨p, h3⟩
      · exact h3
      · -- too long to be that short
        cases p with
        | nil => exact ⟨[], by simpa using h3.symm⟩
        | cons y ys =>
          exfalso
          obtain ⟨q, h4⟩ := h1
          rw [← h3] at h4
          have h5 : q ++ (y :: ys) = la ++ [x] := by
            have : (q ++ (y :: ys)) ++ lb = (la ++ [x]) ++ lb := by simpa using h4
            exact List.append_cancel_right this
          have h6 : ∃ zs, y :: ys = zs ++ [x] := by
            have := congrArg List.getLast? h5
            simp only [List.getLast?_append, List.getLast?_singleton, Option.some_or] at this
            rw [List.getLast?_eq_some_getLast (List.cons_ne_nil y ys)] at this
            simp at this
            exact ⟨(y :: ys).dropLast, by
              conv => lhs; rw [← List.dropLast_concat_getLast (List.cons_ne_nil y ys)]
              rw [this]⟩
          obtain ⟨zs, h6⟩ := h6
          rw [← h3, h6] at hc
          simp only [realKinds_append, List.append_assoc, List.length_append, hcx, List.length_cons] at hc hi
          have : (realKinds [x]).length = 1 := by simp [realKinds, hx]
          omega
    have h7 := wlen_suffix hsub
    simp only [wlen_append, wlen_cons] at h
    omega
  · intro h
    have : ∃ y, atL (la ++ x :: lb) i f = y ++ x :: lb := by
      have hd : dropReal i (la ++ x :: lb) = dropReal i la ++ x :: lb := dropReal_append _ h
      unfold atL
      rw [hd]
      split
      · exact ⟨_, rfl⟩
      · generalize dropReal i la = z
        induction z with
        | nil => exact ⟨[], by simp [afterTriv, hx]⟩
        | cons l ls ih =>
          by_cases ht : isTriv l = true
          · simpa [afterTriv, ht] using ih
          · exact ⟨l :: ls, by simp [afterTriv, ht]⟩
    obtain ⟨y, e⟩ := this
    rw [e]
    simp

end Verif
