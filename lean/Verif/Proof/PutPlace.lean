import Verif.Proof.NodePut
import Verif.Proof.WrapPlace

/-
Placing a tree in which an expression was exchanged for another one.
-/
namespace Verif
namespace Put
open PTree Lua
open Spec (expressionKinds valuePlaces)

/-- `g'` is `g` with the expression `x` between the leaves `a` and `b` replaced by `y`. The flags are those of `PutL`: whether `g`
itself may be replaced, and whether, if it is a list, its elements may. -/
inductive GP (V : List SyntaxKind) (x y : Green) : Bool → Bool → List Nat → List Lx → List Lx → Green → Green → Prop
  | here {s} : GP V x y true s [] [] [] x y
  | down {p s k pre c c' post q a b} :
      GP V x y (decide (k ∈ V) || (decide (k = .multivalExpr) && s))
        (decide (k ≠ .exprStmt ∧ k ≠ .assignStmt) || pre.any (·.isNode)) q a b c c' →
      GP V x y p s (pre.length :: q) (Green.leavesL pre ++ a) (b ++ Green.leavesL post)
        (.node k (pre ++ c :: post)) (.node k (pre ++ c' :: post))

variable {A V : List SyntaxKind} {x y : Green}

theorem GP.leaves {p s q a b g g'} (h : GP V x y p s q a b g g') :
    g.leaves = a ++ x.leaves ++ b ∧ g'.leaves = a ++ y.leaves ++ b := by
  induction h with
  | here => simp
  | down _ ih => simp [Green.leaves, Green.leavesL, leavesL_append, ih.1, ih.2]

theorem GP.mono {W : List SyntaxKind} (hVW : ∀ k ∈ V, k ∈ W) {p p' s q a b g g'} (hp : p = true → p' = true)
    (h : GP V x y p s q a b g g') : GP W x y p' s q a b g g' := by
  induction h generalizing p' with
  | here => obtain rfl := hp rfl; exact .here
  | down _ ih =>
    refine .down (ih fun h => ?_)
    simp only [Bool.or_eq_true, decide_eq_true_eq] at h ⊢
    exact h.imp_left (hVW _)

theorem GP.replace {p s q a b g g'} (h : GP V x y p s q a b g g') : g' = Green.replaceAt y q g := by
  induction h with
  | here => rfl
  | down _ ih => simp only [Green.replaceAt, modify_mid, ← ih]

theorem GP.node {p s q a b g g'} (hx : x.isNode = true) (hy : y.isNode = true) (h : GP V x y p s q a b g g') :
    g.isNode = true ∧ g'.isNode = true := by
  cases h
  · exact ⟨hx, hy⟩
  · exact ⟨rfl, rfl⟩

theorem GP.ctx {p s q a b g g'} (h : GP V x y p s q a b g g') : Ctx x g q a b := by
  induction h with
  | here => exact .here
  | down _ ih => exact .down ih

theorem GP.of {z g pa a b} (h : Ctx z g pa a b) {q a' b' z'} (hx : ∀ p s, GP V x y p s q a' b' z z') :
    ∃ g', ∀ p s, GP V x y p s (pa ++ q) (a ++ a') (b' ++ b) g g' := by
  induction h with
  | here => exact ⟨z', by simpa using hx⟩
  | @down k pre c post p a b _ ih =>
    obtain ⟨g', ih⟩ := ih
    exact ⟨.node k (pre ++ g' :: post), fun p s => by simpa using GP.down (p := p) (s := s) (pre := pre) (post := post) (ih _ _)⟩

theorem put_cons {E : PTree} {p s t t' b a} (ts : List PTree) (h : PutL A V E p s [t] [t'] b a) :
    PutL A V E p s (t :: ts) (t' :: ts) b (a ++ yieldL ts) := by
  generalize e1 : [t] = l at h
  generalize e2 : [t'] = l' at h
  cases h with
  | here h1 =>
    simp only [List.cons.injEq] at e1 e2
    obtain ⟨rfl, rfl⟩ := e1
    obtain ⟨rfl, -⟩ := e2
    simpa [yieldL] using PutL.here (ts := ts) h1
  | down h =>
    simp only [List.cons.injEq] at e1 e2
    obtain ⟨rfl, rfl⟩ := e1
    obtain ⟨rfl, -⟩ := e2
    simpa [yieldL] using PutL.down (p := p) (ts := ts) h
  | tail h =>
    simp only [List.cons.injEq] at e1
    obtain ⟨-, rfl⟩ := e1
    cases h

theorem lead_nodes (T : List Lx) : (lead T).any (·.isNode) = false := by
  rw [List.any_eq_false]
  intro g hg
  simp only [lead, List.mem_map] at hg
  obtain ⟨l, -, rfl⟩ := hg
  simp [leaf, Green.isNode]

theorem place_nodes (n : Nat) (t : PTree) (T : List Lx) (he : errors t = []) : (place n t T).greens.any (·.isNode) = isNodeT t := by
  cases t with
  | err e => simp [errors] at he
  | errNode cs e => simp [errors] at he
  | node k cs => simp [place, isNodeT, Green.isNode]
  | tok k =>
    simp only [place]
    cases hA : afterTriv T with
    | nil => simpa [isNodeT] using lead_nodes T
    | cons l r =>
      rw [List.any_append, lead_nodes]
      simp [isNodeT, leaf, Green.isNode]

variable {K K2 : SyntaxKind} {gs : List Green} {us : List PTree} {m : Nat} {X : List Lx}

mutual
theorem place_put (hb : NewBlock us m X) (hK : K ∈ A) (n n' : Nat)
    (t : PTree) {T : List Lx} {r : List SyntaxKind} {pre post : List Green} {p s : Bool} {qs : List Nat} {c c' : Green} {a b : List Lx}
    (hT : realKinds T = yield t ++ r) (he : errors t = []) (hg : (place n t T).greens = pre ++ c :: post)
    (hs : GP V (.node K gs) (.node K2 (placeL m us X).greens) p (s || pre.any (·.isNode)) qs a b c c') :
    ∃ t', PutL A V (.node K2 us) p s [t] [t'] (realKinds (Green.leavesL pre ++ a)) (realKinds (b ++ Green.leavesL post)) ∧
      (place n' t' (Green.leavesL pre ++ a ++ X ++ b ++ Green.leavesL post ++ (place n t T).rest)).greens = pre ++ c' :: post ∧
      (place n' t' (Green.leavesL pre ++ a ++ X ++ b ++ Green.leavesL post ++ (place n t T).rest)).rest = (place n t T).rest ∧
      realKinds (Green.leavesL pre ++ a ++ X ++ b ++ Green.leavesL post ++ (place n t T).rest) = yield t' ++ r ∧
      StartsReal (Green.leavesL gs ++ b ++ Green.leavesL post ++ (place n t T).rest) := by
  have hnil : realKinds [] = [] := rfl
  have htokens : ∀ {l : List Lx} {q : List Green}, l.map leaf = q → c ∈ q → False := by
    intro l q e hc
    rw [← e, List.mem_map] at hc
    obtain ⟨x, _, rfl⟩ := hc
    have := (hs.node rfl rfl).1
    simp [leaf, Green.isNode] at this
  cases t with
  | tok k =>
    exfalso
    simp only [place] at hg
    cases hA : afterTriv T with
    | nil =>
      rw [hA] at hg
      simp only [lead] at hg
      exact htokens hg (by simp)
    | cons l r' =>
      rw [hA] at hg
      simp only [lead] at hg
      exact htokens (l := T.takeWhile isTriv ++ [l]) (by simpa using hg) (by simp)
  | err e => simp [errors] at he
  | errNode cs e => simp [errors] at he
  | node k cs =>
    have hrest := realKinds_suffix n hT
    simp only [place] at hg hrest ⊢
    have hsplit : pre = lead T ∧ c = .node k (placeL n cs (afterTriv T)).greens ∧ post = [] := by
      rcases List.append_eq_append_iff.1 hg with ⟨q, e1, e2⟩ | ⟨q, e1, e2⟩
      · cases q with
        | nil =>
          simp only [List.append_nil, List.nil_append, List.cons.injEq] at e1 e2
          exact ⟨e1, e2.1.symm, e2.2.symm⟩
        | cons z q => simp at e2
      · cases q with
        | nil =>
          simp only [List.append_nil, List.nil_append, List.cons.injEq] at e1 e2
          exact ⟨e1.symm, e2.1, e2.2⟩
        | cons z q =>
          exfalso
          simp only [List.cons_append, List.cons.injEq] at e2
          refine htokens (l := T.takeWhile isTriv) (q := lead T) rfl ?_
          rw [e1, e2.1]; simp
    obtain ⟨rfl, rfl, rfl⟩ := hsplit
    generalize hc : Green.node k (placeL n cs (afterTriv T)).greens = c at hs
    have hlead := leavesL_lead T
    have l3 : lead (Green.leavesL (lead T)) = lead T ∧ afterTriv (Green.leavesL (lead T)) = [] := by
      obtain ⟨p1, p2⟩ := lead_append (A := Green.leavesL (lead T)) (S := afterTriv T) (.inl (startsReal_afterTriv T))
      rw [hlead] at p1 p2
      exact ⟨p1.symm, by simpa using p2⟩
    cases hs with
    | here =>
      simp only [Green.node.injEq] at hc
      obtain ⟨rfl, rfl⟩ := hc
      have e1 : Green.leavesL (lead T) ++ [] ++ X ++ [] ++ Green.leavesL [] ++ (placeL n cs (afterTriv T)).rest =
          Green.leavesL (lead T) ++ (X ++ (placeL n cs (afterTriv T)).rest) := by simp [Green.leavesL]
      have hX : StartsReal (X ++ (placeL n cs (afterTriv T)).rest) := startsReal_append hb.start hb.ne
      obtain ⟨l1, l2⟩ := lead_append (A := Green.leavesL (lead T)) (S := X ++ (placeL n cs (afterTriv T)).rest) (.inl hX)
      rw [l3.1] at l1
      rw [l3.2] at l2
      obtain ⟨g1, g2⟩ := placeL_local n' m us X (placeL n cs (afterTriv T)).rest [] (by rw [hb.kinds]; simp)
        (.inr (.inr hb.solid))
      refine ⟨.node K2 us, ?_, ?_, ?_, ?_, ?_⟩
      · have := PutL.here (V := V) (E := .node K2 us) (s := s) (cs := cs) (ts := []) hK
        simpa [Green.leavesL, realKinds_lead, yieldL, hnil] using this
      · rw [e1]
        simp only [place, l1, l2]
        simp [g1]
      · rw [e1]
        simp only [place, l2]
        simp [g2, hb.rest]
      · rw [e1, realKinds_append, realKinds_append, realKinds_lead, hb.kinds, hrest]
        simp [PTree.yield]
      · have := placeL_leaves n cs (afterTriv T)
        simp only [Green.leavesL, List.append_nil]
        rw [this]
        exact startsReal_afterTriv T
    | @down _ _ k2 pre2 c2 c2' post2 q2 a2 b2 hs2 =>
      simp only [Green.node.injEq] at hc
      obtain ⟨rfl, hc⟩ := hc
      obtain ⟨cs', i1, i2, i3, i4, i5⟩ := placeL_put hb hK n n' cs (T := afterTriv T) (r := r)
        (by rw [realKinds_afterTriv, hT]; rfl) (by simpa [errors] using he) hc hs2
      have e1 : Green.leavesL (lead T) ++ (Green.leavesL pre2 ++ a2) ++ X ++ (b2 ++ Green.leavesL post2) ++
          Green.leavesL [] ++ (placeL n cs (afterTriv T)).rest =
          Green.leavesL (lead T) ++ (Green.leavesL pre2 ++ a2 ++ X ++ b2 ++ Green.leavesL post2 ++ (placeL n cs (afterTriv T)).rest) := by
        simp [Green.leavesL]
      have hX : StartsReal (Green.leavesL pre2 ++ a2 ++ X ++ b2 ++ Green.leavesL post2 ++ (placeL n cs (afterTriv T)).rest) := by
        cases hpa : Green.leavesL pre2 ++ a2 with
        | nil =>
          have := startsReal_append (B := b2 ++ Green.leavesL post2 ++ (placeL n cs (afterTriv T)).rest) hb.start hb.ne
          simpa using this
        | cons z zs =>
          have h1 := placeL_leaves n cs (afterTriv T)
          have h2 : Green.leavesL (pre2 ++ c2 :: post2) = Green.leavesL pre2 ++ a2 ++ Green.leavesL gs ++ b2 ++ Green.leavesL post2 := by
            simp [leavesL_append, Green.leavesL, hs2.leaves.1, Green.leaves]
          rw [hc, h2, hpa] at h1
          have h3 := startsReal_afterTriv T z (by rw [← h1]; rfl)
          intro l hl
          simp at hl
          subst hl
          exact h3
      obtain ⟨l1, l2⟩ := lead_append (A := Green.leavesL (lead T)) (.inl hX)
      rw [l3.1] at l1
      rw [l3.2] at l2
      refine ⟨.node k cs', ?_, ?_, ?_, ?_, ?_⟩
      · have := PutL.down (p := p) (s := s) (ts := []) (by simpa [lead_nodes] using i1)
        simpa [realKinds_append, realKinds_lead, yieldL, Green.leavesL, hnil] using this
      · rw [e1]
        simp only [place, l1, l2, List.nil_append, i2]
      · rw [e1]
        simp only [place, l2, List.nil_append, i3]
      · rw [e1, realKinds_append, realKinds_lead, i4]
        simp [PTree.yield]
      · simpa [Green.leavesL] using i5
theorem placeL_put (hb : NewBlock us m X) (hK : K ∈ A) (n n' : Nat)
    (ts : List PTree) {T : List Lx} {r : List SyntaxKind} {pre post : List Green} {p s : Bool} {qs : List Nat} {c c' : Green} {a b : List Lx}
    (hT : realKinds T = yieldL ts ++ r) (he : errorsL ts = []) (hg : (placeL n ts T).greens = pre ++ c :: post)
    (hs : GP V (.node K gs) (.node K2 (placeL m us X).greens) p (s || pre.any (·.isNode)) qs a b c c') :
    ∃ ts', PutL A V (.node K2 us) p s ts ts' (realKinds (Green.leavesL pre ++ a)) (realKinds (b ++ Green.leavesL post)) ∧
      (placeL n' ts' (Green.leavesL pre ++ a ++ X ++ b ++ Green.leavesL post ++ (placeL n ts T).rest)).greens = pre ++ c' :: post ∧
      (placeL n' ts' (Green.leavesL pre ++ a ++ X ++ b ++ Green.leavesL post ++ (placeL n ts T).rest)).rest = (placeL n ts T).rest ∧
      realKinds (Green.leavesL pre ++ a ++ X ++ b ++ Green.leavesL post ++ (placeL n ts T).rest) = yieldL ts' ++ r ∧
      StartsReal (Green.leavesL gs ++ b ++ Green.leavesL post ++ (placeL n ts T).rest) := by
  cases ts with
  | nil => simp [placeL] at hg
  | cons t ts =>
    have hT' : realKinds T = yield t ++ (yieldL ts ++ r) := by rw [hT]; simp [yieldL]
    have hrest := realKinds_suffix n hT'
    simp only [errorsL, List.append_eq_nil_iff] at he
    simp only [placeL] at hg ⊢
    have hl1 := place_leaves n t T
    have hl2 := placeL_leaves n ts (place n t T).rest
    have hcases : (∃ q, pre = (place n t T).greens ++ q ∧ (placeL n ts (place n t T).rest).greens = q ++ c :: post) ∨
        (∃ q, (place n t T).greens = pre ++ c :: q ∧ post = q ++ (placeL n ts (place n t T).rest).greens) := by
      rcases List.append_eq_append_iff.1 hg with ⟨q, e1, e2⟩ | ⟨q, e1, e2⟩
      · exact .inl ⟨q, e1, e2⟩
      · cases q with
        | nil => exact .inl ⟨[], by simpa using e1.symm, by simpa using e2.symm⟩
        | cons z q =>
          simp only [List.cons_append, List.cons.injEq] at e2
          obtain ⟨rfl, rfl⟩ := e2
          exact .inr ⟨q, e1, rfl⟩
    rcases hcases with ⟨q, e1, e2⟩ | ⟨q, e1, e2⟩
    · -- in the tail
      subst e1
      obtain ⟨ts', i1, i2, i3, i4, i5⟩ := placeL_put hb hK n n' ts hrest he.2 e2 (p := p) (s := s || isNodeT t) (by rw [← place_nodes n t T he.1, Bool.or_assoc, ← List.any_append]; exact hs)
      have hA : realKinds (Green.leavesL (place n t T).greens) = yield t := by
        have h1 : realKinds (Green.leavesL (place n t T).greens) ++ realKinds (place n t T).rest = realKinds T := by
          rw [← realKinds_append, hl1]
        rw [hrest, hT'] at h1
        exact List.append_cancel_right h1
      have hA2 : realKinds (Green.leavesL (place n t T).greens ++ (Green.leavesL q ++ a)) =
          yield t ++ realKinds (Green.leavesL q ++ a) := by rw [realKinds_append, hA]
      -- the old tokens
      have h2 : Green.leavesL (q ++ c :: post) = Green.leavesL q ++ a ++ Green.leavesL gs ++ b ++ Green.leavesL post := by
        simp [leavesL_append, Green.leavesL, hs.leaves.1, Green.leaves]
      have hold : T = (Green.leavesL (place n t T).greens ++ (Green.leavesL q ++ a)) ++
          (Green.leavesL gs ++ b ++ Green.leavesL post ++ (placeL n ts (place n t T).rest).rest) := by
        rw [e2, h2] at hl2
        conv => lhs; rw [← hl1, ← hl2]
        simp
      obtain ⟨p1, p2⟩ := place_local n 0 t _ _ _ hA2 (.inl i5)
      rw [← hold] at p1 p2
      have hq : (place 0 t (Green.leavesL (place n t T).greens ++ (Green.leavesL q ++ a))).rest = Green.leavesL q ++ a := by
        rw [e2, h2] at hl2
        have : (place 0 t (Green.leavesL (place n t T).greens ++ (Green.leavesL q ++ a))).rest ++
            (Green.leavesL gs ++ b ++ Green.leavesL post ++ (placeL n ts (place n t T).rest).rest) =
            (Green.leavesL q ++ a) ++ (Green.leavesL gs ++ b ++ Green.leavesL post ++ (placeL n ts (place n t T).rest).rest) := by
          rw [← p2]
          conv => lhs; rw [← hl2]
          simp
        exact List.append_cancel_right this
      have hS' : StartsReal (X ++ (b ++ Green.leavesL post ++ (placeL n ts (place n t T).rest).rest)) := 
        startsReal_append hb.start hb.ne
      obtain ⟨p3, p4⟩ := place_local n' 0 t _ _ _ hA2 (.inl hS')
      rw [hq] at p4
      have e3 : Green.leavesL ((place n t T).greens ++ q) ++ a ++ X ++ b ++ Green.leavesL post ++
          (placeL n ts (place n t T).rest).rest =
          (Green.leavesL (place n t T).greens ++ (Green.leavesL q ++ a)) ++
            (X ++ (b ++ Green.leavesL post ++ (placeL n ts (place n t T).rest).rest)) := by
        simp [leavesL_append]
      have e4 : (Green.leavesL q ++ a) ++ (X ++ (b ++ Green.leavesL post ++ (placeL n ts (place n t T).rest).rest)) =
          Green.leavesL q ++ a ++ X ++ b ++ Green.leavesL post ++ (placeL n ts (place n t T).rest).rest := by simp
      refine ⟨t :: ts', ?_, ?_, ?_, ?_, i5⟩
      · have := PutL.tail (t := t) i1
        rw [← hA] at this
        simpa [realKinds_append, leavesL_append] using this
      · rw [e3]
        simp only [placeL]
        rw [p4, e4, i2, p3, ← p1]
        simp
      · rw [e3]
        simp only [placeL]
        rw [p4, e4, i3]
      · rw [e3, List.append_assoc, realKinds_append, hA, e4, i4]
        simp [yieldL]
    · -- in the head
      subst e2
      obtain ⟨t', i1, i2, i3, i4, i5⟩ := place_put hb hK n n' t hT' he.1 e1 hs
      have e3 : Green.leavesL pre ++ a ++ X ++ b ++ Green.leavesL (q ++ (placeL n ts (place n t T).rest).greens) ++
          (placeL n ts (place n t T).rest).rest =
          Green.leavesL pre ++ a ++ X ++ b ++ Green.leavesL q ++ (place n t T).rest := by
        conv => rhs; rw [← hl2]
        simp [leavesL_append]
      obtain ⟨q1, q2⟩ := placeL_n n' n ts (place n t T).rest r hrest
      have hB : realKinds (Green.leavesL (placeL n ts (place n t T).rest).greens) = yieldL ts := by
        have h1 : realKinds (Green.leavesL (placeL n ts (place n t T).rest).greens) ++ realKinds (placeL n ts (place n t T).rest).rest =
            realKinds (place n t T).rest := by rw [← realKinds_append, hl2]
        rw [Pst.realKindsL_suffix n ts hrest, hrest] at h1
        exact List.append_cancel_right h1
      refine ⟨t' :: ts, ?_, ?_, ?_, ?_, ?_⟩
      · have := put_cons ts i1
        rw [← hB] at this
        simpa [realKinds_append, leavesL_append] using this
      · rw [e3]
        simp only [placeL]
        rw [i3, i2, q1]
        simp
      · rw [e3]
        simp only [placeL]
        rw [i3, q2]
      · rw [e3, i4]
        simp [yieldL]
      · rw [leavesL_append]
        have : Green.leavesL gs ++ b ++ (Green.leavesL q ++ Green.leavesL (placeL n ts (place n t T).rest).greens) ++
            (placeL n ts (place n t T).rest).rest = Green.leavesL gs ++ b ++ Green.leavesL q ++ (place n t T).rest := by
          conv => rhs; rw [← hl2]
          simp
        rw [this]
        exact i5
end

end Put
end Verif
