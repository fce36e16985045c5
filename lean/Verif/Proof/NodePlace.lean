import Verif.Proof.NodeSwap

/-
Placing a tree in which a self-closing node was replaced.
-/
namespace Verif
namespace Pst
open Spec PTree Lua

mutual
theorem place_swap {K : SyntaxKind} {us : List PTree} {m : Nat} {X : List Lx} (hb : NewBlock us m X) {gs : List Green} (n n' : Nat)
    (t : PTree) {T : List Lx} {r : List SyntaxKind} {pre post : List Green} {c c' : Green} {a b : List Lx}
    (hT : realKinds T = yield t ++ r) (he : errors t = []) (hg : (place n t T).greens = pre ++ c :: post)
    (hs : Swap (.node K gs) (.node K (placeL m us X).greens) a b c c') :
    ∃ t', RepL K us [t] [t'] ∧
      (place n' t' (Green.leavesL pre ++ a ++ X ++ b ++ Green.leavesL post ++ (place n t T).rest)).greens = pre ++ c' :: post ∧
      (place n' t' (Green.leavesL pre ++ a ++ X ++ b ++ Green.leavesL post ++ (place n t T).rest)).rest = (place n t T).rest ∧
      realKinds (Green.leavesL pre ++ a ++ X ++ b ++ Green.leavesL post ++ (place n t T).rest) = yield t' ++ r ∧
      StartsReal (Green.leavesL gs ++ b ++ Green.leavesL post ++ (place n t T).rest) := by
  have htokens : ∀ {l : List Lx} {q : List Green}, l.map leaf = q → c ∈ q → False := by
    intro l q e hc
    rw [← e, List.mem_map] at hc
    obtain ⟨x, _, rfl⟩ := hc
    exact swap_token rfl hs
  cases t with
  | tok k =>
    exfalso
    simp only [place] at hg
    cases hA : afterTriv T with
    | nil =>
      rw [hA] at hg
      simp only [lead] at hg
      exact htokens hg (by simp)
    | cons l r' =>
      rw [hA] at hg
      simp only [lead] at hg
      exact htokens (l := T.takeWhile isTriv ++ [l]) (by simpa using hg) (by simp)
  | err e => simp [errors] at he
  | errNode cs e => simp [errors] at he
  | node k cs =>
    have hrest := realKinds_suffix n hT
    simp only [place] at hg hrest ⊢
    have hsplit : pre = lead T ∧ c = .node k (placeL n cs (afterTriv T)).greens ∧ post = [] := by
      rcases List.append_eq_append_iff.1 hg with ⟨q, e1, e2⟩ | ⟨q, e1, e2⟩
      · cases q with
        | nil =>
          simp only [List.append_nil, List.nil_append, List.cons.injEq] at e1 e2
          exact ⟨e1, e2.1.symm, e2.2.symm⟩
        | cons z q => simp at e2
      · cases q with
        | nil =>
          simp only [List.append_nil, List.nil_append, List.cons.injEq] at e1 e2
          exact ⟨e1.symm, e2.1, e2.2⟩
        | cons z q =>
          exfalso
          simp only [List.cons_append, List.cons.injEq] at e2
          refine htokens (l := T.takeWhile isTriv) (q := lead T) rfl ?_
          rw [e1, e2.1]; simp
    obtain ⟨rfl, rfl, rfl⟩ := hsplit
    generalize hc : Green.node k (placeL n cs (afterTriv T)).greens = c at hs
    cases hs with
    | here =>
      simp only [Green.node.injEq] at hc
      obtain ⟨rfl, rfl⟩ := hc
      have hlead := leavesL_lead T
      have e1 : Green.leavesL (lead T) ++ [] ++ X ++ [] ++ Green.leavesL [] ++ (placeL n cs (afterTriv T)).rest =
          Green.leavesL (lead T) ++ (X ++ (placeL n cs (afterTriv T)).rest) := by simp [Green.leavesL]
      have hX : StartsReal (X ++ (placeL n cs (afterTriv T)).rest) := startsReal_append hb.start hb.ne
      obtain ⟨l1, l2⟩ := lead_append (A := Green.leavesL (lead T)) (S := X ++ (placeL n cs (afterTriv T)).rest) (.inl hX)
      have l3 : lead (Green.leavesL (lead T)) = lead T ∧ afterTriv (Green.leavesL (lead T)) = [] := by
        obtain ⟨p1, p2⟩ := lead_append (A := Green.leavesL (lead T)) (S := afterTriv T) (.inl (startsReal_afterTriv T))
        rw [hlead] at p1 p2
        exact ⟨p1.symm, by simpa using p2⟩
      rw [l3.1] at l1
      rw [l3.2] at l2
      obtain ⟨g1, g2⟩ := placeL_local n' m us X (placeL n cs (afterTriv T)).rest [] (by rw [hb.kinds]; simp)
        (.inr (.inr hb.solid))
      refine ⟨.node _ us, .here, ?_, ?_, ?_, ?_⟩
      · rw [e1]
        simp only [place, l1, l2]
        simp [g1]
      · rw [e1]
        simp only [place, l2]
        simp [g2, hb.rest]
      · rw [e1, realKinds_append, realKinds_append, realKinds_lead, hb.kinds, hrest]
        simp [PTree.yield]
      · have := placeL_leaves n cs (afterTriv T)
        simp only [Green.leavesL, List.append_nil]
        rw [this]
        exact startsReal_afterTriv T
    | @down k2 pre2 c2 c2' post2 a2 b2 hs2 =>
      simp only [Green.node.injEq] at hc
      obtain ⟨rfl, hc⟩ := hc
      obtain ⟨cs', i1, i2, i3, i4, i5⟩ := placeL_swap hb n n' cs (T := afterTriv T) (r := r)
        (by rw [realKinds_afterTriv, hT]; rfl) (by simpa [errors] using he) hc hs2
      have hlead := leavesL_lead T
      have e1 : Green.leavesL (lead T) ++ (Green.leavesL pre2 ++ a2) ++ X ++ (b2 ++ Green.leavesL post2) ++
          Green.leavesL [] ++ (placeL n cs (afterTriv T)).rest =
          Green.leavesL (lead T) ++ (Green.leavesL pre2 ++ a2 ++ X ++ b2 ++ Green.leavesL post2 ++ (placeL n cs (afterTriv T)).rest) := by
        simp [Green.leavesL]
      have hX : StartsReal (Green.leavesL pre2 ++ a2 ++ X ++ b2 ++ Green.leavesL post2 ++ (placeL n cs (afterTriv T)).rest) := by
        cases hpa : Green.leavesL pre2 ++ a2 with
        | nil =>
          have := startsReal_append (B := b2 ++ Green.leavesL post2 ++ (placeL n cs (afterTriv T)).rest) hb.start hb.ne
          simpa using this
        | cons z zs =>
          have h1 := placeL_leaves n cs (afterTriv T)
          have h2 : Green.leavesL (pre2 ++ c2 :: post2) = Green.leavesL pre2 ++ a2 ++ Green.leavesL gs ++ b2 ++ Green.leavesL post2 := by
            simp [leavesL_append, Green.leavesL, hs2.leaves.1, Green.leaves]
          rw [hc, h2, hpa] at h1
          have h3 := startsReal_afterTriv T z (by rw [← h1]; rfl)
          intro l hl
          simp at hl
          subst hl
          exact h3
      obtain ⟨l1, l2⟩ := lead_append (A := Green.leavesL (lead T)) (.inl hX)
      have l3 : lead (Green.leavesL (lead T)) = lead T ∧ afterTriv (Green.leavesL (lead T)) = [] := by
        obtain ⟨p1, p2⟩ := lead_append (A := Green.leavesL (lead T)) (S := afterTriv T) (.inl (startsReal_afterTriv T))
        rw [hlead] at p1 p2
        exact ⟨p1.symm, by simpa using p2⟩
      rw [l3.1] at l1
      rw [l3.2] at l2
      refine ⟨.node k cs', .down i1, ?_, ?_, ?_, ?_⟩
      · rw [e1]
        simp only [place, l1, l2, List.nil_append, i2]
      · rw [e1]
        simp only [place, l2, List.nil_append, i3]
      · rw [e1, realKinds_append, realKinds_lead, i4]
        simp [PTree.yield]
      · simpa [Green.leavesL] using i5
theorem placeL_swap {K : SyntaxKind} {us : List PTree} {m : Nat} {X : List Lx} (hb : NewBlock us m X) {gs : List Green} (n n' : Nat)
    (ts : List PTree) {T : List Lx} {r : List SyntaxKind} {pre post : List Green} {c c' : Green} {a b : List Lx}
    (hT : realKinds T = yieldL ts ++ r) (he : errorsL ts = []) (hg : (placeL n ts T).greens = pre ++ c :: post)
    (hs : Swap (.node K gs) (.node K (placeL m us X).greens) a b c c') :
    ∃ ts', RepL K us ts ts' ∧
      (placeL n' ts' (Green.leavesL pre ++ a ++ X ++ b ++ Green.leavesL post ++ (placeL n ts T).rest)).greens = pre ++ c' :: post ∧
      (placeL n' ts' (Green.leavesL pre ++ a ++ X ++ b ++ Green.leavesL post ++ (placeL n ts T).rest)).rest = (placeL n ts T).rest ∧
      realKinds (Green.leavesL pre ++ a ++ X ++ b ++ Green.leavesL post ++ (placeL n ts T).rest) = yieldL ts' ++ r ∧
      StartsReal (Green.leavesL gs ++ b ++ Green.leavesL post ++ (placeL n ts T).rest) := by
  cases ts with
  | nil => simp [placeL] at hg
  | cons t ts =>
    have hT' : realKinds T = yield t ++ (yieldL ts ++ r) := by rw [hT]; simp [yieldL]
    have hrest := realKinds_suffix n hT'
    simp only [errorsL, List.append_eq_nil_iff] at he
    simp only [placeL] at hg ⊢
    have hl1 := place_leaves n t T
    have hl2 := placeL_leaves n ts (place n t T).rest
    have hcases : (∃ q, pre = (place n t T).greens ++ q ∧ (placeL n ts (place n t T).rest).greens = q ++ c :: post) ∨
        (∃ q, (place n t T).greens = pre ++ c :: q ∧ post = q ++ (placeL n ts (place n t T).rest).greens) := by
      rcases List.append_eq_append_iff.1 hg with ⟨q, e1, e2⟩ | ⟨q, e1, e2⟩
      · exact .inl ⟨q, e1, e2⟩
      · cases q with
        | nil => exact .inl ⟨[], by simpa using e1.symm, by simpa using e2.symm⟩
        | cons z q =>
          simp only [List.cons_append, List.cons.injEq] at e2
          obtain ⟨rfl, rfl⟩ := e2
          exact .inr ⟨q, e1, rfl⟩
    rcases hcases with ⟨q, e1, e2⟩ | ⟨q, e1, e2⟩
    · -- in the tail
      subst e1
      obtain ⟨ts', i1, i2, i3, i4, i5⟩ := placeL_swap hb n n' ts hrest he.2 e2 hs
      have hA : realKinds (Green.leavesL (place n t T).greens) = yield t := by
        have h1 : realKinds (Green.leavesL (place n t T).greens) ++ realKinds (place n t T).rest = realKinds T := by
          rw [← realKinds_append, hl1]
        rw [hrest, hT'] at h1
        exact List.append_cancel_right h1
      have hA2 : realKinds (Green.leavesL (place n t T).greens ++ (Green.leavesL q ++ a)) =
          yield t ++ realKinds (Green.leavesL q ++ a) := by rw [realKinds_append, hA]
      -- the old tokens
      have hold : T = (Green.leavesL (place n t T).greens ++ (Green.leavesL q ++ a)) ++
          (Green.leavesL gs ++ b ++ Green.leavesL post ++ (placeL n ts (place n t T).rest).rest) := by
        have h2 : Green.leavesL (q ++ c :: post) = Green.leavesL q ++ a ++ Green.leavesL gs ++ b ++ Green.leavesL post := by
          simp [leavesL_append, Green.leavesL, hs.leaves.1, Green.leaves]
        rw [e2, h2] at hl2
        conv => lhs; rw [← hl1, ← hl2]
        simp
      obtain ⟨p1, p2⟩ := place_local n 0 t _ _ _ hA2 (.inl i5)
      rw [← hold] at p1 p2
      have hq : (place 0 t (Green.leavesL (place n t T).greens ++ (Green.leavesL q ++ a))).rest = Green.leavesL q ++ a := by
        have h2 : Green.leavesL (q ++ c :: post) = Green.leavesL q ++ a ++ Green.leavesL gs ++ b ++ Green.leavesL post := by
          simp [leavesL_append, Green.leavesL, hs.leaves.1, Green.leaves]
        rw [e2, h2] at hl2
        have : (place 0 t (Green.leavesL (place n t T).greens ++ (Green.leavesL q ++ a))).rest ++
            (Green.leavesL gs ++ b ++ Green.leavesL post ++ (placeL n ts (place n t T).rest).rest) =
            (Green.leavesL q ++ a) ++ (Green.leavesL gs ++ b ++ Green.leavesL post ++ (placeL n ts (place n t T).rest).rest) := by
          rw [← p2]
          conv => lhs; rw [← hl2]
          simp
        exact List.append_cancel_right this
      have hS' : StartsReal (X ++ (b ++ Green.leavesL post ++ (placeL n ts (place n t T).rest).rest)) :=
        startsReal_append hb.start hb.ne
      obtain ⟨p3, p4⟩ := place_local n' 0 t _ _ _ hA2 (.inl hS')
      rw [hq] at p4
      have e3 : Green.leavesL ((place n t T).greens ++ q) ++ a ++ X ++ b ++ Green.leavesL post ++
          (placeL n ts (place n t T).rest).rest =
          (Green.leavesL (place n t T).greens ++ (Green.leavesL q ++ a)) ++
            (X ++ (b ++ Green.leavesL post ++ (placeL n ts (place n t T).rest).rest)) := by
        simp [leavesL_append]
      have e4 : (Green.leavesL q ++ a) ++ (X ++ (b ++ Green.leavesL post ++ (placeL n ts (place n t T).rest).rest)) =
          Green.leavesL q ++ a ++ X ++ b ++ Green.leavesL post ++ (placeL n ts (place n t T).rest).rest := by simp
      refine ⟨t :: ts', .tail i1, ?_, ?_, ?_, i5⟩
      · rw [e3]
        simp only [placeL]
        rw [p4, e4, i2, p3, ← p1]
        simp
      · rw [e3]
        simp only [placeL]
        rw [p4, e4, i3]
      · rw [e3, List.append_assoc, realKinds_append, hA, e4, i4]
        simp [yieldL]
    · -- in the head
      subst e2
      obtain ⟨t', i1, i2, i3, i4, i5⟩ := place_swap hb n n' t hT' he.1 e1 hs
      have e3 : Green.leavesL pre ++ a ++ X ++ b ++ Green.leavesL (q ++ (placeL n ts (place n t T).rest).greens) ++
          (placeL n ts (place n t T).rest).rest =
          Green.leavesL pre ++ a ++ X ++ b ++ Green.leavesL q ++ (place n t T).rest := by
        conv => rhs; rw [← hl2]
        simp [leavesL_append]
      obtain ⟨q1, q2⟩ := placeL_n n' n ts (place n t T).rest r hrest
      refine ⟨t' :: ts, (repL_cons.2 (.inl ⟨t', i1, rfl⟩)), ?_, ?_, ?_, ?_⟩
      · rw [e3]
        simp only [placeL]
        rw [i3, i2, q1]
        simp
      · rw [e3]
        simp only [placeL]
        rw [i3, q2]
      · rw [e3, i4]
        simp [yieldL]
      · rw [leavesL_append]
        have : Green.leavesL gs ++ b ++ (Green.leavesL q ++ Green.leavesL (placeL n ts (place n t T).rest).greens) ++
            (placeL n ts (place n t T).rest).rest = Green.leavesL gs ++ b ++ Green.leavesL q ++ (place n t T).rest := by
          conv => rhs; rw [← hl2]
          simp
        rw [this]
        exact i5
end

/-! ### a node of a placed tree -/

mutual
theorem place_sub (n : Nat) (t : PTree) {T : List Lx} {r : List SyntaxKind} {pre post : List Green} {c : Green}
    {K : SyntaxKind} {gs : List Green} {p : List Nat} {a b : List Lx} (hT : realKinds T = yield t ++ r) (he : errors t = [])
    (hg : (place n t T).greens = pre ++ c :: post) (hc : Ctx (.node K gs) c p a b) :
    ∃ cs S r', Sub (.node K cs) t ∧ (placeL n cs (Green.leavesL gs ++ S)).greens = gs ∧
      StartsReal (Green.leavesL gs ++ S) ∧ realKinds (Green.leavesL gs ++ S) = yieldL cs ++ r' ∧ errorsL cs = [] := by
  have htokens : ∀ {l : List Lx} {q : List Green}, l.map leaf = q → c ∈ q → False := by
    intro l q e hm
    rw [← e, List.mem_map] at hm
    obtain ⟨x, _, rfl⟩ := hm
    generalize hx : Green.node K gs = x at hc
    simp only [leaf] at hc
    cases hc
    cases hx
  cases t with
  | tok k =>
    exfalso
    simp only [place] at hg
    cases hA : afterTriv T with
    | nil =>
      rw [hA] at hg
      simp only [lead] at hg
      exact htokens hg (by simp)
    | cons l r' =>
      rw [hA] at hg
      simp only [lead] at hg
      exact htokens (l := T.takeWhile isTriv ++ [l]) (by simpa using hg) (by simp)
  | err e => simp [errors] at he
  | errNode cs e => simp [errors] at he
  | node k cs =>
    simp only [place] at hg
    have hsplit : c = .node k (placeL n cs (afterTriv T)).greens := by
      have hm : c ∈ lead T ++ [.node k (placeL n cs (afterTriv T)).greens] := by rw [hg]; simp
      rcases List.mem_append.1 hm with hm | hm
      · exact (htokens (l := T.takeWhile isTriv) rfl hm).elim
      · simpa using hm
    have hT' : realKinds (afterTriv T) = yieldL cs ++ r := by rw [realKinds_afterTriv, hT]; rfl
    have he' : errorsL cs = [] := by simpa [errors] using he
    generalize hx : Green.node K gs = x at hc
    cases hc with
    | here =>
      rw [hsplit] at hx
      simp only [Green.node.injEq] at hx
      obtain ⟨rfl, rfl⟩ := hx
      have hl := placeL_leaves n cs (afterTriv T)
      exact ⟨cs, (placeL n cs (afterTriv T)).rest, r, .refl _, by rw [hl], by rw [hl]; exact startsReal_afterTriv T,
        by rw [hl]; exact hT', he'⟩
    | @down k2 pre2 c2 post2 p2 a2 b2 hc2 =>
      simp only [Green.node.injEq] at hsplit
      subst hx
      obtain ⟨cs', S, r', h1, h2⟩ := placeL_sub n cs hT' he' hsplit.2.symm hc2
      obtain ⟨d, hd, hs⟩ := h1
      exact ⟨cs', S, r', .node _ _ _ _ hd hs, h2⟩
theorem placeL_sub (n : Nat) (ts : List PTree) {T : List Lx} {r : List SyntaxKind} {pre post : List Green} {c : Green}
    {K : SyntaxKind} {gs : List Green} {p : List Nat} {a b : List Lx} (hT : realKinds T = yieldL ts ++ r) (he : errorsL ts = [])
    (hg : (placeL n ts T).greens = pre ++ c :: post) (hc : Ctx (.node K gs) c p a b) :
    ∃ cs S r', (∃ t ∈ ts, Sub (.node K cs) t) ∧ (placeL n cs (Green.leavesL gs ++ S)).greens = gs ∧
      StartsReal (Green.leavesL gs ++ S) ∧ realKinds (Green.leavesL gs ++ S) = yieldL cs ++ r' ∧ errorsL cs = [] := by
  cases ts with
  | nil => simp [placeL] at hg
  | cons t ts =>
    have hT' : realKinds T = yield t ++ (yieldL ts ++ r) := by rw [hT]; simp [yieldL]
    have hrest := realKinds_suffix n hT'
    simp only [errorsL, List.append_eq_nil_iff] at he
    simp only [placeL] at hg
    have hm : c ∈ (place n t T).greens ++ (placeL n ts (place n t T).rest).greens := by rw [hg]; simp
    rcases List.mem_append.1 hm with hm | hm
    · obtain ⟨q1, q2, e⟩ := List.append_of_mem hm
      obtain ⟨cs, S, r', h1, h2⟩ := place_sub n t hT' he.1 e hc
      exact ⟨cs, S, r', ⟨t, by simp, h1⟩, h2⟩
    · obtain ⟨q1, q2, e⟩ := List.append_of_mem hm
      obtain ⟨cs, S, r', ⟨d, hd, h1⟩, h2⟩ := placeL_sub n ts hrest he.2 e hc
      exact ⟨cs, S, r', ⟨d, by simp [hd], h1⟩, h2⟩
end

theorem realKindsL_suffix (n : Nat) : ∀ (ts : List PTree) {T : List Lx} {ks : List SyntaxKind},
    realKinds T = yieldL ts ++ ks → realKinds (placeL n ts T).rest = ks
  | [], _, _, h => by simpa [placeL, yieldL] using h
  | t :: ts, T, ks, h => by
    have h1 : realKinds T = yield t ++ (yieldL ts ++ ks) := by rw [h]; simp [yieldL]
    simp only [placeL]
    exact realKindsL_suffix n ts (realKinds_suffix n h1)

theorem placeL_app (n : Nat) (b : List PTree) : ∀ (a : List PTree) (T : List Lx),
    (placeL n (a ++ b) T).greens = (placeL n a T).greens ++ (placeL n b (placeL n a T).rest).greens
  | [], T => by simp [placeL]
  | t :: a, T => by
    simp only [List.cons_append, placeL]
    rw [placeL_app n b a]
    simp

/-- a self-closing node, with the tokens it is made of -/
theorem new_node {x : Dialect} {K : SyntaxKind} {cs : List PTree} {gs : List Green} {S : List Lx} {r' : List SyntaxKind} {n : Nat}
    (hK : K ∈ selfClosing) (hgood : Good x K cs) (h1 : (placeL n cs (Green.leavesL gs ++ S)).greens = gs)
    (h2 : StartsReal (Green.leavesL gs ++ S)) (h3 : realKinds (Green.leavesL gs ++ S) = yieldL cs ++ r') :
    NewBlock cs n (Green.leavesL gs) ∧ (placeL n cs (Green.leavesL gs)).greens = gs ∧
      ∃ l y z, Green.leavesL gs = l :: y ++ [z] ∧ l.1 = opener K ∧ z.1 = closer K := by
  obtain ⟨mid, rfl⟩ := good_shape hK hgood
  have hl := placeL_leaves n (.tok (opener K) :: (mid ++ [.tok (closer K)])) (Green.leavesL gs ++ S)
  rw [h1] at hl
  have hrest := List.append_cancel_left hl
  have hsolid : solidL (.tok (opener K) :: (mid ++ [.tok (closer K)])) = true :=
    solidL_append (a := .tok (opener K) :: mid) (by simp [solidL, solid])
  have hS : realKinds S = r' := by
    have := realKindsL_suffix n _ h3
    rw [hrest] at this
    exact this
  have hkinds : realKinds (Green.leavesL gs) = yieldL (.tok (opener K) :: (mid ++ [.tok (closer K)])) := by
    rw [realKinds_append, hS] at h3
    exact List.append_cancel_right h3
  obtain ⟨g1, g2⟩ := placeL_local n n _ (Green.leavesL gs) S [] (by rw [hkinds]; simp) (.inr (.inr hsolid))
  rw [h1] at g1
  have hr0 : (placeL n (.tok (opener K) :: (mid ++ [.tok (closer K)])) (Green.leavesL gs)).rest = [] := by
    have := placeL_leaves n (.tok (opener K) :: (mid ++ [.tok (closer K)])) (Green.leavesL gs)
    rw [← g1] at this
    simpa using this
  have hne : Green.leavesL gs ≠ [] := by
    intro e; rw [e] at hkinds; simp [realKinds, yieldL, PTree.yield] at hkinds
  have hstart : StartsReal (Green.leavesL gs) := by
    intro l hl
    refine h2 l ?_
    cases he : Green.leavesL gs with
    | nil => rw [he] at hl; simp at hl
    | cons a b => rw [he] at hl; simpa using hl
  refine ⟨⟨hr0, hkinds, hsolid, hstart⟩, g1.symm, ?_⟩
  -- the first and the last token
  obtain ⟨l, rest, e⟩ := List.exists_cons_of_ne_nil hne
  have hlr : isTriv l = false := hstart l (by rw [e]; rfl)
  have hl1 : l.1 = opener K := by
    rw [e] at hkinds
    simp [realKinds, hlr, yieldL, PTree.yield] at hkinds
    exact hkinds.1
  have hz : ∃ y z, Green.leavesL gs = y ++ [z] ∧ isTriv z = false := by
    have e2 : (placeL n ((.tok (opener K) :: mid) ++ [.tok (closer K)]) (Green.leavesL gs)).greens = gs := g1.symm
    rw [placeL_app] at e2
    generalize hq : (placeL n (.tok (opener K) :: mid) (Green.leavesL gs)) = q at e2
    have hqr : realKinds q.rest = [closer K] := by
      have : realKinds (Green.leavesL gs) = yieldL (.tok (opener K) :: mid) ++ [closer K] := by
        rw [hkinds]; simp [yieldL, PTree.yield]
      have := realKindsL_suffix n _ this
      rw [hq] at this
      exact this
    simp only [placeL, place] at e2
    cases hA : afterTriv q.rest with
    | nil =>
      rw [← realKinds_afterTriv, hA] at hqr
      simp [realKinds] at hqr
    | cons z r =>
      rw [hA] at e2
      refine ⟨Green.leavesL q.greens ++ Green.leavesL (lead q.rest), z, ?_, startsReal_afterTriv q.rest z (by rw [hA]; rfl)⟩
      conv => lhs; rw [← e2]
      simp [leavesL_append, Green.leavesL, leaf, Green.leaves]
  obtain ⟨y, z, ey, hzr⟩ := hz
  have hz1 : z.1 = closer K := by
    rw [ey, realKinds_append] at hkinds
    have : realKinds [z] = [z.1] := by simp [realKinds, hzr]
    rw [this] at hkinds
    have e3 : yieldL (.tok (opener K) :: (mid ++ [.tok (closer K)])) = (opener K :: yieldL mid) ++ [closer K] := by
      simp [yieldL, PTree.yield]
    rw [e3] at hkinds
    have := (List.append_inj' hkinds rfl).2
    simpa using this
  cases y with
  | nil =>
    exfalso
    rw [e] at ey
    simp only [List.nil_append, List.cons.injEq] at ey
    rw [e, ey.2] at hkinds
    have := congrArg List.length hkinds
    simp [realKinds, hlr, yieldL, PTree.yield] at this
  | cons y0 ys =>
    rw [e] at ey
    simp only [List.cons_append, List.cons.injEq] at ey
    exact ⟨l, ys, z, by rw [e, ey.2]; rfl, hl1, hz1⟩

end Pst
end Verif
